import Verif.Lemmas.GenDBWired
/-!
What is true of a `GenDB` after rows have been incorporated.
-/
namespace Verif
namespace GenDB
open PClean
noncomputable section
variable {V : Type} {F : Family V} {L : FamilyLaws F} {s : PClean.Schema} {hash : String → Int} {mkC : String → FMap String String → Res F.C}
  {mkE : String → FMap String String → Res F.E} {clean finalOnly : Bool} {D₀ : DB F}

theorem Asks.tupleOf {D : DB F} {q : String} {spec : RelSpec F} {hops : List (String × String)} {d : String} {ds : List String} (h : Asks D q spec hops d ds)
    {e : Ents} {id : Int} {k : Items} : RowTuple D spec hops d ds e id k ↔ TupleOf D.schema e q id k := by
  obtain ⟨f, x, j, p, hf, hp⟩ := h.path
  constructor
  · rintro ⟨h1, h2⟩
    rw [h.doms] at h1
    exact ⟨f, hops, d, x, j, p, ds, hf, hp, h.layout, h1, h2⟩
  · rintro ⟨f', hops', d', x', j', p', ds', hf', hp', hl', h1, h2⟩
    rw [hf] at hf'
    cases hf'
    obtain ⟨rfl, rfl, rfl, rfl, rfl⟩ := hp.unique hp'
    have := layout_unique h.layout hl'
    subst this
    refine ⟨?_, h2⟩
    rw [h.doms]
    exact h1

theorem TupleOf.mono {e e' : Ents} (hx : Extends e e') {q : String} {id : Int} {k : Items} (h : TupleOf s e q id k) : TupleOf s e' q id k := by
  obtain ⟨f, hops, d, x, j, p, ds, h1, h2, h3, h4, h5⟩ := h
  exact ⟨f, hops, d, x, j, p, ds, h1, h2, h3, h4.mono hx, h5⟩

theorem Laid.complete (hm : Laid s hash mkC mkE clean finalOnly D₀) (hf : Fine s clean) (hi : Indexed s finalOnly) {q : String} {f : QueryField}
    {hops : List (String × String)} {d x j : String} {p : FMap String String} {ds : List String} (hq : s.query.fields.find? q = some f)
    (hp : PathTo s s.query.recordClass f.classPath hops d x j p) (hds : Layout s d ds) : Complete D₀ q d ds.length hops := by
  obtain ⟨Ly, b, h1, h2, h3, h4⟩ := hm.build
  have hno : (∀ g y, ¬ Refers s d g y) → ∀ i f j, ¬ RefAt s d i f j := by
    intro hn i f j hr
    obtain ⟨cl, es, hc, hs, rfl⟩ := hds.sub
    have : refFields cl = [] := by
      cases hx : refFields cl with
      | nil => rfl
      | cons a l => exact absurd ⟨cl, hc, by rw [hx]; exact List.mem_cons_self ..⟩ (hn a.1 a.2)
    exact no_refAt hc this hr
  intro i g i' ht
  rw [hm.schema] at ht
  by_cases hh : hops = []
  · subst hh
    exact absurd (tupleRef_nil.mp ht) (hno (hi q f [] d x j p hq hp (Or.inl rfl)) _ _ _)
  · cases hfin : finalOnly with
    | false =>
      subst hfin
      cases hops with
      | nil => exact absurd rfl hh
      | cons hop hops =>
        obtain ⟨c, g'⟩ := hop
        obtain ⟨_, _, h⟩ := kind_link hf h1 h2 hq hp hds (pre := []) (c := c) (g := g') (post := hops) rfl
        rw [h3]
        have := (h i g i').mpr ht
        simpa [linkRel] using this
    | true =>
      subst hfin
      have hnr := hi q f hops d x j p hq hp (Or.inr rfl)
      have hfield := (C62_relations hf.names hf.query h1 h2).2.1 q f hops d x j p ds hq hp hds
      cases hops with
      | nil => exact absurd rfl hh
      | cons hop hops =>
        obtain ⟨e', r, _, q1, q2, q3⟩ := hfield
        refine ⟨r, by rw [h3]; exact q2, (q3 i g i').mpr ?_⟩
        have hr := ht.resolve_left (hno hnr _ _ _)
        cases hx : Ly.classIdx.find? d with
        | none => exact hr
        | some r₀ =>
          exfalso
          obtain ⟨l1, l2⟩ := layoutsOf_spec h1
          have hd : DomsOk s Ly.doms := fun c ds h => ((C45_layout l1 c).2 ds).mp h
          obtain ⟨i1, _, _⟩ := refsCache_spec hd (idx := ∅) (fun c r h => by simp at h) l2
          obtain ⟨g', y, hy⟩ := (i1 d r₀ hx).has
          exact hnr g' y hy

theorem Laid.narrow (hm : Laid s hash mkC mkE clean finalOnly D₀) (hf : Fine s clean) (hu : Unbranched s) {q : String} {spec : RelSpec F}
    {hops : List (String × String)} {d : String} {ds : List String} (ha : Asks D₀ q spec hops d ds) : Narrow D₀ spec hops ds := by
  obtain ⟨Ly, b, h1, h2, h3, h4⟩ := hm.build
  obtain ⟨f, x, j, p, hq, hp⟩ := ha.path
  rw [hm.schema] at hq hp
  have hk := kind_field hf h1 h2 hq hp (by have := ha.layout; rw [hm.schema] at this; exact this) (spec := spec) (by rw [← h4]; exact ha.known)
  intro m sp k c g hb hsp hlt hg f' y hr
  obtain ⟨sp', pre, post, c', path', x', j', p', w1, rfl, w3, w4, w5, w6, w7⟩ := hk.base m hb
  rw [h4, w1] at hsp
  cases hsp
  rw [w6] at hlt
  simp only [List.length_append, List.length_map, List.length_reverse, Nat.add_lt_add_iff_left] at hlt
  rw [List.reverse_append, List.getElem?_append_left (by simpa using hlt)] at hg
  have hmem : (c, g) ∈ post := List.mem_reverse.mp (List.mem_of_getElem? hg)
  rw [hm.schema] at hr
  refine hu q f _ d x j p c g hq hp ?_ f' y hr
  cases pre with
  | nil => exact absurd rfl w3
  | cons a pre => exact List.mem_append_right _ hmem

/-- What is true after rows have been incorporated. -/
structure Inv (L : FamilyLaws F) (D₀ : DB F) (rows : List (Row V)) (H : HIRM F) (e : Ents) : Prop where
  st : St L D₀ H e
  orphans : NoOrphans D₀.schema D₀.schema.query.recordClass e
  roots : ∀ f i v, HasRef e D₀.schema.query.recordClass f i v → ∃ x ∈ rows, x.id = i
  stored : ∀ x ∈ rows, ∀ q v, x.vals.find? q = some v → ∃ k, TupleOf D₀.schema e q x.id k ∧ H.value q k = some v
  only : ∀ n k w, H.value n k = some w → (∃ x ∈ rows, x.vals.find? n = some w ∧ TupleOf D₀.schema e n x.id k) ∨ Lower D₀ e n k
  apart : (∀ x ∈ rows, x.unique = true) → Unbranched D₀.schema → Unshared D₀.schema e

theorem Uses.rank {s : PClean.Schema} {r : String → Nat} (hr : ∀ c f d, Refers s c f d → r d < r c) {e : Ents} {c d : String} {i v : Int} (hu : Uses s e c i d v) :
    r d < r c ∨ d = c ∧ v = i := by
  induction hu with
  | self => exact Or.inr ⟨rfl, rfl⟩
  | step _ h2 _ ih =>
    have := hr _ _ _ h2
    rcases ih with h | ⟨h, _⟩
    · exact Or.inl (by omega)
    · subst h; exact Or.inl this

theorem Grow.roots {s : PClean.Schema} {hash : String → Int} {r : String → Nat} (hr : ∀ c f d, Refers s c f d → r d < r c) {rc : String} {id : Int} {e e' : Ents}
    (h : Grow s hash (From s rc id) e e') {f : String} {i v : Int} (hv : HasRef e' rc f i v) : HasRef e rc f i v ∨ i = id := by
  induction h with
  | refl => exact Or.inl hv
  | step h0 h1 h2 h3 h4 ih =>
    rw [addRef_hasRef h4] at hv
    split at hv
    · next he =>
      obtain ⟨rfl, rfl, rfl⟩ := he
      rcases h3.rank hr with h | ⟨_, h⟩
      · omega
      · exact Or.inr h
    · exact ih hv

theorem rowOk (hm : Made L s hash mkC mkE clean finalOnly D₀) (hf : Fine s clean) {unique : Bool} (hi : unique = true → Indexed s finalOnly)
    {row : FMap String V} (hfit : Fits L D₀ row) : RowOk L D₀ unique row.entries := by
  refine ⟨?_, row.nodupKeys⟩
  intro q v hqv
  obtain ⟨f, spec, h1, h2, h3⟩ := hfit q v (FMap.mem_entries.mp hqv)
  rw [hm.schema] at h1
  obtain ⟨hops, d, x, j, p, hp⟩ := hf.query.path q f h1
  obtain ⟨spec', ds, ha⟩ := hm.asks q f hops d x j p h1 hp
  have := ha.known
  rw [h2] at this
  cases this
  refine ⟨spec, hops, d, ds, ha, fun hu => hm.complete hf (hi hu) h1 hp ?_, h3⟩
  have := ha.layout
  rw [hm.schema] at this
  exact this

/-- A row with another number has nothing in the relations of the query fields yet. -/
theorem Inv.fresh (hm : Made L s hash mkC mkE clean finalOnly D₀) {rows : List (Row V)} {H : HIRM F} {e : Ents} (hI : Inv L D₀ rows H e) {id : Int}
    (hid : ∀ y ∈ rows, y.id ≠ id) {q : String} {f : QueryField} (hq : D₀.schema.query.fields.find? q = some f) (hf : Fine s clean) {k : Items}
    (hk : k.getLast? = some id) : H.value q k = none := by
  cases hv : H.value q k with
  | none => rfl
  | some w =>
    exfalso
    rcases hI.only q k w hv with ⟨x, hx, _, _, _, _, _, _, _, _, _, _, _, _, hl⟩ | ⟨sp, c, l1, l2, l3, _⟩
    · rw [hk] at hl
      cases hl
      exact hid x hx rfl
    · rw [hm.schema] at hq
      obtain ⟨hops, d, x, j, p, hp⟩ := hf.query.path q f hq
      obtain ⟨spec', ds, ha⟩ := hm.asks q f hops d x j p hq hp
      have := ha.known
      rw [l1] at this
      cases this
      rw [ha.tree.2.2.1] at l2
      cases l2
      exact l3 rfl

/-- After a row with new entities: the entities that it uses are used by no other row, which use what they used before. -/
theorem Grow.apart {s : PClean.Schema} {hash : String → Int} {r : String → Nat} (hr : ∀ c f d, Refers s c f d → r d < r c) {rc : String} {id : Int} {e e' : Ents}
    (h : Grow s hash (FromNew s rc id) e e') (he : EntsOk s hash e) (ho : NoOrphans s rc e) (hroot : ∀ f v, ¬ HasRef e rc f id v) :
    (∀ d v, Uses s e' rc id d v → (d = rc ∧ v = id) ∨ ¬ Referenced s e d v) ∧
    ∀ y d v, y ≠ id → Uses s e' rc y d v → Uses s e rc y d v := by
  have key : (∀ d v, Uses s e' rc id d v → (d = rc ∧ v = id) ∨ ¬ Referenced s e d v) ∧
      ∀ c f i v, HasRef e' c f i v → HasRef e c f i v ∨ (c = rc ∧ i = id) ∨ c ≠ rc ∧ ¬ Referenced s e c i := by
    induction h with
    | refl =>
      refine ⟨?_, fun _ _ _ _ h => Or.inl h⟩
      intro d v hu
      rcases hu.head with h | ⟨f, c', i', _, h, _⟩
      · exact Or.inl h
      · exact absurd h (hroot _ _)
    | @step e₁ e₂ c f i d v h0 h1 h2 h3 h4 ih =>
      obtain ⟨ih1, ih2⟩ := ih
      obtain ⟨h3, crp, hcrp, hv⟩ := h3
      have ok₁ := h0.ok he
      have hun : ¬ Referenced s e₁ d v := by
        intro hx
        obtain ⟨x, hx⟩ := (ok₁.table hcrp).mpr hx
        rw [hv, new_table (ok₁.wf d crp hcrp)] at hx
        cases hx
      have hnew : ¬ Referenced s e d v := fun ⟨c', f', i', k1, k2⟩ => hun ⟨c', f', i', k1, h0.extends _ _ _ _ k2⟩
      have hdc : r d < r c := hr _ _ _ h1
      have hdrc : d ≠ rc := by
        rintro rfl
        rcases h3.rank hr with h | ⟨h, _⟩
        · omega
        · subst h; omega
      have hno : ∀ g w, ¬ HasRef e₁ d g v w := by
        intro g w hw
        rcases (h0.from.noOrphans (Or.inl rfl) ho) d g v w hw with h | h
        · exact hdrc h
        · exact hun h
      have back : ∀ d' v', Uses s e₂ rc id d' v' → Uses s e₁ rc id d' v' ∨ d' = d ∧ v' = v := by
        intro d' v' hu
        induction hu with
        | self => exact Or.inl .self
        | step _ k2 k3 ih =>
          rw [addRef_hasRef h4] at k3
          split at k3
          · next heq =>
            obtain ⟨rfl, rfl, rfl⟩ := heq
            exact Or.inr ⟨refers_fun k2 h1, k3⟩
          · rcases ih with h | ⟨rfl, rfl⟩
            · exact Or.inl (.step h k2 k3)
            · exact absurd k3 (hno _ _)
      refine ⟨?_, ?_⟩
      · intro d' v' hu
        rcases back d' v' hu with h | ⟨rfl, rfl⟩
        · exact ih1 _ _ h
        · exact Or.inr hnew
      · intro c' f' i' w hw
        rw [addRef_hasRef h4] at hw
        split at hw
        · next heq =>
          obtain ⟨rfl, rfl, rfl⟩ := heq
          rcases ih1 _ _ h3 with h | h
          · exact Or.inr (Or.inl h)
          · rcases h3.rank hr with h' | h'
            · exact Or.inr (Or.inr ⟨by rintro rfl; omega, h⟩)
            · exact Or.inr (Or.inl h')
        · exact ih2 _ _ _ _ hw
  refine ⟨key.1, ?_⟩
  intro y d v hy hu
  induction hu with
  | self => exact .self
  | step _ k2 k3 ih =>
    rcases key.2 _ _ _ _ k3 with h | ⟨rfl, rfl⟩ | ⟨h0, h⟩
    · exact .step ih k2 h
    · rcases ih.rank hr with h | ⟨_, h⟩
      · omega
      · exact absurd h.symm hy
    · rcases ih.referenced with ⟨rfl, rfl⟩ | h'
      · exact absurd rfl h0
      · exact absurd h' h

/-- What incorporating a row does, given what is true of the database. -/
theorem Inv.incorporate (S : Samples L) (hm : Made L s hash mkC mkE clean finalOnly D₀) (hf : Fine s clean) (hcm : Compatible L D₀.H.schema) {rows : List (Row V)}
    {H : HIRM F} {e : Ents} (hI : Inv L D₀ rows H e) {x : Row V} (hi : x.unique = true → Indexed s finalOnly) (hid : ∀ y ∈ rows, y.id ≠ x.id)
    (hfit : Fits L D₀ x.vals) {n : Nat} (hn : depth D₀.schema ≤ n) (t : Tape) :
    Does D₀ D₀.schema.query.recordClass x.id e ((D₀.at H e).incorporate n x.unique x.id x.vals t) (fun H' e' => Inv L D₀ (x :: rows) H' e' ∧ Extends e e' ∧
      (∀ n k w, H.value n k = some w → H'.value n k = some w) ∧
      (x.unique = true → Unbranched D₀.schema → Grow D₀.schema D₀.hash (FromNew D₀.schema D₀.schema.query.recordClass x.id) e e')) := by
  obtain ⟨r, hw⟩ := hm.wired
  have hrow := rowOk hm hf hi hfit
  refine Does.mono (incorporateLoop_does S hcm hw hn t hrow hI.st ?_) ?_
  · intro q v k hqv hk
    obtain ⟨f, spec, h1, _⟩ := hfit q v (FMap.mem_entries.mp hqv)
    exact hI.fresh hm hid h1 hf hk
  · intro H' e' m
    have hx := m.grow.extends
    have hg : x.unique = true → Unbranched D₀.schema → Grow D₀.schema D₀.hash (FromNew D₀.schema D₀.schema.query.recordClass x.id) e e' := fun hu hub =>
      m.fresh hu (fun q v spec hops d ds _ ha => hm.narrow hf (by rw [hm.schema] at hub; exact hub) ha)
    refine ⟨?_, hx, m.kept, hg⟩
    refine ⟨m.st, m.grow.noOrphans (Or.inl rfl) hI.orphans, ?_, ?_, ?_, ?_⟩
    · intro f i v hv
      rcases m.grow.roots hw.rank hv with h | h
      · obtain ⟨y, hy, he⟩ := hI.roots f i v h
        exact ⟨y, List.mem_cons_of_mem _ hy, he⟩
      · exact ⟨x, List.mem_cons_self .., h.symm⟩
    · intro y hy q v hq
      rcases List.mem_cons.mp hy with rfl | hy
      · obtain ⟨spec, hops, d, ds, ha, _⟩ := hrow.asks q v (FMap.mem_entries.mpr hq)
        obtain ⟨k, h1, h2⟩ := m.stored q v (FMap.mem_entries.mpr hq) spec hops d ds ha
        exact ⟨k, ha.tupleOf.mp h1, h2⟩
      · obtain ⟨k, h1, h2⟩ := hI.stored y hy q v hq
        exact ⟨k, h1.mono hx, m.kept _ _ _ h2⟩
    · intro n' k w hv
      cases h0 : H.value n' k with
      | some w' =>
        have := (m.kept _ _ _ h0).symm.trans hv
        cases this
        rcases hI.only n' k w h0 with ⟨y, hy, h1, h2⟩ | h
        · exact Or.inl ⟨y, List.mem_cons_of_mem _ hy, h1, h2.mono hx⟩
        · exact Or.inr (h.mono hx)
      | none =>
        rcases m.new n' k w h0 hv with ⟨h1, h2⟩ | h
        · obtain ⟨spec, hops, d, ds, ha, _⟩ := hrow.asks n' w h1
          exact Or.inl ⟨x, List.mem_cons_self .., FMap.mem_entries.mp h1, ha.tupleOf.mp (h2 _ _ _ _ ha)⟩
        · exact Or.inr h
    · intro hall hub
      exact (hg (hall x (List.mem_cons_self ..)) hub).unshared hI.st.ents (hI.apart (fun y hy => hall y (List.mem_cons_of_mem _ hy)) hub)

theorem Loaded.inv (S : Samples L) (hm : Made L s hash mkC mkE clean finalOnly D₀) (hf : Fine s clean) (hcm : Compatible L D₀.H.schema) {rows : List (Row V)}
    {D : DB F} (hi : (∃ x ∈ rows, x.unique = true) → Indexed s finalOnly) (h : Loaded L D₀ rows D) : ∃ H e, D = D₀.at H e ∧ Inv L D₀ rows H e := by
  induction h with
  | nil =>
    refine ⟨D₀.H, D₀.ents, rfl, hm.st, fun c f i v h => absurd h (hm.noRef c f i v), fun f i v h => absurd h (hm.noRef _ f i v), fun x hx => (by cases hx), ?_,
      fun _ _ c f i c' f' i' d v _ _ h => absurd h (hm.noRef c f i v)⟩
    intro n k w h
    rw [hm.none] at h
    cases h
  | @row rows D n t D' t' x h0 hid hfit hn hinc ih =>
    obtain ⟨H, e, rfl, hI⟩ := ih (fun ⟨y, hy, hu⟩ => hi ⟨y, List.mem_cons_of_mem _ hy, hu⟩)
    obtain ⟨H', e', h1, h2, _⟩ := (hI.incorporate S hm hf hcm (fun hu => hi ⟨x, List.mem_cons_self .., hu⟩) hid hfit hn t).result hinc
    exact ⟨H', e', h1, h2⟩

/-! ### identifiers -/

theorem split_space {a a' b b' : List Char} (ha : ' ' ∉ a) (ha' : ' ' ∉ a') (h : a ++ ' ' :: b = a' ++ ' ' :: b') : a = a' ∧ b = b' := by
  induction a generalizing a' with
  | nil =>
    cases a' with
    | nil => simpa using h
    | cons y a' => simp only [List.nil_append, List.cons_append, List.cons.injEq] at h; exact absurd (h.1 ▸ List.mem_cons_self ..) ha'
  | cons x a ih =>
    cases a' with
    | nil => simp only [List.nil_append, List.cons_append, List.cons.injEq] at h; exact absurd (h.1 ▸ List.mem_cons_self ..) ha
    | cons y a' =>
      simp only [List.cons_append, List.cons.injEq] at h
      obtain ⟨h1, h2⟩ := ih (fun h => ha (List.mem_cons_of_mem _ h)) (fun h => ha' (List.mem_cons_of_mem _ h)) h.2
      exact ⟨by rw [h.1, h1], h2⟩

theorem int_chars (i : Int) : (toString i).toList = if 0 ≤ i then Nat.toDigits 10 i.toNat else '-' :: Nat.toDigits 10 (-i).toNat := by
  cases i with
  | ofNat m =>
    rw [if_pos (by simp)]
    show (Nat.repr m).toList = _
    simp [Nat.repr]
  | negSucc m =>
    rw [if_neg (by simp)]
    show ("-" ++ Nat.repr (m + 1)).toList = _
    simp [Nat.repr, Int.neg_negSucc]

theorem space_not_digit {n : Nat} : ' ' ∉ Nat.toDigits 10 n := by
  intro h
  have := Nat.isDigit_of_mem_toDigits (by decide) (by decide) h
  revert this
  decide

theorem minus_not_digit {n : Nat} : '-' ∉ Nat.toDigits 10 n := by
  intro h
  have := Nat.isDigit_of_mem_toDigits (by decide) (by decide) h
  revert this
  decide

theorem int_no_space (i : Int) : ' ' ∉ (toString i).toList := by
  rw [int_chars]
  split
  · exact space_not_digit
  · intro h
    rcases List.mem_cons.mp h with h | h
    · revert h; decide
    · exact space_not_digit h

theorem toDigits_inj {m n : Nat} (h : Nat.toDigits 10 m = Nat.toDigits 10 n) : m = n := by
  have := congrArg (fun l => Nat.ofDigitChars 10 l 0) h
  simpa [Nat.ofDigitChars_toDigits] using this

theorem int_toString_inj {i j : Int} (h : (toString i).toList = (toString j).toList) : i = j := by
  rw [int_chars, int_chars] at h
  split at h <;> split at h
  · have := toDigits_inj h; omega
  · exact absurd (h ▸ List.mem_cons_self ..) minus_not_digit
  · exact absurd (h.symm ▸ List.mem_cons_self ..) minus_not_digit
  · simp only [List.cons.injEq, true_and] at h
    have := toDigits_inj h
    omega

theorem distinct_of {s : PClean.Schema} {hash : String → Int} (hh : ∀ a b, hash a = hash b → a = b) (hs : ∀ c cl, s.classes.find? c = some cl → ' ' ∉ c.toList) :
    Distinct s hash := by
  rintro c f i c' f' i' d ⟨cl, hc, _⟩ ⟨cl', hc', _⟩ h
  have h := congrArg String.toList (hh _ _ h)
  simp only [String.toList_append, List.append_assoc] at h
  have e : (" " : String).toList = [' '] := rfl
  simp only [e, List.singleton_append] at h
  obtain ⟨h1, h2⟩ := split_space (hs c cl hc) (hs c' cl' hc') h
  obtain ⟨h3, h4⟩ := split_space (int_no_space i) (int_no_space i') h2
  exact ⟨String.toList_inj.mp h1, String.toList_inj.mp h4, int_toString_inj h3⟩

theorem Does.ok_of_distinct {D : DB F} {c : String} {i : Int} {e : Ents} {x : Res (DB F × Tape)} {P : HIRM F → Ents → Prop} (h : Does D c i e x P)
    (hd : Distinct D.schema D.hash) : ∃ H' e' t', x = .ok (D.at H' e', t') ∧ P H' e' := by
  rcases h with h | ⟨_, e', _, c, f, i, d, c', f', i', w, _, h2, h3, h4, h5, h6⟩
  · exact h
  · obtain ⟨rfl, rfl, rfl⟩ := hd _ _ _ _ _ _ _ h4 h2 h6
    exact absurd h5 (h3 w)

/-! ### rows that share nothing -/

/-- Whoever uses an entity to which only one reference leads uses the entity that refers to it. -/
theorem Unshared.disjoint {s : PClean.Schema} {r : String → Nat} (hr : ∀ c f d, Refers s c f d → r d < r c) {e : Ents} (hu : Unshared s e) {rc : String} {i i' : Int}
    {d : String} {v : Int} (h : Uses s e rc i d v) (h' : Uses s e rc i' d v) : i = i' := by
  induction h with
  | self =>
    rcases h'.rank hr with h | ⟨_, h⟩
    · omega
    · exact h
  | @step d v f d' v' h1 h2 h3 ih =>
    cases h' with
    | self =>
      have := hr _ _ _ h2
      rcases h1.rank hr with h | ⟨h, _⟩
      · omega
      · subst h; omega
    | step k1 k2 k3 =>
      obtain ⟨rfl, rfl, rfl⟩ := hu _ _ _ _ _ _ _ _ h2 k2 h3 k3
      exact ih k1

end
end GenDB
end Verif
