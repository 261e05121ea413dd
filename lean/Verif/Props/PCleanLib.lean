import Verif.Lemmas.PCleanLib
import Verif.Props.GenDB
import Verif.Props.ClusterFile
/-!
C67: the rows of a data frame in a database.
C68: the clusters of a database in a file.
-/
namespace Verif
namespace GenDB
open PClean UtilIO
noncomputable section
variable {V : Type} {F : Family V} {L : FamilyLaws F} {s : PClean.Schema} {hash : String → Int} {mkC : String → FMap String String → Res F.C}
  {mkE : String → FMap String String → Res F.E} {clean finalOnly : Bool} {t₀ t₁ : Tape} {D₀ : DB F} {rows : List (Row V)} {D : DB F}

/-! ### C67 -/

/-- The row number `i` of the data frame as a row of the database. -/
structure IsRow (D₀ : DB F) (parse : F.C ⊕ F.E → String → Res V) (df : DataFrame) (i : Nat) (x : Row V) : Prop where
  unique : x.unique = true
  id : x.id = i
  vals : ∀ q v, x.vals.find? q = some v ↔ CellValue D₀ parse df q i v

theorem rowValues_isRow (S : Samples L) (hf : Fine s clean) (hmk : make s hash mkC mkE clean finalOnly t₀ = .ok (D₀, t₁)) (hcm : Compatible L D₀.H.schema)
    (hi : (∃ y ∈ rows, y.unique = true) → Indexed s finalOnly) (h : Loaded L D₀ rows D) {parse : F.C ⊕ F.E → String → Res V} {df : DataFrame} {m : Nat}
    (hr : Rectangular df m) (hl : Legible L D₀ parse df) {i : Nat} (him : i < m) :
    ∃ vals, D.rowValues parse i df.data.entries ∅ = .ok vals ∧ IsRow D₀ parse df i ⟨true, i, vals⟩ ∧ Fits L D₀ vals := by
  have hm := make_spec L hf hmk
  obtain ⟨H, e, rfl, hI⟩ := h.inv S hm hf hcm hi
  have hR : HIRM.Reach L H ∧ Usable L H.schema := ⟨hI.st.reach, by rw [hI.st.schema]; exact hcm.toUsable⟩
  have hsp : ∀ q f, D₀.schema.query.fields.find? q = some f → ∃ spec p rel, D₀.H.schema.find? q = some spec ∧ H.getRelation q = .ok (p, rel) ∧ rel.tag = spec.kind := by
    intro q f hq
    have hq' := hq
    rw [hm.schema] at hq'
    obtain ⟨hops, d, x, j, p, hp⟩ := hf.query.path q f hq'
    obtain ⟨spec, ds, ha⟩ := hm.asks q f hops d x j p hq' hp
    obtain ⟨rel, h1, h2, _⟩ := (HIRM.hosted S).get (m := H) (r := q) (spec := spec) hR (by show H.schema.find? q = _; rw [hI.st.schema]; exact ha.known)
    obtain ⟨⟨p', rel'⟩, h3, h4⟩ := bind_ok.mp (show (H.getRelation q >>= fun x => Except.ok x.2) = .ok rel from h1)
    cases h4
    exact ⟨spec, p', rel', ha.known, h3, h2⟩
  have hcell : ∀ q f spec p rel x, D₀.schema.query.fields.find? q = some f → D₀.H.schema.find? q = some spec → H.getRelation q = .ok (p, rel) → rel.tag = spec.kind →
      Cell df q i (String.ofList x) → (x = [] ∧ (D₀.at H e).cellValue parse q.toList x = .ok none) ∨
        ∃ v, x ≠ [] ∧ (D₀.at H e).cellValue parse q.toList x = .ok (some v) ∧ parse spec.kind (String.ofList x) = .ok v ∧ Takes L D₀.H.schema v spec := by
    intro q f spec p rel x h1 h2 h3 h4 hc
    by_cases hx : x = []
    · subst hx; exact Or.inl ⟨rfl, rfl⟩
    · obtain ⟨k1, v, k2, k3⟩ := hl q f spec i _ h1 h2 hc (ofList_ne hx)
      rw [String.toList_ofList] at k1
      exact Or.inr ⟨v, hx, cellValue_ok (D := D₀.at H e) h3 k1 hx (by rw [h4]; exact k2), k2, k3⟩
  have hcol : ∀ q col, df.data.find? q = some col → ∃ x, col[i]? = some x := by
    intro q col hq
    have := hr q col hq
    exact ⟨_, List.getElem?_eq_getElem (by omega)⟩
  obtain ⟨vals, h1, h2⟩ := rowValues_ok (D := D₀.at H e) (parse := parse) (i := i) (l := df.data.entries) (m := ∅) df.data.nodupKeys (fun q _ => rfl) (by
    intro col vals hmem hq
    obtain ⟨f, hq⟩ := FMap.contains_iff.mp hq
    have hq : D₀.schema.query.fields.find? (String.ofList col) = some f := hq
    have hmem := FMap.mem_entries.mp hmem
    obtain ⟨x, hx⟩ := hcol _ _ hmem
    obtain ⟨spec, p, rel, k1, k2, k3⟩ := hsp _ f hq
    rcases hcell _ f spec p rel x hq k1 k2 k3 (cell_ofList (by rw [String.toList_ofList]; exact hmem) hx) with ⟨_, h⟩ | ⟨v, _, h, _⟩
    · rw [String.toList_ofList] at h; exact ⟨x, _, hx, h⟩
    · rw [String.toList_ofList] at h; exact ⟨x, _, hx, h⟩)
  have hvals : ∀ q v, vals.find? q = some v ↔ CellValue D₀ parse df q i v := by
    intro q v
    rw [h2]
    constructor
    · rintro (h | ⟨col, x, h3, h4, h5, h6⟩)
      · cases h
      · obtain ⟨f, hq⟩ := FMap.contains_iff.mp h4
        have hq : D₀.schema.query.fields.find? q = some f := hq
        obtain ⟨spec, p, rel, k1, k2, k3⟩ := hsp _ f hq
        have hc := cell_ofList (FMap.mem_entries.mp h3) h5
        rcases hcell _ f spec p rel x hq k1 k2 k3 hc with ⟨_, h⟩ | ⟨v', h7, h8, h9, _⟩
        · rw [h] at h6; cases h6
        · rw [h8] at h6
          cases h6
          exact ⟨f, spec, _, hq, k1, hc, ofList_ne h7, h9⟩
    · rintro ⟨f, spec, x, hq, hs, hc, hne, hv⟩
      obtain ⟨spec', p, rel, k1, k2, k3⟩ := hsp _ f hq
      rw [hs] at k1
      cases k1
      obtain ⟨col, c1, c2⟩ := hc
      refine Or.inr ⟨col, x.toList, FMap.mem_entries.mpr c1, FMap.contains_iff.mpr ⟨f, hq⟩, c2, ?_⟩
      rcases hcell _ f spec p rel x.toList hq hs k2 k3 (cell_ofList c1 c2) with ⟨h, _⟩ | ⟨v', _, h8, h9, _⟩
      · exfalso
        apply hne
        rw [← String.ofList_toList (s := x), h]
      · rw [String.ofList_toList, hv] at h9
        cases h9
        exact h8
  refine ⟨vals, h1, ⟨rfl, rfl, hvals⟩, ?_⟩
  intro q v hv
  obtain ⟨f, spec, x, hq, hs, hc, hne, hp⟩ := (hvals q v).mp hv
  obtain ⟨_, v', h3, h4⟩ := hl q f spec i x hq hs hc hne
  rw [hp] at h3
  cases h3
  exact ⟨f, spec, hq, hs, h4⟩

theorem incorporateRows_ok (S : Samples L) (hf : Fine s clean) (hmk : make s hash mkC mkE clean finalOnly t₀ = .ok (D₀, t₁)) (hcm : Compatible L D₀.H.schema)
    (hd : Distinct s hash) (hi : Indexed s finalOnly) {parse : F.C ⊕ F.E → String → Res V} {df : DataFrame} {m : Nat} (hr : Rectangular df m)
    (hl : Legible L D₀ parse df) {n : Nat} (hn : depth s ≤ n) : ∀ (k i : Nat) (rows : List (Row V)) (D : DB F) (t : Tape), i + k = m → Loaded L D₀ rows D →
    (∀ x ∈ rows, ∃ j < i, IsRow D₀ parse df j x) → (∀ j < i, ∃ x ∈ rows, IsRow D₀ parse df j x) →
    ∃ rows' D' t', DB.incorporateRows n parse df k i D t = .ok (D', t') ∧ Loaded L D₀ rows' D' ∧ (∀ x ∈ rows', ∃ j < m, IsRow D₀ parse df j x) ∧
      ∀ j < m, ∃ x ∈ rows', IsRow D₀ parse df j x := by
  intro k
  induction k with
  | zero =>
    intro i rows D t him h h1 h2
    obtain rfl : i = m := by omega
    exact ⟨rows, D, t, rfl, h, h1, h2⟩
  | succ k ih =>
    intro i rows D t him h h1 h2
    obtain ⟨vals, k1, k2, k3⟩ := rowValues_isRow S hf hmk hcm (fun _ => hi) h hr hl (i := i) (by omega)
    obtain ⟨D', t', k4, k5⟩ := C64_total S hf hmk hcm hd h (x := ⟨true, i, vals⟩) (fun _ => hi) (by
      intro y hy he
      obtain ⟨j, hj, hy⟩ := h1 y hy
      rw [hy.id] at he
      have : (j : Int) = i := he
      omega) k3 hn t
    obtain ⟨rows', D'', t'', k6, k7⟩ := ih (i + 1) (⟨true, i, vals⟩ :: rows) D' t' (by omega) k5 (by
      intro x hx
      rcases List.mem_cons.mp hx with rfl | hx
      · exact ⟨i, by omega, k2⟩
      · obtain ⟨j, hj, hx⟩ := h1 x hx
        exact ⟨j, by omega, hx⟩) (by
      intro j hj
      by_cases he : j = i
      · subst he; exact ⟨_, List.mem_cons_self .., k2⟩
      · obtain ⟨x, hx, hx'⟩ := h2 j (by omega)
        exact ⟨x, List.mem_cons_of_mem _ hx, hx'⟩)
    refine ⟨rows', D'', t'', ?_, k7⟩
    unfold DB.incorporateRows
    rw [k1]
    show (D.incorporate n true i vals t >>= fun x => DB.incorporateRows n parse df k (i + 1) x.1 x.2) = _
    have k4 : D.incorporate n true i vals t = .ok (D', t') := k4
    rw [k4]
    exact k6

theorem TupleOf.fun {e : Ents} {q : String} {i : Int} {k k' : Items}
    (h : TupleOf s e q i k) (h' : TupleOf s e q i k') : k = k' := by
  obtain ⟨f, hops, d, y, j, p, ds, u1, u2, u3, u4, u5⟩ := h
  obtain ⟨f', hops', d', y', j', p', ds', w1, w2, w3, w4, w5⟩ := h'
  rw [u1] at w1
  cases w1
  obtain ⟨rfl, rfl, rfl, rfl, rfl⟩ := u2.unique w2
  have := layout_unique u3 w3
  subst this
  obtain ⟨t1, t2, _⟩ := u2.tree u3
  refine u4.unique t1 t2 w4 ?_
  rw [← u4.1, ← List.getLast?_eq_getElem?, u5, ← w5, List.getLast?_eq_getElem?, u4.1, w4.1]

/-- C67: `incorporate_observations` fills a new database with the rows of a data frame, whatever the draws.  Then the relation of a query field has exactly the
values of the cells of its column that are not empty, each at the tuple that the references of its row lead to, and the rows are numbered from zero on. -/
theorem C67_frame (S : Samples L) (hf : Fine s clean) (hmk : make s hash mkC mkE clean finalOnly t₀ = .ok (D₀, t₁)) (hcm : Compatible L D₀.H.schema)
    (hd : Distinct s hash) (hi : Indexed s finalOnly) {parse : F.C ⊕ F.E → String → Res V} {df : DataFrame} {m : Nat} (hne : ∃ q col, df.data.find? q = some col)
    (hr : Rectangular df m) (hl : Legible L D₀ parse df) {n : Nat} (hn : depth s ≤ n) (t : Tape) :
    ∃ D t', D₀.incorporateObservations n parse df t = .ok (D, t') ∧ (∃ rows, Loaded L D₀ rows D ∧ ∀ x ∈ rows, x.unique = true) ∧
      ∀ q f, s.query.fields.find? q = some f → ∀ k v, D.H.value q k = some v ↔ ∃ i < m, CellValue D₀ parse df q i v ∧ TupleOf s D.ents q i k := by
  obtain ⟨rows, D, t', h1, h2, h3, h4⟩ := incorporateRows_ok S hf hmk hcm hd hi hr hl hn m 0 [] D₀ t (by omega) .nil (fun x hx => by cases hx) (fun j hj => by omega)
  refine ⟨D, t', ?_, ⟨rows, h2, fun x hx => ?_⟩, ?_⟩
  · unfold DB.incorporateObservations
    obtain ⟨q, col, hq⟩ := hne
    have hmem := FMap.mem_entries.mpr hq
    cases he : df.data.entries with
    | nil => rw [he] at hmem; cases hmem
    | cons x l =>
      have hx : (x.1, x.2) ∈ df.data.entries := by rw [he]; exact List.mem_cons_self ..
      show DB.incorporateRows n parse df x.2.length 0 D₀ t = _
      rw [hr _ _ (FMap.mem_entries.mp hx)]
      exact h1
  · obtain ⟨j, _, hx⟩ := h3 x hx
    exact hx.unique
  · intro q f hq k v
    obtain ⟨a1, a2⟩ := C64_rows S hf hmk hcm (fun _ => hi) h2 hq
    constructor
    · intro hv
      obtain ⟨x, hx, b1, b2⟩ := a2 k v hv
      obtain ⟨j, hj, hx⟩ := h3 x hx
      rw [hx.id] at b2
      exact ⟨j, hj, (hx.vals q v).mp b1, b2⟩
    · rintro ⟨i, him, b1, b2⟩
      obtain ⟨x, hx, hx'⟩ := h4 i him
      obtain ⟨k', c1, c2⟩ := a1 x hx v ((hx'.vals q v).mpr b1)
      rw [hx'.id] at c1
      rw [b2.fun c1]
      exact c2

theorem incorporateRows_cells {n : Nat} {parse : F.C ⊕ F.E → String → Res V} {df : DataFrame} : ∀ (k i : Nat) (D : DB F) (t : Tape) (x : DB F × Tape),
    DB.incorporateRows n parse df k i D t = .ok x → ∀ j, i ≤ j → j < i + k → ∀ q f, D.schema.query.fields.find? q = some f → ∀ col, df.data.find? q.toList = some col →
      ∃ y, col[j]? = some y ∧ ∀ c ∈ y, isPrint c = true := by
  intro k
  induction k with
  | zero => intro i D t x _ j h1 h2; omega
  | succ k ih =>
    intro i D t x h j h1 h2 q f hq col hcol
    unfold DB.incorporateRows at h
    obtain ⟨row, h3, h⟩ := bind_ok.mp h
    obtain ⟨⟨D', t'⟩, h4, h⟩ := bind_ok.mp h
    dsimp only at h
    by_cases hj : j = i
    · subst hj
      obtain ⟨y, v, k1, k2⟩ := rowValues_cells h3 q.toList col (FMap.mem_entries.mpr hcol) (by rw [String.ofList_toList]; exact FMap.contains_iff.mpr ⟨f, hq⟩)
      refine ⟨y, k1, ?_⟩
      unfold DB.cellValue at k2
      by_cases hy : y.isEmpty = true
      · cases y with
        | nil => intro c hc; cases hc
        | cons a l => cases hy
      · rw [if_neg hy] at k2
        by_cases hp : y.all isPrint = true
        · exact List.all_eq_true.mp hp
        · rw [if_pos (by simp [hp])] at k2
          cases k2
    · have hs := incorporateLoop_same h4
      exact ih (i + 1) D' t' x h j (by omega) (by omega) q f (by rw [hs.schema]; exact hq) col hcol

/-- C67: if `incorporate_observations` returns then the columns of the query fields are as long as the first one, and all their cells are printable. -/
theorem C67_printable {n : Nat} {parse : F.C ⊕ F.E → String → Res V} {df : DataFrame} {D : DB F} {t : Tape} {x : DB F × Tape}
    (h : D.incorporateObservations n parse df t = .ok x) : ∃ q₀ col₀, df.data.find? q₀ = some col₀ ∧ ∀ i < col₀.length, ∀ q f,
      D.schema.query.fields.find? q = some f → ∀ col, df.data.find? q.toList = some col → ∃ y, col[i]? = some y ∧ ∀ c ∈ y, isPrint c = true := by
  unfold DB.incorporateObservations at h
  split at h
  · cases h
  · rename_i q₀ col₀ l he
    refine ⟨q₀, col₀, FMap.mem_entries.mp (by rw [he]; exact List.mem_cons_self ..), ?_⟩
    intro i hi
    exact incorporateRows_cells _ 0 D t x h i (by omega) (by omega)

/-- C67 is false for a database that has rows: a row whose number is there, with a value for the same query field, is not incorporated. -/
theorem C67_again (S : Samples L) (hf : Fine s clean) (hmk : make s hash mkC mkE clean finalOnly t₀ = .ok (D₀, t₁)) (hcm : Compatible L D₀.H.schema)
    (h : Loaded L D₀ rows D) {x : Row V} (hi : (∃ y ∈ x :: rows, y.unique = true) → Indexed s finalOnly) {y : Row V} (hy : y ∈ rows) (hid : y.id = x.id) {q : String}
    {v w : V} (hv : x.vals.find? q = some v) (hw : y.vals.find? q = some w) (hfit : Fits L D₀ x.vals) {n : Nat} (hn : depth s ≤ n) (t : Tape) (z : DB F × Tape) :
    D.incorporate n x.unique x.id x.vals t ≠ .ok z := by
  have hm := make_spec L hf hmk
  obtain ⟨r, hwd⟩ := hm.wired
  obtain ⟨H, e, rfl, hI⟩ := h.inv S hm hf hcm (fun ⟨y, hy, hu⟩ => hi ⟨y, List.mem_cons_of_mem _ hy, hu⟩)
  have hrow := rowOk hm hf (fun hu => hi ⟨x, List.mem_cons_self .., hu⟩) hfit
  obtain ⟨k, k1, k2⟩ := hI.stored y hy q w hw
  obtain ⟨spec, hops, d, ds, ha, _⟩ := hrow.asks q v (FMap.mem_entries.mpr hv)
  have hk := ha.tupleOf.mpr k1
  rw [hid] at hk
  exact incorporateLoop_again S hcm hwd (by rw [hm.schema]; exact hn) ha t hrow hI.st ⟨v, FMap.mem_entries.mpr hv⟩ hk k2 z

/-- C67 is false for a database that has rows: `incorporate_observations` numbers the rows from zero again, so a second data frame is not incorporated if its first row has
a value for a query field for which the first row of the database has one.  (The program does this with `--heldout`.) -/
theorem C67_heldout_false (S : Samples L) (hf : Fine s clean) (hmk : make s hash mkC mkE clean finalOnly t₀ = .ok (D₀, t₁)) (hcm : Compatible L D₀.H.schema)
    (hi : Indexed s finalOnly) (h : Loaded L D₀ rows D) {y : Row V} (hy : y ∈ rows) (hid : y.id = 0) {q : String} {w : V} (hw : y.vals.find? q = some w)
    {parse : F.C ⊕ F.E → String → Res V} {df : DataFrame} {m : Nat} (hr : Rectangular df (m + 1)) (hl : Legible L D₀ parse df) {v : V}
    (hv : CellValue D₀ parse df q 0 v) {n : Nat} (hn : depth s ≤ n) (t : Tape) (z : DB F × Tape) : D.incorporateObservations n parse df t ≠ .ok z := by
  intro hz
  unfold DB.incorporateObservations at hz
  split at hz
  · cases hz
  · rename_i q₀ col₀ l he
    rw [hr q₀ col₀ (FMap.mem_entries.mp (by rw [he]; exact List.mem_cons_self ..))] at hz
    unfold DB.incorporateRows at hz
    obtain ⟨vals, k1, k2, k3⟩ := rowValues_isRow S hf hmk hcm (fun _ => hi) h hr hl (i := 0) (by omega)
    obtain ⟨vals', h1, hz⟩ := bind_ok.mp hz
    rw [k1] at h1
    cases h1
    obtain ⟨⟨D', t'⟩, h2, _⟩ := bind_ok.mp hz
    exact C67_again S hf hmk hcm h (x := ⟨true, (0 : Nat), vals⟩) (fun _ => hi) hy (by rw [hid]; rfl) ((k2.vals q v).mpr hv) hw k3 hn t _ h2

/-! ### C68 -/

/-- C68: the encoding for the output names the entities of a class, from zero to its last table, by the name of the class and the number. -/
theorem C68_names (D : DB F) (d : String) (i : Int) (x : String) : Encoding.entity D.dummyEncoding d i = some x ↔
    ∃ crp, D.ents.crps.find? d = some crp ∧ 0 ≤ i ∧ i ≤ crp.maxTable ∧ x = d ++ ":" ++ String.ofList (Text.intText i) := by
  have names : ∀ (k : Nat), (DB.dummyNames d k).find? i = some x ↔ 0 ≤ i ∧ i < k ∧ x = d ++ ":" ++ String.ofList (Text.intText i) := by
    intro k
    induction k with
    | zero => 
      constructor
      · intro h; cases h
      · rintro ⟨h1, h2, _⟩; omega
    | succ k ih =>
      unfold DB.dummyNames
      rw [FMap.find?_set]
      by_cases hk : i = k
      · subst hk
        rw [if_pos rfl]
        constructor
        · intro h; cases h; exact ⟨by omega, by omega, rfl⟩
        · rintro ⟨_, _, rfl⟩; rfl
      · rw [if_neg hk, ih]
        constructor
        · rintro ⟨h1, h2, h3⟩; exact ⟨h1, by omega, h3⟩
        · rintro ⟨h1, h2, h3⟩; exact ⟨h1, by omega, h3⟩
  have rev : ∀ (l : List (String × CRP)), (l.map (·.1)).Nodup → (((DB.dummyRev l).find? d).bind (·.find? i) = some x ↔
      ∃ crp, (d, crp) ∈ l ∧ 0 ≤ i ∧ i ≤ crp.maxTable ∧ x = d ++ ":" ++ String.ofList (Text.intText i)) := by
    intro l
    induction l with
    | nil =>
      intro _
      constructor
      · intro h; cases h
      · rintro ⟨_, h, _⟩; cases h
    | cons e l ih =>
      obtain ⟨d', crp⟩ := e
      intro hnd
      have hnd := List.nodup_cons.mp hnd
      have ih := ih hnd.2
      unfold DB.dummyRev
      by_cases hd : d = d'
      · subst hd
        have hno : ∀ crp', (d, crp') ∉ l := fun crp' h => hnd.1 (List.mem_map.mpr ⟨_, h, rfl⟩)
        by_cases hm : crp.maxTable < 0
        · rw [if_pos hm, ih]
          constructor
          · rintro ⟨crp', h, _⟩; exact absurd h (hno crp')
          · rintro ⟨crp', h, h1, h2, _⟩
            rcases List.mem_cons.mp h with h | h
            · cases h; omega
            · exact absurd h (hno crp')
        · rw [if_neg hm, FMap.find?_set_self, Option.bind_some, names]
          constructor
          · rintro ⟨h1, h2, h3⟩
            exact ⟨crp, List.mem_cons_self .., h1, by omega, h3⟩
          · rintro ⟨crp', h, h1, h2, h3⟩
            rcases List.mem_cons.mp h with h | h
            · cases h; exact ⟨h1, by omega, h3⟩
            · exact absurd h (hno crp')
      · have : ((if crp.maxTable < 0 then DB.dummyRev l else (DB.dummyRev l).set d' (DB.dummyNames d' (crp.maxTable + 1).toNat)).find? d) = (DB.dummyRev l).find? d := by
          split
          · rfl
          · rw [FMap.find?_set, if_neg hd]
        rw [this, ih]
        constructor
        · rintro ⟨crp', h, h'⟩; exact ⟨crp', List.mem_cons_of_mem _ h, h'⟩
        · rintro ⟨crp', h, h'⟩
          rcases List.mem_cons.mp h with h | h
          · cases h; exact absurd rfl hd
          · exact ⟨crp', h, h'⟩
  unfold Encoding.entity DB.dummyEncoding
  rw [rev _ D.ents.crps.nodupKeys]
  simp only [FMap.mem_entries]

/-- No entity refers to a row. -/
theorem no_ref_to_row {e : Ents} {r : String → Nat} (hr : ∀ c f d, Refers s c f d → r d < r c) (hb : ∃ B, ∀ c f d, Refers s c f d → r c ≤ B)
    (ho : NoOrphans s s.query.recordClass e) : ∀ c f i v, HasRef e c f i v → r c ≤ r s.query.recordClass := by
  obtain ⟨B, hB⟩ := hb
  have key : ∀ n c f i v, B + 1 - r c ≤ n → HasRef e c f i v → r c ≤ r s.query.recordClass := by
    intro n
    induction n with
    | zero =>
      intro c f i v hn hv
      rcases ho c f i v hv with rfl | ⟨c', f', i', h1, h2⟩
      · exact Nat.le_refl _
      · have := hB _ _ _ h1
        have := hr _ _ _ h1
        omega
    | succ n ih =>
      intro c f i v hn hv
      rcases ho c f i v hv with rfl | ⟨c', f', i', h1, h2⟩
      · exact Nat.le_refl _
      · have h3 := hr _ _ _ h1
        have := hB _ _ _ h1
        have := ih c' f' i' i (by omega) h2
        omega
  exact fun c f i v => key _ c f i v (Nat.le_refl _)

theorem seated_last {H : HIRM F} (h : HIRM.Reach L H) {q : String} {spec : RelSpec F} (hs : H.schema.find? q = some spec) {k : Items} {v : V} (hv : H.value q k = some v)
    {d : String} {i : Int} (hd : spec.doms.getLast? = some d) (hi : k.getLast? = some i) : ∃ tb I c, H.irms.find? tb = some I ∧ seatOf I.doms d i = some c := by
  have hg := h.good
  obtain ⟨tb, id, rel, hr⟩ := hg.skel.relOf (FMap.contains_iff.mpr ⟨spec, hs⟩)
  obtain ⟨hT, I, hI, hx⟩ := HIRM.relOf_some.mp hr
  obtain ⟨spec', hs', hm⟩ := hg.matched hr
  rw [hs] at hs'
  cases hs'
  rw [HIRM.value_of hr] at hv
  obtain ⟨z, hz⟩ := ((hg.inv tb I hI).rels q id rel hx).seated (FMap.contains_iff.mpr ⟨v, hv⟩)
  have hlen := (tupleSeat_length hz).1
  rw [hm.doms] at hlen hz
  rw [List.getLast?_eq_getElem?] at hd hi
  rw [hlen] at hi
  obtain ⟨c, hc⟩ := HIRM.tupleSeat_uses hz (show Verif.Uses spec.doms d i k from List.mem_iff_getElem?.mpr ⟨spec.doms.length - 1, by
    rw [List.getElem?_zip_eq_some]; exact ⟨hd, hi⟩⟩)
  exact ⟨tb, I, c, hI, hc⟩

theorem _root_.Verif.HIRM.Reach.history {H : HIRM F} (h : HIRM.Reach L H) : HIRM.History H := by
  induction h with
  | empty => exact .empty
  | add _ _ hc ih => exact .add ih hc
  | remove _ _ _ _ hc ih => exact .remove ih hc
  | incorporate _ _ hc ih => exact .incorporate ih hc
  | unincorporate _ _ hc ih => exact .unincorporate ih hc
  | move _ hc ih => exact .move ih hc
  | set _ hc ih => exact .set ih hc
  | item _ hI hc ih => exact .item ih hI hc
  | seat _ hI hd hc ih => exact .seat ih hI hd hc
  | step _ hc ih => exact .step ih hc
  | logp _ _ hc ih => exact .logp ih hc

/-- The rows have no name. -/
theorem C68_row_unnamed (S : Samples L) (hf : Fine s clean) (hmk : make s hash mkC mkE clean finalOnly t₀ = .ok (D₀, t₁)) (hcm : Compatible L D₀.H.schema)
    (hi : (∃ y ∈ rows, y.unique = true) → Indexed s finalOnly) (h : Loaded L D₀ rows D) (i : Int) :
    Encoding.entity D.dummyEncoding s.query.recordClass i = none := by
  have hm := make_spec L hf hmk
  obtain ⟨r, hw⟩ := hm.wired
  obtain ⟨h1, h2, _⟩ := C64_entities S hf hmk hcm hi h
  have hrank : ∀ c f d, Refers s c f d → r d < r c := by have := hw.rank; rwa [hm.schema] at this
  have hle := no_ref_to_row hrank ⟨depth D₀.schema, fun c f d _ => Nat.le_of_lt (hw.bound c)⟩ h2
  cases hx : Encoding.entity D.dummyEncoding s.query.recordClass i with
  | none => rfl
  | some x =>
    exfalso
    obtain ⟨crp, hc, h3, h4, _⟩ := (C68_names D _ i x).mp hx
    have hwf := h1.wf _ _ hc
    have hempty : crp.assignments = ∅ := by
      refine FMap.ext fun k => ?_
      cases hk : crp.assignments.find? k with
      | none => rfl
      | some v =>
        obtain ⟨c, f, j, k1, k2, _⟩ := (h1.agree _ _ k v hc).mp hk
        have := hle c f j v k2
        have := hrank _ _ _ k1
        omega
    have hN : crp.N = 0 := by rw [hwf.count, hempty]; rfl
    unfold CRP.maxTable at h4
    rw [if_pos hN] at h4
    omega

/-- C68 is false: as soon as a row has a value, the clusters of the database cannot be written with the encoding that the program makes for them: the rows have no
names in it, and `to_txt` throws.  `H` is any state of the relations, such as one that inference leads to, that has the schema of the database and a value of a row. -/
theorem C68_text_false (S : Samples L) (hf : Fine s clean) (hmk : make s hash mkC mkE clean finalOnly t₀ = .ok (D₀, t₁)) (hcm : Compatible L D₀.H.schema)
    (hi : (∃ y ∈ rows, y.unique = true) → Indexed s finalOnly) (h : Loaded L D₀ rows D) {H : HIRM F} (hH : HIRM.Reach L H) (hs : H.schema = D₀.H.schema) {q : String}
    {f : QueryField} (hq : s.query.fields.find? q = some f) {k : Items} {v : V} (hv : H.value q k = some v) (t : Tape) (y : List Char × Tape) :
    hirmText H D.dummyEncoding t ≠ .ok y := by
  intro hy
  have hm := make_spec L hf hmk
  obtain ⟨hops, d, x, j, p, hp⟩ := hf.query.path q f hq
  obtain ⟨spec, ds, ha⟩ := hm.asks q f hops d x j p hq hp
  obtain ⟨_, _, t3, _⟩ := ha.tree
  have hlen : k ≠ [] := by
    rintro rfl
    have hg := hH.good
    have hs' : H.schema.find? q = some spec := by rw [hs]; exact ha.known
    obtain ⟨tb, id, rel, hr⟩ := hg.skel.relOf (FMap.contains_iff.mpr ⟨spec, hs'⟩)
    obtain ⟨hT, I, hI, hx⟩ := HIRM.relOf_some.mp hr
    obtain ⟨spec', hs'', hmt⟩ := hg.matched hr
    rw [hs'] at hs''
    cases hs''
    rw [HIRM.value_of hr] at hv
    obtain ⟨z, hz⟩ := ((hg.inv tb I hI).rels q id rel hx).seated (FMap.contains_iff.mpr ⟨v, hv⟩)
    have := (tupleSeat_length hz).1
    rw [hmt.doms] at this
    rw [List.eq_nil_of_length_eq_zero this.symm] at t3
    cases t3
  obtain ⟨i, hi'⟩ : ∃ i, k.getLast? = some i := ⟨_, List.getLast?_eq_some_getLast hlen⟩
  obtain ⟨tb, I, c, hI, hc⟩ := seated_last hH (by rw [hs]; exact ha.known) hv t3 hi'
  obtain ⟨dom, hd, hseat⟩ := Option.bind_eq_some_iff.mp hc
  obtain ⟨z, hz⟩ := (C34_hirm_written hH.history D.dummyEncoding t).mp ⟨y.1, y.2, hy⟩ tb I hI _ c i ⟨dom, hd, hseat⟩
  rw [hm.schema, C68_row_unnamed S hf hmk hcm hi h i] at hz
  cases hz

/-- C68 is false: so it is after the rows have been incorporated. -/
theorem C68_loaded_false (S : Samples L) (hf : Fine s clean) (hmk : make s hash mkC mkE clean finalOnly t₀ = .ok (D₀, t₁)) (hcm : Compatible L D₀.H.schema)
    (hi : (∃ y ∈ rows, y.unique = true) → Indexed s finalOnly) (h : Loaded L D₀ rows D) {x : Row V} (hx : x ∈ rows) {q : String} {v : V}
    (hv : x.vals.find? q = some v) (t : Tape) (y : List Char × Tape) : hirmText D.H D.dummyEncoding t ≠ .ok y := by
  have hm := make_spec L hf hmk
  obtain ⟨H, e, he, hI⟩ := h.inv S hm hf hcm hi
  obtain ⟨k, h1, h2⟩ := hI.stored x hx q v hv
  obtain ⟨f, hops, d, _, _, _, _, hq, _⟩ := h1
  rw [hm.schema] at hq
  have hH : D.H = H := by rw [he]; rfl
  rw [hH]
  exact C68_text_false S hf hmk hcm hi h hI.st.reach hI.st.schema hq h2 t y

/-! ### Concrete cases -/
open Latent (bools boolLaws)

/-- the texts of the example's values -/
def readBool (_ : bools.C ⊕ bools.E) (x : String) : Res Bool := if x = "1" then .ok true else if x = "0" then .ok false else .error .outOfRange

/-- two rows; the first address is missing, and the query does not ask for the second column -/
def visitsCsv : String := "City,Phone,Addr\n1,555,\n1,7,0\n"

def visitsFrame : DataFrame := ((∅ : FMap (List Char) (List (List Char))).set "Addr".toList [[], ['0']] |>.set "City".toList [['1'], ['1']] |>.set "Phone".toList [['5', '5', '5'], ['7']]) |>
  fun m => { columns := ["City".toList, "Phone".toList, "Addr".toList], data := m }

set_option maxRecDepth 20000 in
theorem visitsFrame_read : DataFrame.fromCsv visitsCsv.toList = .ok visitsFrame := rfl

theorem visitsFrame_find (q : List Char) : visitsFrame.data.find? q = if q = "Phone".toList then some [['5', '5', '5'], ['7']] else
    if q = "City".toList then some [['1'], ['1']] else if q = "Addr".toList then some [[], ['0']] else none := by
  show (((∅ : FMap (List Char) (List (List Char))).set "Addr".toList [[], ['0']]).set "City".toList [['1'], ['1']] |>.set "Phone".toList [['5', '5', '5'], ['7']]).find? q = _
  rw [FMap.find?_set, FMap.find?_set, FMap.find?_set]
  rfl

theorem visitsFrame_rectangular : Rectangular visitsFrame 2 := by
  intro q col h
  rw [visitsFrame_find] at h
  split at h
  · cases h; rfl
  · split at h
    · cases h; rfl
    · split at h
      · cases h; rfl
      · cases h

theorem visitsFrame_legible {D₀ : DB bools} {t : Tape} (h : start visits false false = .ok (D₀, t)) : Legible boolLaws D₀ readBool visitsFrame := by
  intro q f spec i x hq _ hc hne
  have hm := make_spec boolLaws visits_fine h
  rw [hm.schema] at hq
  have hx : x = "1" ∨ x = "0" := by
    obtain ⟨col, h1, h2⟩ := hc
    rw [visitsFrame_find] at h1
    have of : ∀ {c : Char}, x.toList = [c] → x = String.ofList [c] := fun h => by rw [← h, String.ofList_toList]
    have hnil : x.toList ≠ [] := fun h => hne (by rw [← String.ofList_toList (s := x), h])
    rcases visits_field hq with ⟨rfl, _⟩ | ⟨rfl, _⟩
    · rw [if_neg (by decide), if_neg (by decide), if_pos rfl] at h1
      cases h1
      match i, h2 with
      | 0, h2 => exact absurd (Option.some.inj h2).symm hnil
      | 1, h2 => exact Or.inr (of (Option.some.inj h2).symm)
    · rw [if_neg (by decide), if_pos rfl] at h1
      cases h1
      match i, h2 with
      | 0, h2 => exact Or.inl (of (Option.some.inj h2).symm)
      | 1, h2 => exact Or.inl (of (Option.some.inj h2).symm)
  rcases hx with rfl | rfl
  · exact ⟨by decide, true, rfl, takes_bools _ _ _⟩
  · exact ⟨by decide, false, rfl, takes_bools _ _ _⟩

/-- The hypotheses of `C67_frame` are met. -/
example (t : Tape) : ∃ D₀ t₀ D t', start visits false false = .ok (D₀, t₀) ∧ D₀.incorporateObservations (depth visits) readBool visitsFrame t = .ok (D, t') ∧
    ∀ q f, visits.query.fields.find? q = some f → ∀ k v, D.H.value q k = some v ↔ ∃ i < 2, CellValue D₀ readBool visitsFrame q i v ∧ TupleOf visits D.ents q i k := by
  obtain ⟨D₀, t₀, h⟩ : ∃ D₀ t₀, start visits false false = .ok (D₀, t₀) := ⟨_, _, rfl⟩
  obtain ⟨D, t', h1, _, h2⟩ := C67_frame HIRM.samples_bools visits_fine h (HIRM.compatible_bools _) visits_distinct visits_indexed
    ⟨"City".toList, _, by rw [visitsFrame_find]; rfl⟩ visitsFrame_rectangular (visitsFrame_legible h) (Nat.le_refl _) t
  exact ⟨D₀, t₀, D, t', h, h1, h2⟩

/-- the program with an example: the rows are read, and read once more -/
def readTwice (second : Bool) : Res (DB bools × Tape) := do
  let (D, t) ← start visits false false
  let df ← DataFrame.fromCsv visitsCsv.toList
  let (D, t) ← D.incorporateObservations 4 readBool df t
  if second then D.incorporateObservations 4 readBool df t else .ok (D, t)

set_option maxRecDepth 40000 in
/-- The missing address has no value. -/
example : (readTwice false).map (fun x => (x.1.H.value "Addr" [0, 0, 0], x.1.H.value "Addr" [1, 1, 1], x.1.H.value "City" [0, 0, 0], x.1.H.value "City" [1, 1, 1])) =
    .ok (none, some false, some true, some true) := rfl

set_option maxRecDepth 40000 in
/-- The second time the first row is there already. -/
example : (readTwice true).map (fun x => refsOf x.1) = .error .assert := rfl

set_option maxRecDepth 40000 in
/-- The clusters cannot be written. -/
example : (readTwice false >>= fun x => hirmText x.1.H x.1.dummyEncoding x.2).map Prod.fst = .error .outOfRange := rfl

end
end GenDB
end Verif
