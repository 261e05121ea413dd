import Verif.Lemmas.GenDBLoad
import Verif.Lemmas.GenDBSame
import Verif.Props.Sampling
/-!
C64: the rows of a `GenDB`, its references and its entities.
C47: rows with entities of their own.
-/
namespace Verif
namespace GenDB
open PClean
noncomputable section
variable {V : Type} {F : Family V} {L : FamilyLaws F} {s : PClean.Schema} {hash : String → Int} {mkC : String → FMap String String → Res F.C}
  {mkE : String → FMap String String → Res F.E} {clean finalOnly : Bool} {t₀ t₁ : Tape} {D₀ : DB F} {rows : List (Row V)} {D : DB F}

/-! ### C64 -/

/-- C64: a row whose number is new and whose values fit is incorporated, whatever the draws, unless two references to entities of the same class have the same
identifier.  What is stored stays. -/
theorem C64_incorporate (S : Samples L) (hf : Fine s clean) (hmk : make s hash mkC mkE clean finalOnly t₀ = .ok (D₀, t₁)) (hcm : Compatible L D₀.H.schema)
    (h : Loaded L D₀ rows D) {x : Row V} (hi : (∃ y ∈ x :: rows, y.unique = true) → Indexed s finalOnly) (hid : ∀ y ∈ rows, y.id ≠ x.id) (hfit : Fits L D₀ x.vals)
    {n : Nat} (hn : depth s ≤ n) (t : Tape) :
    (∃ D' t', D.incorporate n x.unique x.id x.vals t = .ok (D', t') ∧ Loaded L D₀ (x :: rows) D' ∧ Extends D.ents D'.ents ∧
      ∀ r k w, D.H.value r k = some w → D'.H.value r k = some w) ∨
    D.incorporate n x.unique x.id x.vals t = .error .assert ∧ ∃ e' c f i d c' f' i' w, Extends D.ents e' ∧ Refers s c f d ∧ Refers s c' f' d ∧
      (∀ v, ¬ HasRef e' c f i v) ∧ HasRef e' c' f' i' w ∧ refId hash c f i = refId hash c' f' i' := by
  have hm := make_spec L hf hmk
  obtain ⟨H, e, rfl, hI⟩ := h.inv S hm hf hcm (fun ⟨y, hy, hu⟩ => hi ⟨y, List.mem_cons_of_mem _ hy, hu⟩)
  have hn' : depth D₀.schema ≤ n := by rw [hm.schema]; exact hn
  rcases hI.incorporate S hm hf hcm (fun hu => hi ⟨x, List.mem_cons_self .., hu⟩) hid hfit hn' t with ⟨H', e', t', h1, h2, h3, h4, _⟩ | ⟨h1, e', h2, h3⟩
  · exact Or.inl ⟨_, t', h1, h.row hid hfit hn' h1, h3, h4⟩
  · obtain ⟨c, f, i, d, c', f', i', w, _, k2, k3, k4, k5, k6⟩ := h3
    rw [hm.schema] at k2 k4
    rw [hm.hash_eq] at k6
    exact Or.inr ⟨h1, e', c, f, i, d, c', f', i', w, h2.extends, k2, k4, k3, k5, k6.symm⟩

/-- C64: if the references to the entities of a class have different identifiers then each row is incorporated. -/
theorem C64_total (S : Samples L) (hf : Fine s clean) (hmk : make s hash mkC mkE clean finalOnly t₀ = .ok (D₀, t₁)) (hcm : Compatible L D₀.H.schema)
    (hd : Distinct s hash) (h : Loaded L D₀ rows D) {x : Row V} (hi : (∃ y ∈ x :: rows, y.unique = true) → Indexed s finalOnly)
    (hid : ∀ y ∈ rows, y.id ≠ x.id) (hfit : Fits L D₀ x.vals) {n : Nat} (hn : depth s ≤ n) (t : Tape) :
    ∃ D' t', D.incorporate n x.unique x.id x.vals t = .ok (D', t') ∧ Loaded L D₀ (x :: rows) D' := by
  rcases C64_incorporate S hf hmk hcm h hi hid hfit hn t with ⟨D', t', h1, h2, _⟩ | ⟨_, e', c, f, i, d, c', f', i', w, _, h2, h3, h4, h5, h6⟩
  · exact ⟨D', t', h1, h2⟩
  · obtain ⟨rfl, rfl, rfl⟩ := hd _ _ _ _ _ _ _ h2 h3 h6
    exact absurd h5 (h4 w)

/-- C64: an injective hash of the strings gives different identifiers if no class name has a space. -/
theorem C64_distinct (hh : ∀ a b, hash a = hash b → a = b) (hs : ∀ c cl, s.classes.find? c = some cl → ' ' ∉ c.toList) : Distinct s hash := distinct_of hh hs

/-- C64: the references agree with the entity CRPs, only rows have references without being referenced, and only those that were incorporated. -/
theorem C64_entities (S : Samples L) (hf : Fine s clean) (hmk : make s hash mkC mkE clean finalOnly t₀ = .ok (D₀, t₁)) (hcm : Compatible L D₀.H.schema)
    (hi : (∃ y ∈ rows, y.unique = true) → Indexed s finalOnly) (h : Loaded L D₀ rows D) :
    EntsOk s hash D.ents ∧ NoOrphans s s.query.recordClass D.ents ∧ ∀ f i v, HasRef D.ents s.query.recordClass f i v → ∃ x ∈ rows, x.id = i := by
  have hm := make_spec L hf hmk
  obtain ⟨H, e, rfl, hI⟩ := h.inv S hm hf hcm hi
  have h1 := hI.st.ents
  have h2 := hI.orphans
  have h3 := hI.roots
  rw [hm.schema] at h1 h2 h3
  rw [hm.hash_eq] at h1
  exact ⟨h1, h2, h3⟩

/-- C64: the values of the relation of a query field are exactly those of the rows, each at the tuple that the references of its row lead to. -/
theorem C64_rows (S : Samples L) (hf : Fine s clean) (hmk : make s hash mkC mkE clean finalOnly t₀ = .ok (D₀, t₁)) (hcm : Compatible L D₀.H.schema)
    (hi : (∃ y ∈ rows, y.unique = true) → Indexed s finalOnly) (h : Loaded L D₀ rows D) {q : String} {f : QueryField} (hq : s.query.fields.find? q = some f) :
    (∀ x ∈ rows, ∀ v, x.vals.find? q = some v → ∃ k, TupleOf s D.ents q x.id k ∧ D.H.value q k = some v) ∧
    ∀ k v, D.H.value q k = some v → ∃ x ∈ rows, x.vals.find? q = some v ∧ TupleOf s D.ents q x.id k := by
  have hm := make_spec L hf hmk
  obtain ⟨H, e, rfl, hI⟩ := h.inv S hm hf hcm hi
  refine ⟨?_, ?_⟩
  · intro x hx v hv
    have := hI.stored x hx q v hv
    rw [hm.schema] at this
    exact this
  · intro k v hv
    rcases hI.only q k v hv with h | ⟨sp, c, l1, l2, l3, _⟩
    · rw [hm.schema] at h
      exact h
    · obtain ⟨hops, d, x, j, p, hp⟩ := hf.query.path q f hq
      obtain ⟨spec', ds, ha⟩ := hm.asks q f hops d x j p hq hp
      have := ha.known
      rw [l1] at this
      cases this
      rw [ha.tree.2.2.1] at l2
      cases l2
      exact absurd rfl l3

/-- C47, C64: in each relation the last entity of a tuple with a value, which is the entity of its class, determines the tuple. -/
theorem C47_key (S : Samples L) (hf : Fine s clean) (hmk : make s hash mkC mkE clean finalOnly t₀ = .ok (D₀, t₁)) (hcm : Compatible L D₀.H.schema)
    (hi : (∃ y ∈ rows, y.unique = true) → Indexed s finalOnly) (h : Loaded L D₀ rows D) {r : String} {k k' : Items} {v v' : V} (hk : D.H.value r k = some v)
    (hk' : D.H.value r k' = some v') (hl : k.getLast? = k'.getLast?) : k = k' := by
  have hm := make_spec L hf hmk
  obtain ⟨rk, hw⟩ := hm.wired
  obtain ⟨H, e, rfl, hI⟩ := h.inv S hm hf hcm hi
  have low : ∀ {k v}, (∃ f, D₀.schema.query.fields.find? r = some f) → H.value r k = some v → ∃ x ∈ rows, TupleOf D₀.schema e r x.id k := by
    rintro k v ⟨f, hq⟩ hv
    rcases hI.only r k v hv with ⟨x, hx, _, h⟩ | ⟨sp, c, l1, l2, l3, _⟩
    · exact ⟨x, hx, h⟩
    · rw [hm.schema] at hq
      obtain ⟨hops, d, x, j, p, hp⟩ := hf.query.path r f hq
      obtain ⟨spec', ds, ha⟩ := hm.asks r f hops d x j p hq hp
      have := ha.known
      rw [l1] at this
      cases this
      rw [ha.tree.2.2.1] at l2
      cases l2
      exact absurd rfl l3
  by_cases hq : ∃ f, D₀.schema.query.fields.find? r = some f
  · obtain ⟨x, _, f, hops, d, y, j, p, ds, u1, u2, u3, u4, u5⟩ := low hq hk
    obtain ⟨x', _, f', hops', d', y', j', p', ds', w1, w2, w3, w4, w5⟩ := low hq hk'
    rw [u1] at w1
    cases w1
    obtain ⟨rfl, rfl, rfl, rfl, rfl⟩ := u2.unique w2
    have := layout_unique u3 w3
    subst this
    obtain ⟨t1, t2, _⟩ := u2.tree u3
    refine u4.unique t1 t2 w4 ?_
    rw [← u4.1, ← List.getLast?_eq_getElem?, hl, List.getLast?_eq_getElem?, u4.1, w4.1]
  · have low' : ∀ {k v}, H.value r k = some v → Lower D₀ e r k := by
      intro k v hv
      rcases hI.only r k v hv with ⟨x, _, _, f, _, _, _, _, _, _, u1, _⟩ | h
      · exact absurd ⟨f, u1⟩ hq
      · exact h
    obtain ⟨sp, c, l1, l2, l3, l4⟩ := low' hk
    obtain ⟨sp', c', m1, m2, m3, m4⟩ := low' hk'
    rw [l1] at m1
    cases m1
    refine l4.unique (hw.tree r sp l1).2 (hw.rooted r sp c l1 l2 l3) m4 ?_
    rw [← l4.1, ← List.getLast?_eq_getElem?, hl, List.getLast?_eq_getElem?, l4.1, m4.1]

/-! ### C47 -/

/-- C47, in part: if the classes on the paths of the query have no other references than those of the paths, and the query asks for no variable of a record class
with references (nor, with `only_final_emissions`, of any class with references), then a row that is incorporated with unique entities uses no entity that another
row uses, and the other rows use the same entities as before. -/
theorem C47_unique_partial (S : Samples L) (hf : Fine s clean) (hmk : make s hash mkC mkE clean finalOnly t₀ = .ok (D₀, t₁)) (hcm : Compatible L D₀.H.schema)
    (hi : Indexed s finalOnly) (hub : Unbranched s) (h : Loaded L D₀ rows D) {id : Int} {vals : FMap String V} (hid : ∀ y ∈ rows, y.id ≠ id) (hfit : Fits L D₀ vals)
    {n : Nat} (hn : depth s ≤ n) {t t' : Tape} {D' : DB F} (hinc : D.incorporate n true id vals t = .ok (D', t')) :
    ∀ y ∈ rows, ∀ d v, (Uses s D'.ents s.query.recordClass y.id d v ↔ Uses s D.ents s.query.recordClass y.id d v) ∧
      (Uses s D'.ents s.query.recordClass id d v → ¬ Uses s D'.ents s.query.recordClass y.id d v) := by
  have hm := make_spec L hf hmk
  obtain ⟨rk, hw⟩ := hm.wired
  obtain ⟨H, e, rfl, hI⟩ := h.inv S hm hf hcm (fun _ => hi)
  have hn' : depth D₀.schema ≤ n := by rw [hm.schema]; exact hn
  obtain ⟨H', e', rfl, _, hx, _, hg⟩ := (hI.incorporate (x := ⟨true, id, vals⟩) S hm hf hcm (fun _ => hi) hid hfit hn' t).result hinc
  have hg := hg rfl (by rw [hm.schema]; exact hub)
  have hroot : ∀ f v, ¬ HasRef e D₀.schema.query.recordClass f id v := by
    intro f v hv
    obtain ⟨y, hy, he⟩ := hI.roots f id v hv
    exact hid y hy he
  obtain ⟨a1, a2⟩ := hg.apart hw.rank hI.st.ents hI.orphans hroot
  have hrank := hw.rank
  rw [hm.schema] at a1 a2 hrank
  intro y hy d v
  refine ⟨⟨a2 _ _ _ (hid y hy), fun hu => hu.mono hx⟩, ?_⟩
  intro hu hu'
  rcases a1 d v hu with ⟨rfl, rfl⟩ | h1
  · rcases hu'.rank hrank with h | ⟨_, h⟩
    · omega
    · exact hid y hy h.symm
  · rcases (a2 _ _ _ (hid y hy) hu').referenced with ⟨rfl, rfl⟩ | h2
    · rcases hu.rank hrank with h | ⟨_, h⟩
      · omega
      · exact hid y hy h
    · exact h1 h2

/-- C47, in part: when all rows have been incorporated with unique entities, no entity is referenced twice. -/
theorem C47_unshared_partial (S : Samples L) (hf : Fine s clean) (hmk : make s hash mkC mkE clean finalOnly t₀ = .ok (D₀, t₁)) (hcm : Compatible L D₀.H.schema)
    (hi : Indexed s finalOnly) (hub : Unbranched s) (h : Loaded L D₀ rows D) (hu : ∀ x ∈ rows, x.unique = true) : Unshared s D.ents := by
  have hm := make_spec L hf hmk
  obtain ⟨H, e, rfl, hI⟩ := h.inv S hm hf hcm (fun _ => hi)
  have := hI.apart hu (by rw [hm.schema]; exact hub)
  rw [hm.schema] at this
  exact this

theorem Loaded.same (h : Loaded L D₀ rows D) : Same D₀ D := by
  induction h with
  | nil => exact .refl _
  | row _ _ _ _ hinc ih => exact ih.trans (incorporateLoop_same hinc)

/-- C47 is false: the relation of a query field of the clean record class has no reference indices, so each row that is incorporated with unique entities gets the
tuple that is zero but for the row.  No reference is made. -/
theorem C47_record_false (hf : Fine s true) (hmk : make s hash mkC mkE true finalOnly t₀ = .ok (D₀, t₁)) {q : String} {f : QueryField} {d x j : String}
    {p : FMap String String} {ds : List String} (hq : s.query.fields.find? q = some f) (hp : PathTo s s.query.recordClass f.classPath [] d x j p) (hd : Layout s d ds)
    (h : Loaded L D₀ rows D) (id : Int) (t : Tape) : DB.rowItems true q id D t = .ok (List.replicate (ds.length - 1) 0 ++ [id], D, t) := by
  have hm := make_spec L hf hmk
  have hs := h.same
  obtain ⟨Ly, b, h1, h2, h3, h4⟩ := hm.build
  have hidx := C63_clean_false hf.names hf.query h1 h2 hq hp
  obtain ⟨spec, ds', ha⟩ := hm.asks q f [] d x j p hq hp
  have := ha.layout
  rw [hm.schema] at this
  have := layout_unique this hd
  subst this
  have hdoms := ha.doms
  simp only [List.reverse_nil, List.map_nil, List.append_nil] at hdoms
  have hpos := ha.layout.length_pos
  unfold DB.rowItems
  have e1 : D.schema.query.fields.atKey q = .ok f := by rw [hs.schema, hm.schema]; exact FMap.atKey_of_find hq
  have e2 : D.H.schema.atKey q = .ok spec := by rw [hs.rels]; exact FMap.atKey_of_find ha.known
  obtain ⟨n, hn⟩ : ∃ n, ds'.length = n + 1 := ⟨ds'.length - 1, by omega⟩
  have e3 : uniqueItems D.hash D.H.schema D.relIdx q (n + 1) n id (List.replicate (n + 1) 0) D.ents = .ok (List.replicate n 0 ++ [id], D.ents) := by
    unfold uniqueItems
    rw [e2]
    have e5 : setItem (List.replicate (n + 1) 0) n id = .ok (List.replicate n 0 ++ [id]) := by
      unfold setItem
      rw [if_pos (by simp)]
      congr 1
      rw [List.replicate_succ']
      simp
    have e6 : refsAt D.relIdx q n = none := by
      unfold refsAt
      rw [hs.relIdx, h3, hidx]
      rfl
    show (setItem (List.replicate (n + 1) 0) n id >>= _) = _
    rw [e5]
    show (match refsAt D.relIdx q n with | none => _ | some m => _) = _
    rw [e6]
  show (D.schema.query.fields.atKey q >>= _) = _
  rw [e1]
  show (D.H.schema.atKey q >>= _) = _
  rw [e2]
  show (uniqueItems D.hash D.H.schema D.relIdx q spec.doms.length (spec.doms.length - 1) id (List.replicate spec.doms.length 0) D.ents >>= _) = _
  rw [hdoms, hn, Nat.add_sub_cancel, e3]
  rfl

/-- C64 without its hypothesis on the record class is false: if the record class is not declared clean and the query asks for one of its variables then no row with
a value for it can be incorporated.  The relation of the query field and its base both belong to the record class, so `sample_and_incorporate_for_class` calls itself
for ever. -/
theorem C64_noisy_record_false (hn : NamesOk s) (hqo : QueryOk s) (hmk : make s hash mkC mkE false finalOnly t₀ = .ok (D₀, t₁)) {q : String} {f : QueryField}
    {d x j : String} {p : FMap String String} (hq : s.query.fields.find? q = some f) (hp : PathTo s s.query.recordClass f.classPath [] d x j p)
    (h : Loaded L D₀ rows D) (n : Nat) (unique : Bool) (id : Int) {vals : FMap String V} {v : V} (hv : vals.find? q = some v) (t : Tape) :
    ∀ D' t', D.incorporate n unique id vals t ≠ .ok (D', t') := by
  have hl : Loops D₀ d q := by
    unfold make at hmk
    obtain ⟨Ly, h1, hmk⟩ := bind_ok.mp hmk
    obtain ⟨b, h2, hmk⟩ := bind_ok.mp hmk
    obtain ⟨⟨H, t'⟩, h3, hmk⟩ := bind_ok.mp hmk
    obtain ⟨classRels, h4, hmk⟩ := bind_ok.mp hmk
    cases hmk
    obtain ⟨hsch, _⟩ := HIRM.C31_hirm_result h3
    obtain ⟨ds, hds⟩ := field_layout h1 hp
    obtain ⟨e', _, k1, _⟩ := (C62_relations hn hqo h1 h2).2.1 q f [] d x j p ds hq hp hds
    obtain ⟨C, ds', _, k2, k3⟩ := (C62_relations hn hqo h1 h2).1 d x j p hp.has (fun h => by cases h.1)
    have := layout_unique hds k2
    subst this
    obtain ⟨_, _, _, _, rfl⟩ := hds.sub
    refine ⟨?_, e', _, _, _, _, by show H.schema.find? q = _; rw [hsch]; exact k1, by show H.schema.find? _ = _; rw [hsch]; exact k3, by simp [RelSpec.doms]⟩
    refine (classRelsLoop_spec h4 d q).mpr (Or.inr ⟨_, FMap.mem_entries.mpr (by rw [hsch]; exact k1), by simp [RelSpec.doms]⟩)
  intro D' t' hinc
  exact (hl.same h.same).incorporateLoop (List.mem_map.mpr ⟨_, FMap.mem_entries.mpr hv, rfl⟩) hinc

/-! ### Concrete cases -/
open Latent (bools boolLaws)

/-- an injective number of a string -/
def code (a : String) : Int := ((a.toList.foldr (fun c n => n * 1114112 + c.toNat + 1) 0 : Nat) : Int)

theorem code_inj (a b : String) (h : code a = code b) : a = b := by
  have key : ∀ (l l' : List Char), l.foldr (fun c n => n * 1114112 + c.toNat + 1) 0 = l'.foldr (fun c n => n * 1114112 + c.toNat + 1) 0 → l = l' := by
    have hlt : ∀ c : Char, c.toNat < 1114112 := by
      intro c
      have := c.valid
      unfold Char.toNat
      rcases this with h | h
      · have : c.val.toNat < 55296 := h
        omega
      · exact h.2
    intro l
    induction l with
    | nil => intro l' h; cases l' with
      | nil => rfl
      | cons c l' => simp at h
    | cons c l ih =>
      intro l' h
      cases l' with
      | nil => simp at h
      | cons c' l' =>
        simp only [List.foldr_cons] at h
        have h1 := hlt c
        have h2 := hlt c'
        have h3 : c.toNat = c'.toNat := by omega
        rw [ih l' (by omega), Char.toNat_inj.mp h3]
  exact String.toList_inj.mp (key _ _ (Int.ofNat.inj h))

/-- the database of an example, with a family of Boolean distributions -/
def start (s : PClean.Schema) (clean finalOnly : Bool) : Res (DB bools × Tape) := make s code (fun _ _ => .ok ()) (fun _ _ => .ok ()) clean finalOnly []

def rowOf (l : List (String × Bool)) : FMap String Bool := l.foldl (fun m e => m.set e.1 e.2) ∅

/-- the rows are incorporated, the last one first -/
def loadAll (s : PClean.Schema) (clean finalOnly : Bool) (n : Nat) : List (Row Bool) → Res (DB bools × Tape)
  | [] => start s clean finalOnly
  | x :: rows => do
    let (D, t) ← loadAll s clean finalOnly n rows
    D.incorporate n x.unique x.id x.vals t

/-- the references of each class -/
def refsOf (D : DB bools) : List (String × List ((String × Int) × Int)) := D.ents.refs.entries.map (fun e => (e.1, e.2.entries))

/-- Practices are in cities and records name practices; the query asks for no variable of the record. -/
def visits : PClean.Schema :=
  queryOf [mixedClass "City" ["name"] [], mixedClass "Practice" ["addr"] [("city", "City")], mixedClass "Record" ["note"] [("location", "Practice")]] "Record"
    [("Addr", ["location", "addr"]), ("City", ["location", "city", "name"])]

set_option maxRecDepth 4000 in
theorem visits_refers : Refers visits "Record" "location" "Practice" ∧ Refers visits "Practice" "city" "City" :=
  ⟨refers_refsFrom.mpr (by decide), refers_refsFrom.mpr (by decide)⟩

set_option maxRecDepth 4000 in
theorem visits_addr : PathTo visits "Record" ["location", "addr"] [("Record", "location")] "Practice" "addr" "bool" ∅ :=
  .step visits_refers.1 (.here ⟨_, _, rfl, rfl, rfl⟩)

set_option maxRecDepth 4000 in
theorem visits_city : PathTo visits "Record" ["location", "city", "name"] [("Record", "location"), ("Practice", "city")] "City" "name" "bool" ∅ :=
  .step visits_refers.1 (.step visits_refers.2 (.here ⟨_, _, rfl, rfl, rfl⟩))

set_option maxRecDepth 4000 in
theorem visits_field {k : String} {f : QueryField} (hf : visits.query.fields.find? k = some f) :
    (k = "Addr" ∧ f = ⟨"Addr", ["location", "addr"]⟩) ∨ k = "City" ∧ f = ⟨"City", ["location", "city", "name"]⟩ := by
  have hm := FMap.mem_entries.mpr hf
  have e : visits.query.fields.entries = [("Addr", ⟨"Addr", ["location", "addr"]⟩), ("City", ⟨"City", ["location", "city", "name"]⟩)] := rfl
  rw [e] at hm
  simpa only [List.mem_cons, Prod.mk.injEq, List.not_mem_nil, or_false] using hm

theorem shallow_of {s : PClean.Schema} (h : ∀ e ∈ s.classes.entries, ∀ x ∈ refsFrom s e.1, ∀ y ∈ refsFrom s x.2, refsFrom s y.2 = []) {c x j : String}
    {p : FMap String String} (hs : HasScalar s c x j p) : ShallowAt s c := by
  obtain ⟨cl, _, hc, _⟩ := hs
  exact shallowAt_iff.mpr (h _ (FMap.mem_entries.mpr hc))

set_option maxRecDepth 4000 in
theorem visits_fine : Fine visits false where
  names := namesOk_of (by decide)
  query := by
    refine ⟨⟨_, rfl⟩, ?_⟩
    intro k f hf
    rcases visits_field hf with ⟨rfl, rfl⟩ | ⟨rfl, rfl⟩
    · exact ⟨_, _, _, _, _, visits_addr⟩
    · exact ⟨_, _, _, _, _, visits_city⟩
  shallow _ _ _ _ h := shallow_of (by decide) h
  mode k f x hf hx := by
    rcases visits_field hf with ⟨rfl, rfl⟩ | ⟨rfl, rfl⟩ <;> simp at hx

theorem visits_indexed : Indexed visits false := by
  intro q f hops d x j p hq hp h
  rcases visits_field hq with ⟨rfl, rfl⟩ | ⟨rfl, rfl⟩
  · obtain ⟨rfl, _⟩ := visits_addr.unique hp
    simp at h
  · obtain ⟨rfl, _⟩ := visits_city.unique hp
    simp at h

set_option maxRecDepth 4000 in
theorem visits_unbranched : Unbranched visits := by
  intro q f hops d x j p c g hq hp hm f' y hr
  rcases visits_field hq with ⟨rfl, rfl⟩ | ⟨rfl, rfl⟩
  · obtain ⟨rfl, _⟩ := visits_addr.unique hp
    simp at hm
  · obtain ⟨rfl, _⟩ := visits_city.unique hp
    simp only [List.tail_cons, List.mem_singleton, Prod.mk.injEq] at hm
    obtain ⟨rfl, rfl⟩ := hm
    have h := refers_refsFrom.mp hr
    have e : refsFrom visits "Practice" = [("city", "City")] := rfl
    rw [e] at h
    simp only [List.mem_singleton, Prod.mk.injEq] at h
    exact h.1

set_option maxRecDepth 8000 in
theorem visits_distinct : Distinct visits code := C64_distinct code_inj (by
  intro c cl hc
  have h : ∀ e ∈ visits.classes.entries, ' ' ∉ e.1.toList := by decide
  exact h _ (FMap.mem_entries.mpr hc))

theorem takes_bools (schema : Schema bools) (v : Bool) (spec : RelSpec bools) : UtilIO.Takes boolLaws schema v spec := by
  cases spec with
  | clean => trivial
  | noisy => intro sp bv _ _; cases bv <;> cases v <;> simp [boolLaws, NoisyRel.Any]

theorem fits_bools {s : PClean.Schema} {hash : String → Int} {mkC : String → FMap String String → Res bools.C} {mkE : String → FMap String String → Res bools.E}
    {clean finalOnly : Bool} {t₀ t₁ : Tape} {D₀ : DB bools} (hf : Fine s clean) (hmk : make s hash mkC mkE clean finalOnly t₀ = .ok (D₀, t₁)) {row : FMap String Bool}
    (h : ∀ q v, row.find? q = some v → ∃ f, s.query.fields.find? q = some f) : Fits boolLaws D₀ row := by
  intro q v hv
  have hm := make_spec boolLaws hf hmk
  obtain ⟨f, hq⟩ := h q v hv
  obtain ⟨hops, d, x, j, p, hp⟩ := hf.query.path q f hq
  obtain ⟨spec, ds, ha⟩ := hm.asks q f hops d x j p hq hp
  exact ⟨f, spec, by rw [hm.schema]; exact hq, ha.known, takes_bools _ _ _⟩

/-- a row with both values -/
def bothRow (unique : Bool) (id : Int) (a b : Bool) : Row Bool := ⟨unique, id, rowOf [("Addr", a), ("City", b)]⟩

set_option maxRecDepth 8000 in
theorem both_fits {D₀ : DB bools} {t : Tape} (h : start visits false false = .ok (D₀, t)) (unique : Bool) (id : Int) (a b : Bool) :
    Fits boolLaws D₀ (bothRow unique id a b).vals := by
  refine fits_bools visits_fine h ?_
  intro q v hv
  have hv : (((∅ : FMap String Bool).set "Addr" a).set "City" b).find? q = some v := hv
  rw [FMap.find?_set, FMap.find?_set] at hv
  split at hv
  · next h => subst h; exact ⟨_, rfl⟩
  · split at hv
    · next h => subst h; exact ⟨_, rfl⟩
    · simp at hv

set_option maxRecDepth 8000 in
/-- The hypotheses of the theorems above are met: rows with any values are incorporated one after the other, with any draws. -/
theorem visits_loaded (t : Tape) (u₁ u₂ a₁ a₂ b₁ b₂ : Bool) : ∃ D₀ t₀ D, start visits false false = .ok (D₀, t₀) ∧
    Loaded boolLaws D₀ [bothRow u₂ 8 a₂ b₂, bothRow u₁ 7 a₁ b₁] D := by
  obtain ⟨D₀, t₀, h⟩ : ∃ D₀ t₀, start visits false false = .ok (D₀, t₀) := ⟨_, _, rfl⟩
  obtain ⟨D₁, t₁, _, h1⟩ := C64_total HIRM.samples_bools visits_fine h (HIRM.compatible_bools _) visits_distinct .nil (x := bothRow u₁ 7 a₁ b₁) (fun _ => visits_indexed)
    (by simp) (both_fits h u₁ 7 a₁ b₁) (Nat.le_refl _) t
  obtain ⟨D₂, t₂, _, h2⟩ := C64_total HIRM.samples_bools visits_fine h (HIRM.compatible_bools _) visits_distinct h1 (x := bothRow u₂ 8 a₂ b₂) (fun _ => visits_indexed)
    (by simp [bothRow]) (both_fits h u₂ 8 a₂ b₂) (Nat.le_refl _) t₁
  exact ⟨D₀, t₀, D₂, h, h2⟩

/-- the other theorems, for these rows -/
example (t : Tape) (u₁ u₂ a₁ a₂ b₁ b₂ : Bool) : ∃ D : DB bools, EntsOk visits code D.ents ∧ NoOrphans visits "Record" D.ents ∧
    (∃ k, TupleOf visits D.ents "City" 8 k ∧ D.H.value "City" k = some b₂) ∧ (u₁ = true → u₂ = true → Unshared visits D.ents) := by
  obtain ⟨D₀, t₀, D, h, hl⟩ := visits_loaded t u₁ u₂ a₁ a₂ b₁ b₂
  obtain ⟨h1, h2, _⟩ := C64_entities HIRM.samples_bools visits_fine h (HIRM.compatible_bools _) (fun _ => visits_indexed) hl
  refine ⟨D, h1, h2, ?_, ?_⟩
  · exact (C64_rows HIRM.samples_bools visits_fine h (HIRM.compatible_bools _) (fun _ => visits_indexed) hl (q := "City") (f := ⟨"City", ["location", "city", "name"]⟩) rfl).1 _
      (List.mem_cons_self ..) b₂ (FMap.find?_set_self ((∅ : FMap String Bool).set "Addr" a₂) "City" b₂)
  · intro e1 e2
    subst e1 e2
    exact C47_unshared_partial HIRM.samples_bools visits_fine h (HIRM.compatible_bools _) visits_indexed visits_unbranched hl (by simp [bothRow])

set_option maxRecDepth 20000 in
/-- with unique entities each row has a practice and a city of its own -/
example : (loadAll visits false false 4 [bothRow true 8 true false, bothRow true 7 true false]).map (fun x => refsOf x.1) =
    .ok [("City", []), ("Practice", [(("city", 0), 0), (("city", 1), 1)]), ("Record", [(("location", 7), 0), (("location", 8), 1)])] := rfl

/-- Practices have a city and a region; the query asks for the city only. -/
def regions : PClean.Schema :=
  queryOf [mixedClass "City" ["name"] [], mixedClass "Practice" ["addr"] [("city", "City"), ("region", "Region")], mixedClass "Record" ["note"] [("location", "Practice")],
    mixedClass "Region" ["size"] []] "Record" [("City", ["location", "city", "name"])]

set_option maxRecDepth 20000 in
/-- C47 is false: a reference field that the tuples of the query do not have is sampled from the entity CRP when the values of the class are sampled, also with
unique entities.  Here two rows get the same region. -/
theorem C47_sampled_false : ∃ D t, loadAll regions false false 4 [⟨true, 8, rowOf [("City", false)]⟩, ⟨true, 7, rowOf [("City", false)]⟩] = .ok (D, t) ∧
    HasRef D.ents "Record" "location" 7 0 ∧ HasRef D.ents "Record" "location" 8 1 ∧ HasRef D.ents "Practice" "region" 0 0 ∧ HasRef D.ents "Practice" "region" 1 0 :=
  ⟨_, _, rfl, ⟨_, rfl, rfl⟩, ⟨_, rfl, rfl⟩, ⟨_, rfl, rfl⟩, ⟨_, rfl, rfl⟩⟩

set_option maxRecDepth 20000 in
/-- C47 is false: two rows with unique entities and a query field of the record class, whose tuples have the same practice and city. -/
theorem C47_zero_false : ∃ D t, loadAll practices true false 4 [⟨true, 8, rowOf [("Note", false)]⟩, ⟨true, 7, rowOf [("Note", true)]⟩] = .ok (D, t) ∧
    D.H.value "Note" [0, 0, 7] = some true ∧ D.H.value "Note" [0, 0, 8] = some false ∧ refsOf D = [("City", []), ("Practice", []), ("Record", [])] :=
  ⟨_, _, rfl, rfl, rfl, rfl⟩

set_option maxRecDepth 4000 in
theorem practices_fine : Fine practices true where
  names := namesOk_of (by decide)
  query := by
    refine ⟨⟨_, rfl⟩, ?_⟩
    intro k f hf
    have hm := FMap.mem_entries.mpr hf
    have e : practices.query.fields.entries = [("Addr", ⟨"Addr", ["location", "addr"]⟩), ("City", ⟨"City", ["location", "city", "name"]⟩), ("Note", ⟨"Note", ["note"]⟩)] := rfl
    rw [e] at hm
    simp only [List.mem_cons, Prod.mk.injEq, List.not_mem_nil, or_false] at hm
    rcases hm with ⟨rfl, rfl⟩ | ⟨rfl, rfl⟩ | ⟨rfl, rfl⟩
    · exact ⟨_, _, _, _, _, practices_addr⟩
    · exact ⟨_, _, _, _, _, practices_city⟩
    · exact ⟨_, _, _, _, _, practices_note⟩
  shallow _ _ _ _ h := shallow_of (by decide) h
  mode _ _ _ _ _ := rfl

set_option maxRecDepth 8000 in
/-- the practices meet the hypotheses of `C47_record_false` -/
example {D : DB bools} {t : Tape} (h : start practices true false = .ok (D, t)) (id : Int) (t' : Tape) :
    DB.rowItems true "Note" id D t' = .ok ([0, 0, id], D, t') := by
  have hc : Layout practices "City" ([] ++ ["City"]) := .mk rfl .nil
  have hp : Layout practices "Practice" ((["City"] ++ []) ++ ["Practice"]) := .mk rfl (.cons hc .nil)
  have hr : Layout practices "Record" ((["City", "Practice"] ++ []) ++ ["Record"]) := .mk rfl (.cons hp .nil)
  exact C47_record_false (L := boolLaws) practices_fine h (f := ⟨"Note", ["note"]⟩) rfl practices_note hr .nil id t'

set_option maxRecDepth 8000 in
/-- the practices meet the hypotheses of `C64_noisy_record_false` -/
example : (∃ D t, start practices false false = .ok (D, t)) ∧ PathTo practices "Record" ["note"] [] "Record" "note" "bool" ∅ ∧
    practices.query.fields.find? "Note" = some ⟨"Note", ["note"]⟩ := ⟨⟨_, _, rfl⟩, practices_note, rfl⟩

/-- a chain of references -/
def deep : PClean.Schema :=
  queryOf [mixedClass "A" ["x"] [], mixedClass "B" ["x"] [("a", "A")], mixedClass "C" ["x"] [("b", "B")], mixedClass "D" ["x"] [("c", "C")],
    mixedClass "Record" ["note"] [("d", "D")]] "Record" [("X", ["d", "x"])]

set_option maxRecDepth 20000 in
/-- C64 without its hypothesis on chains of references is false: no row can be incorporated, since a reference is looked up that is not one of the class (see
`C46_phantom_false`); and with unique entities the reference is made. -/
theorem C64_deep_false : (loadAll deep false false 6 [⟨false, 7, rowOf [("X", true)]⟩]).map (fun x => refsOf x.1) = .error .outOfRange ∧
    (loadAll deep false false 6 [⟨true, 7, rowOf [("X", true)]⟩]).map (fun x => refsOf x.1) =
      .ok [("A", []), ("B", [(("a", 0), 1)]), ("C", [(("a", 0), 0), (("b", 0), 0)]), ("D", [(("c", 0), 0)]), ("Record", [(("d", 7), 0)])] := ⟨rfl, rfl⟩

end
end GenDB
end Verif
