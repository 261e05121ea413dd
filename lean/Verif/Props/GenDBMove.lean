import Verif.Lemmas.GenDBMoved
import Verif.Props.GenDB
import Verif.Spec.GenDBMove
/-!
C48: the references of an entity that is no longer referenced.
C65: reassigning references.
C66: the weights of the candidates of a reference.
-/
namespace Verif
namespace GenDB
open PClean
noncomputable section
open Latent (bools boolLaws)
variable {V : Type} {F : Family V} {L : FamilyLaws F} {s : PClean.Schema} {hash : String → Int} {mkC : String → FMap String String → Res F.C}
  {mkE : String → FMap String String → Res F.E} {clean finalOnly : Bool} {t₀ t₁ : Tape} {D₀ : DB F} {rows : List (Row V)} {D D' D'' : DB F}

/-! ### C65 -/

/-- the rows and the transitions leave the schema alone, and the references agree with the entity CRPs -/
theorem Inferred.kept {r : String → Nat} (hrank : ∀ c f d, Refers D.schema c f d → r d < r c) (hok : EntsOk D.schema D.hash D.ents) (h : Inferred D D') : Kept D D' := by
  induction h with
  | nil => exact .refl hok
  | ref _ h ih =>
    have hr := hrank
    rw [← ih.same.schema] at hr
    exact ih.trans ((transitionReference_moved hr (by rw [ih.same.schema, ih.same.hash]; exact ih.ok) h).kept)
  | cls _ h ih =>
    exact ih.trans (transitionClass_kept _ _ _ _ _ (by rw [ih.same.schema]; exact hrank) (by rw [ih.same.schema, ih.same.hash]; exact ih.ok) h)
  | iter _ h ih =>
    exact ih.trans (inference_kept (by rw [ih.same.schema]; exact hrank) (by rw [ih.same.schema, ih.same.hash]; exact ih.ok) h)
  | rels _ h ih =>
    exact ih.trans ⟨⟨rfl, rfl, rfl, rfl, HIRM.inference_schema h⟩, by rw [ih.same.schema, ih.same.hash]; exact ih.ok, fun _ _ _ v h => ⟨v, h⟩, fun _ _ h => h⟩

theorem loaded_rank (S : Samples L) (hf : Fine s clean) (hmk : make s hash mkC mkE clean finalOnly t₀ = .ok (D₀, t₁)) (hcm : Compatible L D₀.H.schema)
    (hi : (∃ y ∈ rows, y.unique = true) → Indexed s finalOnly) (h : Loaded L D₀ rows D) :
    D.schema = s ∧ D.hash = hash ∧ EntsOk D.schema D.hash D.ents ∧ ∃ r : String → Nat, ∀ c f d, Refers s c f d → r d < r c := by
  have hm := make_spec L hf hmk
  have hs : D.schema = s := h.same.schema.trans hm.schema
  have hh : D.hash = hash := h.same.hash.trans hm.hash_eq
  obtain ⟨r, hw⟩ := hm.wired
  refine ⟨hs, hh, ?_, r, ?_⟩
  · rw [hs, hh]; exact (C64_entities S hf hmk hcm hi h).1
  · have := hw.rank
    rw [hm.schema] at this
    exact this

/-- C65: after rows have been incorporated and any number of references reassigned, the entity CRPs hold exactly the references that are stored, and each
reference that there was is still there. -/
theorem C65_inferred (S : Samples L) (hf : Fine s clean) (hmk : make s hash mkC mkE clean finalOnly t₀ = .ok (D₀, t₁)) (hcm : Compatible L D₀.H.schema)
    (hi : (∃ y ∈ rows, y.unique = true) → Indexed s finalOnly) (h : Loaded L D₀ rows D) (hm : Inferred D D') :
    D'.schema = s ∧ EntsOk s hash D'.ents ∧ ∀ c f i v, HasRef D.ents c f i v → ∃ v', HasRef D'.ents c f i v' := by
  obtain ⟨rfl, rfl, hok, r, hr⟩ := loaded_rank S hf hmk hcm hi h
  have hk := hm.kept hr hok
  exact ⟨hk.same.schema, hk.ok, hk.keeps⟩

theorem moved (S : Samples L) (hf : Fine s clean) (hmk : make s hash mkC mkE clean finalOnly t₀ = .ok (D₀, t₁)) (hcm : Compatible L D₀.H.schema)
    (hi : (∃ y ∈ rows, y.unique = true) → Indexed s finalOnly) (h : Loaded L D₀ rows D) (hm : Inferred D D') {c f : String} {i : Int} {t t' : Tape}
    (ht : D'.transitionReference c f i t = .ok (D'', t')) : D'.schema = s ∧ RefMoved D' c f i D'' ∧ ∃ r : String → Nat, ∀ c f d, Refers s c f d → r d < r c := by
  obtain ⟨rfl, rfl, hok, r, hr⟩ := loaded_rank S hf hmk hcm hi h
  have hk := hm.kept hr hok
  exact ⟨hk.same.schema, transitionReference_moved (by rw [hk.same.schema]; exact hr) (by rw [hk.same.schema, hk.same.hash]; exact hk.ok) ht, r, hr⟩

/-- C65: what `transition_reference` does to the references.  All other references stay as they are.  The reference itself keeps its entity, or gets one to
which another reference leads, or gets an entity to which no reference led.  A reference that was not there belongs to an entity that was not referenced, or
was made for one. -/
theorem C65_transition (S : Samples L) (hf : Fine s clean) (hmk : make s hash mkC mkE clean finalOnly t₀ = .ok (D₀, t₁)) (hcm : Compatible L D₀.H.schema)
    (hi : (∃ y ∈ rows, y.unique = true) → Indexed s finalOnly) (h : Loaded L D₀ rows D) (hm : Inferred D D') {c f : String} {i : Int} {t t' : Tape}
    (ht : D'.transitionReference c f i t = .ok (D'', t')) :
    (∀ c' f' i' v, ¬ (c' = c ∧ f' = f ∧ i' = i) → HasRef D'.ents c' f' i' v → HasRef D''.ents c' f' i' v) ∧
    (∃ d v v', Refers s c f d ∧ HasRef D'.ents c f i v ∧ HasRef D''.ents c f i v' ∧
      (v' = v ∨ (∃ c' f' i', ¬ (c' = c ∧ f' = f ∧ i' = i) ∧ Refers s c' f' d ∧ HasRef D'.ents c' f' i' v') ∨ ¬ Referenced s D'.ents d v')) ∧
    ∀ c' f' i' v, ¬ (c' = c ∧ f' = f ∧ i' = i) → HasRef D''.ents c' f' i' v → HasRef D'.ents c' f' i' v ∨
      ∃ d j, Refers s c f d ∧ ¬ Referenced s D'.ents d j ∧ Uses s D''.ents d j c' i' := by
  obtain ⟨hs, hmv, _⟩ := moved S hf hmk hcm hi h hm ht
  have h1 := hmv.value
  have h2 := hmv.news
  rw [hs] at h1 h2
  exact ⟨hmv.keeps, h1, h2⟩

/-! ### C48 -/

/-- C48 is false: if the reassigned reference was the only one to an entity then the references of this entity are kept, although no reference leads to it
any more. -/
theorem C48_orphans_false (S : Samples L) (hf : Fine s clean) (hmk : make s hash mkC mkE clean finalOnly t₀ = .ok (D₀, t₁)) (hcm : Compatible L D₀.H.schema)
    (hi : (∃ y ∈ rows, y.unique = true) → Indexed s finalOnly) (h : Loaded L D₀ rows D) (hm : Inferred D D') {c f : String} {i : Int} {t t' : Tape}
    (ht : D'.transitionReference c f i t = .ok (D'', t')) {d : String} {v : Int} (hd : Refers s c f d)
    (hlast : ∀ c' f' i', Refers s c' f' d → HasRef D'.ents c' f' i' v → c' = c ∧ f' = f ∧ i' = i) (hgone : ¬ HasRef D''.ents c f i v) :
    ¬ Referenced s D''.ents d v ∧ ∀ g u, HasRef D'.ents d g v u → HasRef D''.ents d g v u := by
  obtain ⟨hs, hmv, r, hr⟩ := moved S hf hmk hcm hi h hm ht
  constructor
  · rintro ⟨c', f', i', hr', hv⟩
    by_cases hk : c' = c ∧ f' = f ∧ i' = i
    · obtain ⟨rfl, rfl, rfl⟩ := hk
      exact hgone hv
    · have h2 := hmv.news _ _ _ _ hk hv
      rw [hs] at h2
      rcases h2 with h2 | ⟨d', j, hd', _, hu⟩
      · exact hk (hlast _ _ _ hr' h2)
      · have e := refers_fun hd hd'
        subst e
        have a1 := hu.rank hr
        have a2 := hr _ _ _ hr'
        rcases a1 with a1 | ⟨rfl, _⟩ <;> omega
  · intro g u hu
    refine hmv.keeps _ _ _ _ ?_ hu
    rintro ⟨rfl, rfl, rfl⟩
    have := hr _ _ _ hd
    omega

/-- C48 holds if the entities of the referenced classes have no references themselves: then, after any number of transitions, only rows have references without
being referenced.  What is missing: the other schemas, for which it is false (`C48_orphans_false`). -/
theorem C48_orphans_partial (S : Samples L) (hf : Fine s clean) (hmk : make s hash mkC mkE clean finalOnly t₀ = .ok (D₀, t₁)) (hcm : Compatible L D₀.H.schema)
    (hi : (∃ y ∈ rows, y.unique = true) → Indexed s finalOnly) (h : Loaded L D₀ rows D) (hm : Inferred D D')
    (hflat : ∀ c f d g e, Refers s c f d → ¬ Refers s d g e) : NoOrphans s s.query.recordClass D'.ents := by
  have ho := (C64_entities S hf hmk hcm hi h).2.1
  obtain ⟨rfl, rfl, hok, r, hr⟩ := loaded_rank S hf hmk hcm hi h
  exact (hm.kept hr hok).flat hflat _ ho

/-! ### C66 -/

theorem atKey_err {K V : Type} [Key K] {m : FMap K V} {k : K} {e : Err} (h : m.atKey k = .error e) : e = .outOfRange := by
  unfold FMap.atKey at h
  split at h <;> cases h
  rfl

theorem indsLoop_err {idx : RefIdx} {c f : String} {l : List String} : ∀ {i : Nat} {e : Err}, DB.indsLoop idx c f l i = .error e → e = .outOfRange := by
  induction l with
  | nil => intro i e h; cases h
  | cons d l ih =>
    intro i e h
    unfold DB.indsLoop at h
    split at h
    · cases h1 : idx.atKey i with
      | error e' =>
        rw [h1] at h
        cases h
        exact atKey_err h1
      | ok r =>
        cases h2 : DB.indsLoop idx c f l (i + 1) with
        | error e' =>
          simp only [h1, bind, Except.bind, h2] at h
          cases h
          exact ih h2
        | ok r =>
          simp only [h1, bind, Except.bind, h2] at h
          cases h
    · exact ih h

theorem relInds_err {c f q : String} {ds : List String} {e : Err} (h : D.relInds c f q ds = .error e) : e = .outOfRange := by
  unfold DB.relInds at h
  split at h
  · cases h1 : D.relIdx.atKey q with
    | error e' =>
      rw [h1] at h
      cases h
      exact atKey_err h1
    | ok idx =>
      rw [h1] at h
      exact indsLoop_err h
  · cases h

theorem domainIndsLoop_err {c f : String} {l : List String} : ∀ {m : FMap String (List Nat)} {e : Err}, DB.domainIndsLoop D c f l m = .error e → e = .outOfRange := by
  induction l with
  | nil => intro m e h; cases h
  | cons q l ih =>
    intro m e h
    unfold DB.domainIndsLoop at h
    cases h1 : D.H.schema.atKey q with
    | error e' =>
      rw [h1] at h
      cases h
      exact atKey_err h1
    | ok spec =>
      rw [h1] at h
      cases h2 : D.relInds c f q spec.doms with
      | error e' =>
        simp only [bind, Except.bind, h2] at h
        cases h
        exact relInds_err h2
      | ok inds =>
        simp only [bind, Except.bind, h2] at h
        exact ih h

theorem domainIndsLoop_missing {c f q : String} {spec : RelSpec F} (hs : D.H.schema.find? q = some spec) (hc : c ∈ spec.doms) (hx : D.relIdx.find? q = none)
    {l : List String} : ∀ {m m' : FMap String (List Nat)}, q ∈ l → DB.domainIndsLoop D c f l m ≠ .ok m' := by
  induction l with
  | nil => intro m m' h; cases h
  | cons p l ih =>
    intro m m' hq h
    unfold DB.domainIndsLoop at h
    obtain ⟨sp, h1, h⟩ := bind_ok.mp h
    obtain ⟨inds, h2, h⟩ := bind_ok.mp h
    rcases List.mem_cons.mp hq with rfl | hq
    · have e := FMap.atKey_ok.mp h1
      rw [hs] at e
      cases e
      unfold DB.relInds at h2
      rw [if_pos (by simpa using hc)] at h2
      obtain ⟨idx, h3, _⟩ := bind_ok.mp h2
      have := FMap.atKey_ok.mp h3
      rw [hx] at this
      cases this
    · exact ih hq h

theorem PathTo.nil_class {c : String} {path : List String} {d x j : String} {p : FMap String String} (h : PathTo s c path [] d x j p) : d = c := by cases h; rfl

/-- C66 is false: if the query asks for a variable of the record class then no reference of a row is ever reassigned.  The call throws `std::out_of_range`, since
the relation of the query field has no indices, unless there is only one candidate. -/
theorem C66_record_false (S : Samples L) (hf : Fine s true) (hmk : make s hash mkC mkE true finalOnly t₀ = .ok (D₀, t₁)) (hcm : Compatible L D₀.H.schema)
    (hi : (∃ y ∈ rows, y.unique = true) → Indexed s finalOnly) (h : Loaded L D₀ rows D) (hm : Inferred D D') {q : String} {qf : QueryField}
    {d x j : String} {p : FMap String String} (hq : s.query.fields.find? q = some qf) (hp : PathTo s s.query.recordClass qf.classPath [] d x j p)
    {f : String} {i : Int} {v : Int} (hv : HasRef D'.ents s.query.recordClass f i v) (t : Tape) :
    D'.transitionReference s.query.recordClass f i t = .ok (D', t) ∨ D'.transitionReference s.query.recordClass f i t = .error .outOfRange := by
  have hmk' := make_spec L hf hmk
  obtain ⟨rfl, rfl, hok, r, hr⟩ := loaded_rank S hf hmk hcm hi h
  have hk := hm.kept hr hok
  obtain ⟨e, he⟩ := hk.ok.typed _ _ _ _ hv
  obtain ⟨cl, hcl⟩ := hmk'.wired.choose_spec.closed _ _ _ (by rw [← h.same.schema]; exact he)
  rw [← h.same.schema] at hcl
  obtain ⟨_, crp, hcrp⟩ := hk.ok.cls _ _ hcl
  have hseat : crp.seating (refId D.hash D.schema.query.recordClass f i) = some v := ((hk.ok.agree _ _ _ _ hcrp).mpr ⟨_, _, _, he, hv, rfl⟩ :)
  obtain ⟨w, hw, _⟩ := CRP.tablesWeightsGibbs_spec (hk.ok.wf _ _ hcrp) hseat
  unfold DB.transitionReference
  have e1 : refTarget D'.schema D.schema.query.recordClass f = .ok e := refTarget_ok.mpr (by rw [hk.same.schema]; exact he)
  have e2 : getRef D'.ents D.schema.query.recordClass f i = .ok v := getRef_ok.mpr hv
  simp only [e1, e2, FMap.atKey_of_find hcrp, hw, bind, Except.bind]
  split
  · exact Or.inl rfl
  · right
    unfold DB.moveRef
    obtain ⟨Ly, b, b1, b2, b3, b4⟩ := hmk'.build
    have hidx := C63_clean_false hf.names hf.query b1 b2 hq hp
    obtain ⟨spec, ds, ha⟩ := hmk'.asks q qf [] d x j p hq hp
    cases h1 : D'.domainInds D.schema.query.recordClass f with
    | error er =>
      have := domainIndsLoop_err h1
      subst this
      rfl
    | ok m =>
      refine absurd h1 (domainIndsLoop_missing (q := q) (spec := spec) ?_ ?_ ?_ ?_)
      · rw [hk.same.rels, h.same.rels]; exact ha.known
      · have hl := List.mem_of_getElem? ha.layout.last
        have hd : d = D.schema.query.recordClass := hp.nil_class
        rw [ha.doms, ← hd]
        simpa using hl
      · rw [hk.same.relIdx, h.same.relIdx, b3]; exact hidx
      · rw [hk.same.schema]; exact FMap.mem_keys.mpr ⟨_, hq⟩

/-! ### examples -/

/-- the reference is reassigned after the rows have been incorporated -/
def reassign (s : PClean.Schema) (clean : Bool) (rows : List (Row Bool)) (c f : String) (i : Int) (t : Tape) : Res (DB bools × Tape) := do
  let (D, _) ← loadAll s clean false 4 rows
  D.transitionReference c f i t

/-- the weights of a customer who sits alone -/
def loneWeights (crp : CRP) (v : Int) : FMap Int ℝ :=
  let w := (crp.tablesWeights.set v (((1 : Nat) : ℝ) - 1)).set v crp.alpha
  match w.maxKey? with
  | some m => w.erase m
  | none => w

/-- whether the reference is the only one to its entity, and there are other candidates -/
def isLone (crp : CRP) (v : Int) : Bool :=
  decide (0 < crp.N) && decide ((crp.tables.find? v).map (fun x => x.size) = some 1) && !decide (v = crp.maxTable + 1) && !decide ((loneWeights crp v).size = 1)

theorem gibbs_lone {crp : CRP} {v : Int} (h : isLone crp v = true) : crp.tablesWeightsGibbs v = .ok (loneWeights crp v) ∧ (loneWeights crp v).size ≠ 1 := by
  unfold isLone at h
  simp only [Bool.and_eq_true, decide_eq_true_eq, Bool.not_eq_true', decide_eq_false_iff_not] at h
  obtain ⟨⟨⟨hN, hs⟩, hm⟩, hw⟩ := h
  refine ⟨?_, hw⟩
  cases hc : crp.tables.find? v with
  | none => rw [hc] at hs; cases hs
  | some x =>
    rw [hc] at hs
    have hx : x.size = 1 := Option.some.inj hs
    have hd : crp.tablesWeights.find? v = some ((1 : Nat) : ℝ) := by
      unfold CRP.tablesWeights
      rw [if_neg (by omega), FMap.find?_set, if_neg hm, FMap.find?_mapVals, hc]
      simp [hx]
    have e1 : crp.tables.contains v = true := FMap.contains_iff.mpr ⟨_, hc⟩
    have e2 := FMap.atKey_of_find hd
    unfold CRP.tablesWeightsGibbs loneWeights
    simp only [e1, e2, hN, assertR, bind, Except.bind, decide_true, if_true, Nat.cast_one, sub_self]
    rfl

def loneCheck (s : PClean.Schema) (clean : Bool) (rows : List (Row Bool)) (c f : String) (i : Int) : Res Bool := do
  let (D, _) ← loadAll s clean false 4 rows
  let d ← refTarget D.schema c f
  let v ← getRef D.ents c f i
  let crp ← D.ents.crps.atKey d
  .ok (isLone crp v)

/-- the reassignment of a reference that is the only one to its entity -/
def reassignLone (s : PClean.Schema) (clean : Bool) (rows : List (Row Bool)) (c f : String) (i : Int) (t : Tape) : Res (DB bools × Tape) := do
  let (D, _) ← loadAll s clean false 4 rows
  let d ← refTarget D.schema c f
  let v ← getRef D.ents c f i
  let crp ← D.ents.crps.atKey d
  D.moveRef c f i d v crp (loneWeights crp v) t

theorem reassign_lone {s : PClean.Schema} {clean : Bool} {rows : List (Row Bool)} {c f : String} {i : Int} (t : Tape) (h : loneCheck s clean rows c f i = .ok true) :
    reassign s clean rows c f i t = reassignLone s clean rows c f i t := by
  unfold loneCheck at h
  obtain ⟨⟨D, t₁⟩, h1, h⟩ := bind_ok.mp h
  dsimp only at h
  obtain ⟨d, h2, h⟩ := bind_ok.mp h
  obtain ⟨v, h3, h⟩ := bind_ok.mp h
  obtain ⟨crp, h4, h⟩ := bind_ok.mp h
  obtain ⟨g1, g2⟩ := gibbs_lone (Except.ok.inj h)
  unfold reassign reassignLone
  simp only [h1, bind, Except.bind, DB.transitionReference, h2, h3, h4, g1, if_neg g2]

set_option maxRecDepth 40000 in
/-- C48 is false, a witness: after two rows with entities of their own, the second row is moved to the practice of the first.  Its old practice is
referenced by nobody but still has its city. -/
theorem C48_witness_false : (loadAll visits false false 4 [bothRow true 8 true false, bothRow true 7 false true]).map (fun x => refsOf x.1) =
      .ok [("City", []), ("Practice", [(("city", 0), 0), (("city", 1), 1)]), ("Record", [(("location", 7), 0), (("location", 8), 1)])] ∧
    (reassign visits false [bothRow true 8 true false, bothRow true 7 false true] "Record" "location" 8 []).map (fun x => refsOf x.1) =
      .ok [("City", []), ("Practice", [(("city", 0), 0), (("city", 1), 1)]), ("Record", [(("location", 7), 0), (("location", 8), 0)])] := by
  refine ⟨rfl, ?_⟩
  rw [reassign_lone _ rfl]
  rfl

/-- what the examples start from -/
theorem visits_rows {x y : Row Bool} {D : DB bools} {t : Tape} {ux uy : Bool} {a b a' b' : Bool} {i j : Int} (hx : x = bothRow ux i a b) (hy : y = bothRow uy j a' b') (hij : j ≠ i)
    (h : loadAll visits false false 4 [x, y] = .ok (D, t)) : ∃ D₀ t₀, start visits false false = .ok (D₀, t₀) ∧ Loaded boolLaws D₀ [x, y] D := by
  subst hx hy
  unfold loadAll at h
  obtain ⟨⟨D₂, t₂⟩, h2, h⟩ := bind_ok.mp h
  unfold loadAll at h2
  obtain ⟨⟨D₁, t₁⟩, h1, h2⟩ := bind_ok.mp h2
  unfold loadAll at h1
  have hs : D₁.schema = visits := (make_spec boolLaws visits_fine h1).schema
  refine ⟨D₁, t₁, h1, ?_⟩
  refine .row (.row .nil (by simp) (both_fits h1 _ _ _ _) ?_ h2) (by simpa [bothRow] using hij) (both_fits h1 _ _ _ _) ?_ h
  · rw [hs]; decide
  · rw [hs]; decide

theorem hasRef_of {D : DB bools} {l : List (String × List ((String × Int) × Int))} (h : refsOf D = l) {c f : String} {i v : Int} :
    HasRef D.ents c f i v ↔ ∃ m, (c, m) ∈ l ∧ ((f, i), v) ∈ m := by
  subst h
  unfold HasRef refsOf
  constructor
  · rintro ⟨m, h1, h2⟩
    exact ⟨m.entries, List.mem_map.mpr ⟨_, FMap.mem_entries.mpr h1, rfl⟩, FMap.mem_entries.mpr h2⟩
  · rintro ⟨m, h1, h2⟩
    obtain ⟨⟨c', m'⟩, h3, h4⟩ := List.mem_map.mp h1
    cases h4
    exact ⟨m', FMap.mem_entries.mp h3, FMap.mem_entries.mp h2⟩

/-- `C65_inferred`, `C65_transition` and `C48_orphans_false` for these rows -/
example : ∃ D₀ t₀ D D' t', start visits false false = .ok (D₀, t₀) ∧ Loaded boolLaws D₀ [bothRow true 8 true false, bothRow true 7 false true] D ∧
    D.transitionReference "Record" "location" 8 [] = .ok (D', t') ∧ HasRef D.ents "Record" "location" 8 1 ∧ HasRef D'.ents "Record" "location" 8 0 ∧
    EntsOk visits code D'.ents ∧ ¬ Referenced visits D'.ents "Practice" 1 ∧ HasRef D'.ents "Practice" "city" 1 1 := by
  obtain ⟨w1, w2⟩ := C48_witness_false
  cases h : loadAll visits false false 4 [bothRow true 8 true false, bothRow true 7 false true] with
  | error e => rw [h] at w1; cases w1
  | ok x =>
    obtain ⟨D, t⟩ := x
    rw [h] at w1
    have w1 := Except.ok.inj w1
    unfold reassign at w2
    rw [h] at w2
    cases h' : D.transitionReference "Record" "location" 8 [] with
    | error e => simp only [bind, Except.bind, h'] at w2; cases w2
    | ok x =>
      obtain ⟨D', t'⟩ := x
      simp only [bind, Except.bind, h'] at w2
      have w2 := Except.ok.inj w2
      obtain ⟨D₀, t₀, hs, hl⟩ := visits_rows rfl rfl (by decide) h
      have k1 := C65_inferred HIRM.samples_bools visits_fine hs (HIRM.compatible_bools _) (fun _ => visits_indexed) hl (.ref .nil h')
      have k2 := C48_orphans_false HIRM.samples_bools visits_fine hs (HIRM.compatible_bools _) (fun _ => visits_indexed) hl .nil h' (v := 1) visits_refers.1
        (by
          intro c f i hr hh
          obtain ⟨m, hm, hv⟩ := (hasRef_of w1).mp hh
          simp only [List.mem_cons, Prod.mk.injEq, List.not_mem_nil, or_false] at hm
          rcases hm with ⟨rfl, rfl⟩ | ⟨rfl, rfl⟩ | ⟨rfl, rfl⟩
          · simp at hv
          · simp only [List.mem_cons, Prod.mk.injEq, List.not_mem_nil, or_false] at hv
            rcases hv with ⟨⟨rfl, rfl⟩, h0⟩ | ⟨⟨rfl, rfl⟩, _⟩
            · cases h0
            · exact absurd (refers_fun hr visits_refers.2) (by decide)
          · simp only [List.mem_cons, Prod.mk.injEq, List.not_mem_nil, or_false] at hv
            rcases hv with ⟨⟨rfl, rfl⟩, h0⟩ | ⟨⟨rfl, rfl⟩, _⟩
            · cases h0
            · exact ⟨rfl, rfl, rfl⟩)
        (by
          intro hh
          obtain ⟨m, hm, hv⟩ := (hasRef_of w2).mp hh
          simp only [List.mem_cons, Prod.mk.injEq, List.not_mem_nil, or_false] at hm
          rcases hm with ⟨h0, _⟩ | ⟨h0, _⟩ | ⟨_, rfl⟩
          · exact absurd h0 (by decide)
          · exact absurd h0 (by decide)
          · simp at hv)
      refine ⟨D₀, t₀, D, D', t', hs, hl, h', ?_, ?_, k1.2.1, k2.1, k2.2 "city" 1 ?_⟩
      · exact (hasRef_of w1).mpr ⟨[(("location", 7), 0), (("location", 8), 1)], by simp, by simp⟩
      · exact (hasRef_of w2).mpr ⟨[(("location", 7), 0), (("location", 8), 0)], by simp, by simp⟩
      · exact (hasRef_of w1).mpr ⟨[(("city", 0), 0), (("city", 1), 1)], by simp, by simp⟩

set_option maxRecDepth 40000 in
/-- C66 is false, a witness: practice 0 is visited by two rows with the same address.  When its city is reassigned, the weights of all candidates are
infinite, and the choice among them is undefined. -/
theorem C66_weights_false : (loadAll visits false false 4 [bothRow true 9 true false, bothRow false 8 true false, bothRow true 7 false true]).map (fun x => refsOf x.1) =
      .ok [("City", []), ("Practice", [(("city", 0), 0), (("city", 1), 1)]), ("Record", [(("location", 7), 0), (("location", 8), 0), (("location", 9), 1)])] ∧
    (reassign visits false [bothRow true 9 true false, bothRow false 8 true false, bothRow true 7 false true] "Practice" "city" 0 []).map (fun x => refsOf x.1) =
      .error .ub := by
  refine ⟨rfl, ?_⟩
  rw [reassign_lone _ rfl]
  rfl

set_option maxRecDepth 40000 in
/-- `C66_record_false` for two rows with different locations -/
example : (reassign practices true [⟨true, 9, rowOf [("Addr", true), ("City", true)]⟩, ⟨true, 7, rowOf [("Addr", true), ("City", true)]⟩] "Record" "location" 9 []).map (fun x => refsOf x.1) =
    .error .outOfRange := by
  rw [reassign_lone _ rfl]
  rfl

/-- People live in cities, which refer to nothing. -/
def people : PClean.Schema :=
  queryOf [mixedClass "City" ["name"] [], mixedClass "Record" ["note"] [("home", "City")]] "Record" [("City", ["home", "name"])]

set_option maxRecDepth 4000 in
theorem people_city : PathTo people "Record" ["home", "name"] [("Record", "home")] "City" "name" "bool" ∅ :=
  .step (refers_refsFrom.mpr (by decide)) (.here ⟨_, _, rfl, rfl, rfl⟩)

set_option maxRecDepth 4000 in
theorem people_field {k : String} {f : QueryField} (hf : people.query.fields.find? k = some f) : k = "City" ∧ f = ⟨"City", ["home", "name"]⟩ := by
  have hm := FMap.mem_entries.mpr hf
  have e : people.query.fields.entries = [("City", ⟨"City", ["home", "name"]⟩)] := rfl
  rw [e] at hm
  simpa only [List.mem_cons, Prod.mk.injEq, List.not_mem_nil, or_false] using hm

set_option maxRecDepth 4000 in
theorem people_fine : Fine people false where
  names := namesOk_of (by decide)
  query := by
    refine ⟨⟨_, rfl⟩, ?_⟩
    intro k f hf
    obtain ⟨rfl, rfl⟩ := people_field hf
    exact ⟨_, _, _, _, _, people_city⟩
  shallow _ _ _ _ h := shallow_of (by decide) h
  mode k f x hf hx := by
    obtain ⟨rfl, rfl⟩ := people_field hf
    simp at hx

theorem people_indexed : Indexed people false := by
  intro q f hops d x j p hq hp h
  obtain ⟨rfl, rfl⟩ := people_field hq
  obtain ⟨rfl, _⟩ := people_city.unique hp
  simp at h

theorem people_flat (c f d g e : String) (h : Refers people c f d) : ¬ Refers people d g e := by
  intro h'
  have h1 := refers_refsFrom.mp h
  have h2 := refers_refsFrom.mp h'
  have h3 : ∀ e ∈ people.classes.entries, ∀ x ∈ refsFrom people e.1, refsFrom people x.2 = [] := by decide
  obtain ⟨cl, hc, _⟩ := h
  have h4 : refsFrom people d = [] := h3 (c, cl) (FMap.mem_entries.mpr hc) (f, d) h1
  simp [h4] at h2

set_option maxRecDepth 40000 in
/-- the second person is moved to the city of the first -/
theorem people_moved : (reassign people false [⟨true, 8, rowOf [("City", true)]⟩, ⟨true, 7, rowOf [("City", true)]⟩] "Record" "home" 8 []).map (fun x => refsOf x.1) =
    .ok [("City", []), ("Record", [(("home", 7), 0), (("home", 8), 0)])] := by
  rw [reassign_lone _ rfl]
  rfl

set_option maxRecDepth 8000 in
theorem people_fits {D₀ : DB bools} {t : Tape} (h : start people false false = .ok (D₀, t)) (a : Bool) : Fits boolLaws D₀ (rowOf [("City", a)]) := by
  refine fits_bools people_fine h ?_
  intro q v hv
  have hv : ((∅ : FMap String Bool).set "City" a).find? q = some v := hv
  rw [FMap.find?_set] at hv
  split at hv
  · next h => subst h; exact ⟨_, rfl⟩
  · simp at hv

/-- `C48_orphans_partial` for these rows, after the move and any number of iterations of inference that return -/
example : ∃ D₀ t₀ D D', start people false false = .ok (D₀, t₀) ∧ Loaded boolLaws D₀ [⟨true, 8, rowOf [("City", true)]⟩, ⟨true, 7, rowOf [("City", true)]⟩] D ∧ Inferred D D' ∧
    HasRef D'.ents "Record" "home" 8 0 ∧ ∀ D'' k n t t', DB.inference k n D' t = .ok (D'', t') → NoOrphans people "Record" D''.ents := by
  have w := people_moved
  unfold reassign at w
  cases h : loadAll people false false 4 [⟨true, 8, rowOf [("City", true)]⟩, ⟨true, 7, rowOf [("City", true)]⟩] with
  | error e => rw [h] at w; cases w
  | ok x =>
    obtain ⟨D, t⟩ := x
    rw [h] at w
    cases h' : D.transitionReference "Record" "home" 8 [] with
    | error e => simp only [bind, Except.bind, h'] at w; cases w
    | ok x =>
      obtain ⟨D', t'⟩ := x
      simp only [bind, Except.bind, h'] at w
      have w := Except.ok.inj w
      unfold loadAll at h
      obtain ⟨⟨D₂, t₂⟩, h2, h⟩ := bind_ok.mp h
      unfold loadAll at h2
      obtain ⟨⟨D₁, t₁⟩, h1, h2⟩ := bind_ok.mp h2
      unfold loadAll at h1
      have hs : D₁.schema = people := (make_spec boolLaws people_fine h1).schema
      have hl : Loaded boolLaws D₁ [⟨true, 8, rowOf [("City", true)]⟩, ⟨true, 7, rowOf [("City", true)]⟩] D :=
        .row (.row .nil (by simp) (people_fits h1 _) (by rw [hs]; decide) h2) (by simp) (people_fits h1 _) (by rw [hs]; decide) h
      refine ⟨D₁, t₁, D, D', h1, hl, .ref .nil h', (hasRef_of w).mpr ⟨[(("home", 7), 0), (("home", 8), 0)], by simp, by simp⟩, ?_⟩
      intro D'' k n t t' hi
      exact C48_orphans_partial HIRM.samples_bools people_fine h1 (HIRM.compatible_bools _) (fun _ => people_indexed) hl (.iter (.ref .nil h') hi) people_flat

end
end GenDB
end Verif
