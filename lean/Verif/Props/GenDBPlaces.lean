import Verif.Spec.GenDBPlaces
import Verif.Props.GenDBMove
import Verif.Props.GenDBHistory
/-!
C84: the attributes of an entity are found at the entities that its references lead to.
-/
namespace Verif
namespace GenDB
open PClean
noncomputable section
variable {V : Type} {F : Family V} {L : FamilyLaws F} {s : PClean.Schema} {hash : String → Int} {mkC : String → FMap String String → Res F.C}
  {mkE : String → FMap String String → Res F.E} {clean finalOnly : Bool} {t₀ t₁ : Tape} {D₀ D : DB F} {rows : List (Row V)}

/-- **C84**, in part: as long as rows are incorporated and no reference is reassigned, each value of an attribute is at the place of its entity. -/
theorem C84_rows_partial (S : Samples L) (hf : Fine s clean) (hmk : make s hash mkC mkE clean finalOnly t₀ = .ok (D₀, t₁)) (hcm : Compatible L D₀.H.schema)
    (hi : (∃ y ∈ rows, y.unique = true) → Indexed s finalOnly) (h : Loaded L D₀ rows D) {c x j : String} {p : FMap String String} (hs : HasScalar s c x j p)
    (hq : s.query.fields.find? (varRel c x) = none) {k : Items} {v : V} (hv : D.H.value (varRel c x) k = some v) : ∃ i, PlaceOf s D.ents c i k := by
  have hm := make_spec L hf hmk
  obtain ⟨H, e, rfl, hI⟩ := h.inv S hm hf hcm hi
  rcases hI.only _ k v hv with ⟨y, _, _, f, _, _, _, _, _, _, u1, _⟩ | ⟨spec, c', l1, l2, l3, l4⟩
  · rw [hm.schema, hq] at u1
    cases u1
  · obtain ⟨Ly, b, h1, h2, h3, h4⟩ := hm.build
    obtain ⟨ds, hk⟩ := kind_var hf h1 h2 hs (spec := spec) (by rw [← h4]; exact l1)
    obtain ⟨_, _, t3, t4⟩ := hk.tree
    rw [l2] at t3
    cases t3
    have hd : spec.doms = ds := by rw [hk.doms]; simp
    rw [hd] at l4 t4
    have hk0 : k ≠ [] := by
      rintro rfl
      exact t4 (List.length_eq_zero_iff.mp l4.1.symm)
    refine ⟨k.getLast hk0, ds, hk.layout, ⟨l4.1, fun i g i' hr => l4.2 i g i' ?_⟩, List.getLast?_eq_some_getLast hk0⟩
    rw [h3]
    exact hk.complete (by rw [hm.schema] at l3; exact l3) i g i' (Or.inl hr)

/-! ### Concrete cases -/

open Latent (bools boolLaws)

/-- Practices have an address and a phone number; the query does not ask for the phone number. -/
def phones : PClean.Schema :=
  queryOf [mixedClass "City" ["name"] [], mixedClass "Practice" ["addr", "phone"] [("city", "City")], mixedClass "Record" ["note"] [("location", "Practice")]] "Record"
    [("Addr", ["location", "addr"]), ("City", ["location", "city", "name"])]

set_option maxRecDepth 4000 in
theorem phones_refers : Refers phones "Record" "location" "Practice" ∧ Refers phones "Practice" "city" "City" :=
  ⟨refers_refsFrom.mpr (by decide), refers_refsFrom.mpr (by decide)⟩

set_option maxRecDepth 4000 in
theorem phones_addr : PathTo phones "Record" ["location", "addr"] [("Record", "location")] "Practice" "addr" "bool" ∅ :=
  .step phones_refers.1 (.here ⟨_, _, rfl, rfl, rfl⟩)

set_option maxRecDepth 4000 in
theorem phones_city : PathTo phones "Record" ["location", "city", "name"] [("Record", "location"), ("Practice", "city")] "City" "name" "bool" ∅ :=
  .step phones_refers.1 (.step phones_refers.2 (.here ⟨_, _, rfl, rfl, rfl⟩))

set_option maxRecDepth 4000 in
theorem phones_field {k : String} {f : QueryField} (hf : phones.query.fields.find? k = some f) :
    (k = "Addr" ∧ f = ⟨"Addr", ["location", "addr"]⟩) ∨ k = "City" ∧ f = ⟨"City", ["location", "city", "name"]⟩ := by
  have hm := FMap.mem_entries.mpr hf
  have e : phones.query.fields.entries = [("Addr", ⟨"Addr", ["location", "addr"]⟩), ("City", ⟨"City", ["location", "city", "name"]⟩)] := rfl
  rw [e] at hm
  simpa only [List.mem_cons, Prod.mk.injEq, List.not_mem_nil, or_false] using hm

set_option maxRecDepth 8000 in
theorem phones_fine : Fine phones false where
  names := namesOk_of (by decide)
  query := by
    refine ⟨⟨_, rfl⟩, ?_⟩
    intro k f hf
    rcases phones_field hf with ⟨rfl, rfl⟩ | ⟨rfl, rfl⟩
    · exact ⟨_, _, _, _, _, phones_addr⟩
    · exact ⟨_, _, _, _, _, phones_city⟩
  shallow _ _ _ _ h := shallow_of (by decide) h
  mode k f x hf hx := by
    rcases phones_field hf with ⟨rfl, rfl⟩ | ⟨rfl, rfl⟩ <;> simp at hx

theorem phones_indexed : Indexed phones false := by
  intro q f hops d x j p hq hp h
  rcases phones_field hq with ⟨rfl, rfl⟩ | ⟨rfl, rfl⟩
  · obtain ⟨rfl, _⟩ := phones_addr.unique hp
    simp at h
  · obtain ⟨rfl, _⟩ := phones_city.unique hp
    simp at h

/-- the tuples that have a value -/
def keysOf (D : DB bools) (n : String) : List Items := ((D.H.dataOf n).map (·.keys)).getD []

set_option maxRecDepth 40000 in
theorem phones_witness : (loadAll phones false false 4 [bothRow true 8 true false, bothRow true 7 false true]).map (fun x => (refsOf x.1, keysOf x.1 "Practice:phone")) =
      .ok ([("City", []), ("Practice", [(("city", 0), 0), (("city", 1), 1)]), ("Record", [(("location", 7), 0), (("location", 8), 1)])], [[0, 0], [1, 1]]) ∧
    (reassign phones false [bothRow true 8 true false, bothRow true 7 false true] "Practice" "city" 1 []).map (fun x => (refsOf x.1, keysOf x.1 "Practice:phone")) =
      .ok ([("City", []), ("Practice", [(("city", 0), 0), (("city", 1), 0)]), ("Record", [(("location", 7), 0), (("location", 8), 1)])], [[0, 0], [1, 1]]) := by
  refine ⟨rfl, ?_⟩
  rw [reassign_lone _ rfl]
  rfl

set_option maxRecDepth 8000 in
theorem phones_fits {D₀ : DB bools} {t : Tape} (h : start phones false false = .ok (D₀, t)) (unique : Bool) (id : Int) (a b : Bool) :
    Fits boolLaws D₀ (bothRow unique id a b).vals := by
  refine fits_bools phones_fine h ?_
  intro q v hv
  have hv : (((∅ : FMap String Bool).set "Addr" a).set "City" b).find? q = some v := hv
  rw [FMap.find?_set, FMap.find?_set] at hv
  split at hv
  · next h => subst h; exact ⟨_, rfl⟩
  · split at hv
    · next h => subst h; exact ⟨_, rfl⟩
    · simp at hv

theorem phones_rows {x y : Row Bool} {D : DB bools} {t : Tape} {ux uy : Bool} {a b a' b' : Bool} {i j : Int} (hx : x = bothRow ux i a b) (hy : y = bothRow uy j a' b') (hij : j ≠ i)
    (h : loadAll phones false false 4 [x, y] = .ok (D, t)) : ∃ D₀ t₀, start phones false false = .ok (D₀, t₀) ∧ Loaded boolLaws D₀ [x, y] D := by
  subst hx hy
  unfold loadAll at h
  obtain ⟨⟨D₂, t₂⟩, h2, h⟩ := bind_ok.mp h
  unfold loadAll at h2
  obtain ⟨⟨D₁, t₁⟩, h1, h2⟩ := bind_ok.mp h2
  unfold loadAll at h1
  have hs : D₁.schema = phones := (make_spec boolLaws phones_fine h1).schema
  refine ⟨D₁, t₁, h1, ?_⟩
  refine .row (.row .nil (by simp) (phones_fits h1 _ _ _ _) ?_ h2) (by simpa [bothRow] using hij) (phones_fits h1 _ _ _ _) ?_ h
  · rw [hs]; decide
  · rw [hs]; decide

theorem value_of_keys {D : DB bools} {n : String} {k : Items} (h : k ∈ keysOf D n) : ∃ v, D.H.value n k = some v := by
  unfold keysOf at h
  unfold HIRM.value
  cases hd : D.H.dataOf n with
  | none => rw [hd] at h; simp at h
  | some m =>
    rw [hd] at h
    exact FMap.mem_keys.mp h

set_option maxRecDepth 4000 in
/-- In the tuple of a practice, the practice refers to the city. -/
theorem phones_place {e : Ents} {i : Int} {k : Items} (h : PlaceOf phones e "Practice" i k) : ∃ a b, k[1]? = some a ∧ k[0]? = some b ∧ HasRef e "Practice" "city" a b := by
  obtain ⟨ds, hl, ⟨h1, h2⟩, _⟩ := h
  obtain ⟨c, a, b, h3, h4, h5, h6⟩ := h2 1 "city" 0 (RefAt.own (c := "Practice") (pre := []) (f := "city") (d := "City") (post := []) (ds₁ := []) (ds₂ := ["City"]) (ds₃ := [])
    rfl rfl .nil (Layout.mk (ds := []) rfl .nil) .nil)
  have : ds = ["City", "Practice"] := layout_unique hl (Layout.mk (ds := ["City"]) (cl := _) rfl (Sublayouts.cons (ds := ["City"]) (ds' := []) (Layout.mk (ds := []) rfl .nil) .nil))
  subst this
  cases h3
  exact ⟨a, b, h4, h5, h6⟩

/-- **C84** is false once references are reassigned: the query does not ask for the phone numbers of practices.  After two rows, practice 1 is in city 1, and its phone
number is at its place.  The city of practice 1 becomes city 0, but its phone number stays at city 1, to which nothing refers any more. -/
theorem C84_moved_false : ∃ (D₀ D D' : DB bools) (t₀ t' : Tape) (rows : List (Row Bool)) (v : Bool), start phones false false = .ok (D₀, t₀) ∧ Loaded boolLaws D₀ rows D ∧
    (∃ i, PlaceOf phones D.ents "Practice" i [1, 1]) ∧ D.transitionReference "Practice" "city" 1 [] = .ok (D', t') ∧ HasRef D'.ents "Practice" "city" 1 0 ∧
    D'.H.value (varRel "Practice" "phone") [1, 1] = some v ∧ (∀ i, ¬ PlaceOf phones D'.ents "Practice" i [1, 1]) ∧ ¬ Referenced phones D'.ents "City" 1 := by
  obtain ⟨w1, w2⟩ := phones_witness
  cases h : loadAll phones false false 4 [bothRow true 8 true false, bothRow true 7 false true] with
  | error e => rw [h] at w1; cases w1
  | ok x =>
    obtain ⟨D, t⟩ := x
    rw [h] at w1
    have w1 := Except.ok.inj w1
    unfold reassign at w2
    rw [h] at w2
    cases h' : D.transitionReference "Practice" "city" 1 [] with
    | error e => simp only [bind, Except.bind, h'] at w2; cases w2
    | ok x =>
      obtain ⟨D', t'⟩ := x
      simp only [bind, Except.bind, h'] at w2
      have w2 := Except.ok.inj w2
      simp only [Prod.mk.injEq] at w1 w2
      obtain ⟨D₀, t₀, hs, hl⟩ := phones_rows rfl rfl (by decide) h
      obtain ⟨v, hv⟩ := value_of_keys (D := D) (n := varRel "Practice" "phone") (k := [1, 1]) (by rw [show keysOf D (varRel "Practice" "phone") = _ from w1.2]; simp)
      obtain ⟨v', hv'⟩ := value_of_keys (D := D') (n := varRel "Practice" "phone") (k := [1, 1]) (by rw [show keysOf D' (varRel "Practice" "phone") = _ from w2.2]; simp)
      have href : ∀ v, HasRef D'.ents "Practice" "city" 1 v → v = 0 := by
        intro v hh
        obtain ⟨m, hm, hv⟩ := (hasRef_of w2.1).mp hh
        simp only [List.mem_cons, Prod.mk.injEq, List.not_mem_nil, or_false] at hm
        rcases hm with ⟨h0, _⟩ | ⟨_, rfl⟩ | ⟨h0, _⟩
        · exact absurd h0 (by decide)
        · simpa using hv
        · exact absurd h0 (by decide)
      refine ⟨D₀, D, D', t₀, t', _, v', hs, hl, ?_, h', (hasRef_of w2.1).mpr ⟨[(("city", 0), 0), (("city", 1), 0)], by simp, by simp⟩, hv', ?_, ?_⟩
      · refine C84_rows_partial HIRM.samples_bools phones_fine hs (HIRM.compatible_bools _) (fun _ => phones_indexed) hl (c := "Practice") (x := "phone") ⟨_, _, rfl, rfl, rfl⟩ rfl hv
      · intro i hp
        obtain ⟨a, b, h1, h2, h3⟩ := phones_place hp
        cases h1
        cases h2
        exact absurd (href _ h3) (by decide)
      · rintro ⟨c, f, i, hr, hh⟩
        obtain ⟨m, hm, hv⟩ := (hasRef_of w2.1).mp hh
        simp only [List.mem_cons, Prod.mk.injEq, List.not_mem_nil, or_false] at hm
        rcases hm with ⟨rfl, rfl⟩ | ⟨rfl, rfl⟩ | ⟨rfl, rfl⟩
        · simp at hv
        · simp at hv
        · simp only [List.mem_cons, Prod.mk.injEq, List.not_mem_nil, or_false] at hv
          rcases hv with ⟨⟨rfl, rfl⟩, h0⟩ | ⟨⟨rfl, rfl⟩, _⟩
          · cases h0
          · exact absurd (refers_fun hr phones_refers.1) (by decide)

end
end GenDB
end Verif
