import Verif.Lemmas.GenDBHistory
import Verif.Props.GenDBMove
/-!
C69: the data of a `GenDB` under inference.
-/
namespace Verif
namespace GenDB
open PClean
noncomputable section
open Latent (bools boolLaws)
variable {V : Type} {F : Family V} {L : FamilyLaws F} {s : PClean.Schema} {hash : String → Int} {mkC : String → FMap String String → Res F.C}
  {mkE : String → FMap String String → Res F.E} {clean finalOnly : Bool} {t₀ t₁ : Tape} {D₀ : DB F} {rows : List (Row V)} {D D' : DB F}

theorem Inferred.stays {R : String → Int → V → Prop} {r : String → Nat} (hs : Stays R r D) (h : Inferred D D') : Stays R r D' := by
  induction h with
  | nil => exact hs
  | ref _ h ih => exact transitionReference_stays ih h
  | cls _ h ih => exact transitionClass_stays _ _ _ _ _ ih h
  | iter _ h ih => exact inference_stays ih h
  | rels _ h ih => exact hirm_stays ih h

/-- after rows have been incorporated their values are at their tuples -/
theorem loaded_stays (S : Samples L) (hf : Fine s clean) (hmk : make s hash mkC mkE clean finalOnly t₀ = .ok (D₀, t₁)) (hcm : Compatible L D₀.H.schema)
    (hi : Indexed s finalOnly) (h : Loaded L D₀ rows D) : ∃ r, Stays (fun q id v => ∃ x ∈ rows, x.id = id ∧ x.vals.find? q = some v) r D := by
  have hmade := make_spec L hf hmk
  obtain ⟨r, hready, hw⟩ := hmade.ready hf hi
  have hsame := h.same
  have hrow : ∀ p, Queried D₀ p → ∀ e id k, RowOf D₀ e p id k ↔ TupleOf s e p id k := fun p hp => by
    obtain ⟨_, _, _, _, _, _, h⟩ := hmade.rowOf hf hi hp
    exact h
  have hready' := hready.same hsame
  refine ⟨r, ?_⟩
  refine ⟨hready', (loaded_rank S hf hmk hcm (fun _ => hi) h).2.2.1, ?_, ?_⟩
  · refine under_of hready'.rank (B := depth D₀.schema) hw.bound ?_
    rw [hsame.schema, hmade.schema]
    exact (C64_entities S hf hmk hcm (fun _ => hi) h).2.1
  · refine Held.same hsame ⟨?_, hsame.rels, ?_, ?_⟩
    · obtain ⟨H, e, rfl, hI⟩ := h.inv S hmade hf hcm (fun _ => hi)
      exact hI.st.reach.good.tidy
    · rintro p hp id v ⟨x, hx, rfl, hv⟩
      have hp' := hp
      obtain ⟨g, hg⟩ := hp'
      rw [hmade.schema] at hg
      obtain ⟨k, hk, _⟩ := (C64_rows S hf hmk hcm (fun _ => hi) h hg).1 x hx v hv
      exact ⟨k, (hrow p hp _ _ _).mpr hk⟩
    · intro p hp k v
      have hp' := hp
      obtain ⟨g, hg⟩ := hp'
      rw [hmade.schema] at hg
      have hc := C64_rows S hf hmk hcm (fun _ => hi) h hg
      constructor
      · intro hv
        obtain ⟨x, hx, h1, h2⟩ := hc.2 k v hv
        exact ⟨x.id, ⟨x, hx, rfl, h1⟩, (hrow p hp _ _ _).mpr h2⟩
      · rintro ⟨id, ⟨x, hx, rfl, hv⟩, hk⟩
        obtain ⟨k', hk', hv'⟩ := hc.1 x hx v hv
        have := RowOf.unique hready hp ((hrow p hp _ _ _).mpr hk') hk
        subst this
        exact hv'

/-- C69: inference does not lose, change, swap or invent data.  After any number of iterations of inference the values of the relation of a query field are
still exactly those of the rows, each at the tuple that the references of its row now lead to. -/
theorem C69_data (S : Samples L) (hf : Fine s clean) (hmk : make s hash mkC mkE clean finalOnly t₀ = .ok (D₀, t₁)) (hcm : Compatible L D₀.H.schema)
    (hi : Indexed s finalOnly) (h : Loaded L D₀ rows D) (hm : Inferred D D') {q : String} {f : QueryField} (hq : s.query.fields.find? q = some f) :
    (∀ x ∈ rows, ∀ v, x.vals.find? q = some v → ∃ k, TupleOf s D'.ents q x.id k ∧ D'.H.value q k = some v) ∧
    ∀ k v, D'.H.value q k = some v → ∃ x ∈ rows, x.vals.find? q = some v ∧ TupleOf s D'.ents q x.id k := by
  have hmade := make_spec L hf hmk
  have hsame := h.same
  have hrow : ∀ p, Queried D₀ p → ∀ e id k, RowOf D₀ e p id k ↔ TupleOf s e p id k := fun p hp => by
    obtain ⟨_, _, _, _, _, _, h⟩ := hmade.rowOf hf hi hp
    exact h
  obtain ⟨r, hstay⟩ := loaded_stays S hf hmk hcm hi h
  have hend := hm.stays hstay
  obtain ⟨q₀, rfl⟩ : ∃ q₀, q₀ = q := ⟨q, rfl⟩
  have hs' : Same D₀ D' := hsame.trans (hm.kept hstay.ready.rank (loaded_rank S hf hmk hcm (fun _ => hi) h).2.2.1).same
  have hq0 : Queried D₀ q₀ := ⟨f, by rw [hmade.schema]; exact hq⟩
  have hqd : Queried D' q₀ := by rw [hs'.queried]; exact hq0
  have hrow' : ∀ e id k, RowOf D' e q₀ id k ↔ TupleOf s e q₀ id k := fun e id k => (RowOf.same hs').trans (hrow q₀ hq0 e id k)
  constructor
  · intro x hx v hv
    obtain ⟨k, hk⟩ := hend.held.rows q₀ hqd x.id v ⟨x, hx, rfl, hv⟩
    exact ⟨k, (hrow' _ _ _).mp hk, (hend.held.vals q₀ hqd k v).mpr ⟨x.id, ⟨x, hx, rfl, hv⟩, hk⟩⟩
  · intro k v hv
    obtain ⟨id, ⟨x, hx, rfl, h1⟩, h2⟩ := (hend.held.vals q₀ hqd k v).mp hv
    exact ⟨x, hx, h1, (hrow' _ _ _).mp h2⟩

/-- `C69_data` for two people, after one has been moved to the city of the other and any number of iterations of inference that return -/
example : ∃ D₀ t₀ D D', start people false false = .ok (D₀, t₀) ∧ Loaded boolLaws D₀ [⟨true, 8, rowOf [("City", true)]⟩, ⟨true, 7, rowOf [("City", true)]⟩] D ∧ Inferred D D' ∧
    HasRef D'.ents "Record" "home" 8 0 ∧ ∀ D'' k n t t', DB.inference k n D' t = .ok (D'', t') → ∃ k, TupleOf people D''.ents "City" 8 k ∧ D''.H.value "City" k = some true := by
  have w := people_moved
  unfold reassign at w
  cases h : loadAll people false false 4 [⟨true, 8, rowOf [("City", true)]⟩, ⟨true, 7, rowOf [("City", true)]⟩] with
  | error e => rw [h] at w; cases w
  | ok x =>
    obtain ⟨D, t⟩ := x
    rw [h] at w
    cases h' : D.transitionReference "Record" "home" 8 [] with
    | error e => simp only [bind, Except.bind, h'] at w; cases w
    | ok x =>
      obtain ⟨D', t'⟩ := x
      simp only [bind, Except.bind, h'] at w
      have w := Except.ok.inj w
      unfold loadAll at h
      obtain ⟨⟨D₂, t₂⟩, h2, h⟩ := bind_ok.mp h
      unfold loadAll at h2
      obtain ⟨⟨D₁, t₁⟩, h1, h2⟩ := bind_ok.mp h2
      unfold loadAll at h1
      have hs : D₁.schema = people := (make_spec boolLaws people_fine h1).schema
      have hl : Loaded boolLaws D₁ [⟨true, 8, rowOf [("City", true)]⟩, ⟨true, 7, rowOf [("City", true)]⟩] D :=
        .row (.row .nil (by simp) (people_fits h1 _) (by rw [hs]; decide) h2) (by simp) (people_fits h1 _) (by rw [hs]; decide) h
      refine ⟨D₁, t₁, D, D', h1, hl, .ref .nil h', (hasRef_of w).mpr ⟨[(("home", 7), 0), (("home", 8), 0)], by simp, by simp⟩, ?_⟩
      intro D'' k n t t' hinf
      exact (C69_data HIRM.samples_bools people_fine h1 (HIRM.compatible_bools _) people_indexed hl (.iter (.ref .nil h') hinf) (q := "City") rfl).1 _
        (List.mem_cons_self ..) true (FMap.find?_set_self (∅ : FMap String Bool) "City" true)

end
end GenDB
end Verif
