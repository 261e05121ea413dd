import Verif.Spec.GenDBHistory
import Verif.Props.GenDBData
/-!
C65, C69 for histories in which rows and inference come in any order, with any distributions and emissions.
-/
namespace Verif
namespace GenDB
open PClean
noncomputable section
open Latent (bools boolLaws)
variable {V : Type} {F : Family V} {s : PClean.Schema} {hash : String → Int} {mkC : String → FMap String String → Res F.C}
  {mkE : String → FMap String String → Res F.E} {clean finalOnly : Bool} {t₀ t₁ : Tape} {D₀ : DB F} {rows : List (Row V)} {D D' : DB F}

/-- the values of the rows -/
def ValueOf (rows : List (Row V)) (q : String) (id : Int) (v : V) : Prop := ∃ x ∈ rows, x.id = id ∧ x.vals.find? q = some v

/-- no two rows with the same number have a value for the same query field -/
def Apart (rows : List (Row V)) : Prop := rows.Pairwise fun x y => x.id = y.id → ∀ q v w, x.vals.find? q = some v → y.vals.find? q ≠ some w

theorem Worked.stays {r : String → Nat} (hm : Laid s hash mkC mkE clean finalOnly D₀) (hf : Fine s clean) (hi : Indexed s finalOnly) (hr : Ready D₀ r)
    (hw : Wired D₀.schema D₀.relIdx D₀.classRels D₀.H.schema D₀.schema.query.recordClass r) (h : Worked D₀ rows D) :
    Same D₀ D ∧ Stays (ValueOf rows) r D ∧ Apart rows := by
  induction h with
  | nil =>
    refine ⟨.refl _, ⟨hr, hm.ents, fun c f i v h => absurd h (hm.noRef c f i v), hm.tidy, rfl, ?_, ?_⟩, List.Pairwise.nil⟩
    · rintro q _ id v ⟨x, hx, _⟩
      cases hx
    · intro q _ k v
      rw [hm.none]
      refine ⟨fun h => (by cases h), ?_⟩
      rintro ⟨id, ⟨x, hx, _⟩, _⟩
      cases hx
  | @row rows D D' n t t' x _ hx h ih =>
    obtain ⟨hs, hst, hap⟩ := ih
    have hmem : ∀ q v, (q, v) ∈ x.vals.entries ↔ x.vals.find? q = some v := fun q v => FMap.mem_entries
    have hq : ∀ q v, (q, v) ∈ x.vals.entries → Queried D₀ q := fun q v hv => hx q v ((hmem q v).mp hv)
    have hback : Same D D₀ := ⟨hs.schema.symm, hs.hash.symm, hs.relIdx.symm, hs.classRels.symm, hs.rels.symm⟩
    have ht := incorporateLoop_taken hm hf hi hr hw hs (by rw [← hs.schema, ← hs.hash]; exact hst.ok) (by rw [← hs.schema]; exact hst.under) (hst.held.same hback) hq h
    refine ⟨ht.same, ⟨hr.same ht.same, by rw [ht.same.schema, ht.same.hash]; exact ht.ok, ?_, ?_⟩, ?_⟩
    · intro c f i v hv
      rw [ht.same.schema]
      exact ht.under c f i v hv
    · refine (ht.held.congr fun q id v => ?_).same ht.same
      constructor
      · rintro (⟨y, hy, h1, h2⟩ | ⟨rfl, h⟩)
        · exact ⟨y, List.mem_cons_of_mem _ hy, h1, h2⟩
        · exact ⟨x, List.mem_cons_self .., rfl, (hmem q v).mp h⟩
      · rintro ⟨y, hy, h1, h2⟩
        rcases List.mem_cons.mp hy with rfl | hy
        · exact Or.inr ⟨h1.symm, (hmem q v).mpr h2⟩
        · exact Or.inl ⟨y, hy, h1, h2⟩
    · refine List.Pairwise.cons ?_ hap
      intro y hy hid q v w h1 h2
      exact ht.new q v ((hmem q v).mpr h1) w ⟨y, hy, hid.symm, h2⟩
  | ref _ h ih =>
    obtain ⟨hs, hst, hap⟩ := ih
    exact ⟨hs.trans (transitionReference_moved hst.ready.rank hst.ok h).same, transitionReference_stays hst h, hap⟩
  | cls _ h ih =>
    obtain ⟨hs, hst, hap⟩ := ih
    exact ⟨hs.trans (transitionClass_kept _ _ _ _ _ hst.ready.rank hst.ok h).same, transitionClass_stays _ _ _ _ _ hst h, hap⟩
  | iter _ h ih =>
    obtain ⟨hs, hst, hap⟩ := ih
    exact ⟨hs.trans (inference_kept hst.ready.rank hst.ok h).same, inference_stays hst h, hap⟩
  | rels _ h ih =>
    obtain ⟨hs, hst, hap⟩ := ih
    exact ⟨hs.trans (OnlyH.of (HIRM.inference_schema h)).same, hirm_stays hst h, hap⟩

/-- C69: whatever calls of `incorporate`, of the transitions of references and of inference returned, in whatever order and with whatever distributions and
emissions, the values of the relation of a query field are exactly those of the rows, each at the tuple that the references of its row now lead to; and no query
field of a row got two values. -/
theorem C69_history (hf : Fine s clean) (hi : Indexed s finalOnly) (hmk : make s hash mkC mkE clean finalOnly t₀ = .ok (D₀, t₁)) (h : Worked D₀ rows D) :
    (∀ q f, s.query.fields.find? q = some f →
      (∀ x ∈ rows, ∀ v, x.vals.find? q = some v → ∃ k, TupleOf s D.ents q x.id k ∧ D.H.value q k = some v) ∧
      ∀ k v, D.H.value q k = some v → ∃ x ∈ rows, x.vals.find? q = some v ∧ TupleOf s D.ents q x.id k) ∧
    rows.Pairwise fun x y => x.id = y.id → ∀ q v w, x.vals.find? q = some v → y.vals.find? q ≠ some w := by
  have hm := make_laid hf hmk
  obtain ⟨r, hr, hw⟩ := hm.ready hf hi
  obtain ⟨hs, hst, hap⟩ := h.stays hm hf hi hr hw
  refine ⟨fun q f hq => ?_, hap⟩
  have hq0 : Queried D₀ q := ⟨f, by rw [hm.schema]; exact hq⟩
  have hqd : Queried D q := by rw [hs.queried]; exact hq0
  have hrow : ∀ e id k, RowOf D e q id k ↔ TupleOf s e q id k := fun e id k => by
    obtain ⟨_, _, _, _, _, _, h⟩ := hm.rowOf hf hi hq0
    exact (RowOf.same hs).trans (h e id k)
  constructor
  · intro x hx v hv
    obtain ⟨k, hk⟩ := hst.held.rows q hqd x.id v ⟨x, hx, rfl, hv⟩
    exact ⟨k, (hrow _ _ _).mp hk, (hst.held.vals q hqd k v).mpr ⟨x.id, ⟨x, hx, rfl, hv⟩, hk⟩⟩
  · intro k v hv
    obtain ⟨id, ⟨x, hx, rfl, h1⟩, h2⟩ := (hst.held.vals q hqd k v).mp hv
    exact ⟨x, hx, h1, (hrow _ _ _).mp h2⟩

/-- C65: after such a history the entity CRPs hold exactly the references that are stored, and what a further call of `transition_reference` does to the
references is as `C65_transition` says. -/
theorem C65_history (hf : Fine s clean) (hi : Indexed s finalOnly) (hmk : make s hash mkC mkE clean finalOnly t₀ = .ok (D₀, t₁)) (h : Worked D₀ rows D) :
    D.schema = s ∧ EntsOk s hash D.ents ∧
    ∀ c f i t D' t', D.transitionReference c f i t = .ok (D', t') →
      (∀ c' f' i' v, ¬ (c' = c ∧ f' = f ∧ i' = i) → HasRef D.ents c' f' i' v → HasRef D'.ents c' f' i' v) ∧
      (∃ d v v', Refers s c f d ∧ HasRef D.ents c f i v ∧ HasRef D'.ents c f i v' ∧
        (v' = v ∨ (∃ c' f' i', ¬ (c' = c ∧ f' = f ∧ i' = i) ∧ Refers s c' f' d ∧ HasRef D.ents c' f' i' v') ∨ ¬ Referenced s D.ents d v')) ∧
      ∀ c' f' i' v, ¬ (c' = c ∧ f' = f ∧ i' = i) → HasRef D'.ents c' f' i' v → HasRef D.ents c' f' i' v ∨
        ∃ d j, Refers s c f d ∧ ¬ Referenced s D.ents d j ∧ Uses s D'.ents d j c' i' := by
  have hm := make_laid hf hmk
  obtain ⟨r, hr, hw⟩ := hm.ready hf hi
  obtain ⟨hs, hst, hap⟩ := h.stays hm hf hi hr hw
  have hsc : D.schema = s := hs.schema.trans hm.schema
  refine ⟨hsc, ?_, fun c f i t D' t' ht => ?_⟩
  · have := hst.ok
    rw [hsc, hs.hash, hm.hash_eq] at this
    exact this
  · have hmv := transitionReference_moved hst.ready.rank hst.ok ht
    have h1 := hmv.value
    have h2 := hmv.news
    rw [hsc] at h1 h2
    exact ⟨hmv.keeps, h1, h2⟩

/-- `C69_history` and `C65_history` for people: after one person has been moved to the city of another, a further person is incorporated. -/
example : ∃ D₀ t₀ D, start people false false = .ok (D₀, t₀) ∧ Worked D₀ [⟨true, 8, rowOf [("City", true)]⟩, ⟨true, 7, rowOf [("City", true)]⟩] D ∧
    HasRef D.ents "Record" "home" 8 0 ∧
    ∀ n x v t D' t', x ∉ [7, 8] → D.incorporate n true x (rowOf [("City", v)]) t = .ok (D', t') → ∃ k, TupleOf people D'.ents "City" 8 k ∧ D'.H.value "City" k = some true := by
  have w := people_moved
  unfold reassign at w
  cases h : loadAll people false false 4 [⟨true, 8, rowOf [("City", true)]⟩, ⟨true, 7, rowOf [("City", true)]⟩] with
  | error e => rw [h] at w; cases w
  | ok x =>
    obtain ⟨D, t⟩ := x
    rw [h] at w
    cases h' : D.transitionReference "Record" "home" 8 [] with
    | error e => simp only [bind, Except.bind, h'] at w; cases w
    | ok x =>
      obtain ⟨D', t'⟩ := x
      simp only [bind, Except.bind, h'] at w
      have w := Except.ok.inj w
      unfold loadAll at h
      obtain ⟨⟨D₂, t₂⟩, h2, h⟩ := bind_ok.mp h
      unfold loadAll at h2
      obtain ⟨⟨D₁, t₁⟩, h1, h2⟩ := bind_ok.mp h2
      unfold loadAll at h1
      have hs : D₁.schema = people := (make_spec boolLaws people_fine h1).schema
      have hfit : ∀ v q u, (rowOf [("City", v)]).find? q = some u → ∃ f, D₁.schema.query.fields.find? q = some f := fun v q u hu => by
        obtain ⟨f, _, hf, _⟩ := people_fits h1 v q u hu
        exact ⟨f, hf⟩
      have hl : Worked D₁ [⟨true, 8, rowOf [("City", true)]⟩, ⟨true, 7, rowOf [("City", true)]⟩] D' := .ref (.row (.row .nil (hfit _) h2) (hfit _) h) h'
      refine ⟨D₁, t₁, D', h1, hl, (hasRef_of w).mpr ⟨[(("home", 7), 0), (("home", 8), 0)], by simp, by simp⟩, ?_⟩
      intro n x v t D'' t'' _ hinc
      exact ((C69_history people_fine people_indexed h1 (.row (x := ⟨true, x, rowOf [("City", v)]⟩) hl (hfit _) hinc)).1 "City" _ rfl).1 _
        (List.mem_cons_of_mem _ (List.mem_cons_self ..)) true (FMap.find?_set_self (∅ : FMap String Bool) "City" true)

end
end GenDB
end Verif
