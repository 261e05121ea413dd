import Verif.Lemmas.Sampling
import Verif.Props.HIRMMoves
/-!
Sampling observations from an HIRM: C52.
-/
namespace Verif
namespace HIRM
open Spec
noncomputable section
variable {V : Type} {F : Family V} {L : FamilyLaws F}

/-- C52: sampling `n` observations per leaf relation never fails, whatever the draws, in any state that the API reaches.  When it
stops (`none` says that a loop is still running after `fuel` rounds), the model is sound, every old observation is kept, each leaf relation has
gained exactly the `n` distinct new observations that are returned for it, and the other relations have gained only the base values of
new observations. -/
theorem C52_sample (S : Samples L) {H : HIRM F} (h : Reach L H) (hcm : Compatible L H.schema) (n fuel : Nat) (t : Tape) :
    ∃ res, H.sampleAndIncorporate n fuel t = .ok res ∧ ∀ s t', res = some (s, t') → Reach L s.H ∧ Sound L s.H ∧
      Sampled H s.H (fun r => (s.obs.find? r).getD []) ∧
      ∀ r spec, H.schema.find? r = some spec →
        (Leaf H.schema r → ((s.obs.find? r).getD []).length = n) ∧ (¬ Leaf H.schema r → (s.obs.find? r).getD [] = []) := by
  obtain ⟨m, n', h1, h2⟩ := seatIrms_ok H.irms.vals (fun _ => 0) ∅ seats_empty
  obtain ⟨res, h3, h4⟩ := sampleLeaves_ok S hcm n fuel H.schema.entries (fun e he => FMap.mem_entries.mp he)
    (FMap.nodupKeys _) { H := H, crps := m } t ⟨h, ⟨n', h2⟩, Sampled.refl H⟩ (fun e _ => FMap.find?_empty _)
  refine ⟨res, by simp only [sampleAndIncorporate, bind, Except.bind, h1, h3], fun s t' he => ?_⟩
  obtain ⟨a1, a2, a3⟩ := h4 s t' he
  refine ⟨a1.reach, C61_sound a1.reach, a1.sampled, fun r spec hs => ?_⟩
  have hb := h.good.base_contains r
  have hl := a2 (r, spec) (FMap.mem_entries.mpr hs)
  dsimp only at hl
  constructor
  · intro hlf
    rw [hb.mpr hlf] at hl
    simpa using hl
  · intro hlf
    have : H.baseToNoisy.contains r = true := by
      cases hc : H.baseToNoisy.contains r with
      | true => rfl
      | false => exact absurd (hb.mp hc) hlf
    rw [this, if_pos rfl] at hl
    exact List.eq_nil_of_length_eq_zero hl

/-- C52: sampling the value of one new tuple of a relation never fails; the value is stored, nothing else of the relation changes, and
the only other new observations are base values that some new observation needs. -/
theorem C52_sample_relation (S : Samples L) {H : HIRM F} (h : Reach L H) (hcm : Compatible L H.schema) {r : String} {spec : RelSpec F}
    (hs : H.schema.find? r = some spec) {items : Items} (hl : items.length = spec.doms.length) (hn : H.value r items = none) (t : Tape) :
    ∃ v H' t', sampleRelation (H.schema.size + 1) H r items t = .ok (v, H', t') ∧ Reach L H' ∧ Sound L H' ∧ H'.schema = H.schema ∧
      H'.value r items = some v ∧ (∀ n k v, H.value n k = some v → H'.value n k = some v) ∧
      ∀ n k v', H.value n k = none → H'.value n k = some v' → (n = r ∧ k = items) ∨ Needed H H' n k := by
  obtain ⟨l, hch⟩ := (h.grounded r (by rw [FMap.contains_iff]; exact ⟨_, hs⟩)).chain
  obtain ⟨v, H', t', h1, h2, h3, h4, h5, h6⟩ := sampleRelation_ok S hcm hch h rfl hs hl hn (H.schema.size + 1)
    (Nat.le_succ_of_le hch.length_le) t
  exact ⟨v, H', t', h1, h2, C61_sound h2, h3, h4, h5, fun n k v' a b => (h6 n k v' a b).2⟩

/-- C52: after sampling, each observation of a noisy relation has a value of its base relation. -/
theorem C52_bases {H : HIRM F} (h : Reach L H) {r b : String} {spec sp : RelSpec F} (hs : H.schema.find? r = some spec)
    (hb : spec.base? = some b) (hsb : H.schema.find? b = some sp) {k : Items} {v : V} (hv : H.value r k = some v) :
    ∃ bv, H.value b (k.take sp.doms.length) = some bv := by
  obtain ⟨tb, id, q, h1, h2⟩ := value_some.mp hv
  obtain ⟨tb', id', q', btb, bid, br, h3, h4, _⟩ := (C61_sound h).attached r spec b hs hb
  rw [h1] at h3; cases h3
  obtain ⟨_, h5, h6⟩ := h.good.matched h1
  rw [hs] at h5; cases h5
  obtain ⟨_, h7, h8⟩ := h.good.matched h4
  rw [hsb] at h7; cases h7
  obtain ⟨bv, h9, _⟩ := (C61_sound h).paired r tb id q b btb bid br h1 (by rw [h6.base]; exact hb) h4 k v h2
  exact ⟨bv, by rw [value_of h4, ← h8.doms]; exact h9⟩

/-! ### concrete cases -/
open Latent (bools boolLaws)

theorem samples_bools : Samples boolLaws where
  noisy _ _ s b t _ _ := by
    show ∃ x t', Sometimes.corrupt BitFlip s b t = .ok (x, t') ∧ NoisyRel.Any (b, x)
    unfold Sometimes.corrupt
    dsimp only
    split
    · exact ⟨!b, _, rfl, by cases b <;> simp [NoisyRel.Any]⟩
    · exact ⟨b, _, rfl, by simp [NoisyRel.Any]⟩

theorem compatible_bools (schema : Schema bools) : Compatible boolLaws schema where
  accepts := fun _ _ _ _ _ _ _ _ v _ => ⟨v, .inl rfl⟩
  bases := fun _ _ _ _ _ _ _ _ _ _ _ t _ => ⟨_, (draw 2 t).2, rfl, trivial⟩
  all := fun _ _ _ _ _ _ _ t _ => ⟨_, (draw 2 t).2, rfl, trivial⟩

/-- C52_sample, with any draws -/
example (n fuel : Nat) (t : Tape) := C52_sample samples_bools mv4_reach (compatible_bools _) n fuel t

def mv8 : Option (Sampling bools × Tape) := match mv4.sampleAndIncorporate 1 10 [1, 1] with
  | .ok x => x
  | _ => none

/-- with the draws 1, 1 the relation `A` gets the new tuple (4, 9), for which a value of `B` is sampled too, and `C` gets (5) -/
example : (mv8.map fun x => (x.1.obs.find? "A", x.1.obs.find? "B", x.1.obs.find? "C", x.1.H.value "B" [4])) =
    some (some [([4, 9], false)], none, some [([5], false)], some false) := rfl

/-- C52_sample_relation and C52_bases -/
example (t : Tape) : ∃ v H' t', sampleRelation (mv4.schema.size + 1) mv4 "A" [7, 8] t = .ok (v, H', t') ∧ ∃ bv, H'.value "B" [7] = some bv := by
  obtain ⟨v, H', t', h1, h2, _, h3, h4, _⟩ := C52_sample_relation samples_bools mv4_reach (compatible_bools _) (r := "A")
    (spec := .noisy () ["D", "E"] "B" true) rfl (items := [7, 8]) rfl rfl t
  exact ⟨v, H', t', h1, C52_bases h2 (r := "A") (b := "B") (spec := .noisy () ["D", "E"] "B" true) (sp := .clean () ["D"] true)
    (by rw [h3]; rfl) rfl (by rw [h3]; rfl) h4⟩

end
end HIRM

/-! ### the distributions and emissions of the code satisfy `Samples` -/
noncomputable section
open Spec

/-- corrupting a base value gives a value that the emission accepts for it, if there is one -/
def EmisOps.Emits {V : Type} (E : EmisOps V) (supp : V × V → Prop) : Prop :=
  ∀ m s b t, E.Holds supp m s → (∃ y, supp (b, y)) → ∃ x t', E.corrupt s b t = .ok (x, t') ∧ supp (b, x)

/-- C52: the categorical distributions sample values that they accept (for bigrams see C15; booleans and reals have no other values). -/
theorem C52_categorical_supported :
    (∀ (k : Nat) (m : Multiset Int) (d : DirichletCategorical) (t : Tape), 0 < k →
      (DirichletCategorical.ops k).Holds (fun x => 0 ≤ x ∧ x < k) m d → (d.sample t).1 < k) ∧
    (∀ (strings : List String) (m : Multiset String) (d : StringCat) (t : Tape), strings ≠ [] →
      (StringCat.ops strings).Holds (· ∈ strings) m d → ∃ s t', d.sample t = .ok (s, t') ∧ s ∈ strings) := by
  constructor
  · intro k m d t hk hd
    obtain ⟨a, hr⟩ := (DirichletCategorical.lawful k).holds hd
    obtain ⟨rfl, _⟩ : d = DirichletCategorical.rep a.1 k m ∧ _ := hr
    have hl : (DirichletCategorical.rep a.1 k m).counts.length = k := by simp [DirichletCategorical.rep, DirichletCategorical.of]
    unfold DirichletCategorical.sample
    rw [hl]
    exact draw_lt hk t
  · intro strings m d t hne hd
    obtain ⟨a, hr⟩ := (StringCat.lawful strings).holds hd
    obtain ⟨rfl, _⟩ : d = StringCat.rep a.1 strings m ∧ _ := hr
    have hl : (StringCat.rep a.1 strings m).dc.counts.length = strings.length := by
      simp [StringCat.rep, DirichletCategorical.rep, DirichletCategorical.of]
    have hlt : ((StringCat.rep a.1 strings m).dc.sample t).1 < strings.length := by
      unfold DirichletCategorical.sample
      rw [hl]
      exact draw_lt (List.length_pos_iff.mpr hne) t
    refine ⟨strings[((StringCat.rep a.1 strings m).dc.sample t).1], ((StringCat.rep a.1 strings m).dc.sample t).2, ?_, List.getElem_mem _⟩
    have : idxR (StringCat.rep a.1 strings m).strings ((StringCat.rep a.1 strings m).dc.sample t).1 =
        .ok strings[((StringCat.rep a.1 strings m).dc.sample t).1] := by
      have h : (StringCat.rep a.1 strings m).strings = strings := rfl
      simp only [idxR, h, List.getElem?_eq_getElem hlt]
    simp only [StringCat.sample, bind, Except.bind, this]

theorem Sometimes.emits {V : Type} [DecidableEq V] {W : WEmis V} {supp : V × V → Prop}
    (hW : ∀ s b t, ∃ x t', W.corrupt s b t = .ok (x, t') ∧ supp (b, x)) : (Sometimes W).ops.Emits (fun x => x.1 = x.2 ∨ supp x) := by
  intro m s b t hs _
  show ∃ x t', Sometimes.corrupt W s b t = .ok (x, t') ∧ _
  unfold Sometimes.corrupt
  dsimp only
  split
  · obtain ⟨x, t', h1, h2⟩ := hW (Sometimes.St.be s) b (Sometimes.flip t).2
    exact ⟨x, t', h1, .inr h2⟩
  · exact ⟨b, _, rfl, .inl rfl⟩

/-- a legal history of a string-valued categorical -/
example (t : Tape) : ∃ s t', (StringCat.mk' ["a", "b"]).sample t = .ok (s, t') ∧ s ∈ ["a", "b"] :=
  C52_categorical_supported.2 ["a", "b"] 0 _ t (by simp) ⟨[], [], rfl, rfl⟩

/-- C52: the emissions corrupt a base value to a value that they accept for it. -/
theorem C52_emissions :
    BitFlip.ops.Emits (fun x => x.1 ≠ x.2) ∧ (∀ V, (IdentityEmission V).ops.Emits (fun _ => True)) ∧
    (∀ z, (GaussianEmission z).ops.Emits (fun _ => True)) ∧
    (∀ k : Nat, (CategoricalEmission k).ops.Emits (fun x => (0 ≤ x.1 ∧ x.1 < k) ∧ 0 ≤ x.2 ∧ x.2 < k)) ∧
    SimpleStringEmission.ops.Emits (fun _ => True) ∧
    (Sometimes BitFlip).ops.Emits (fun x => x.1 = x.2 ∨ x.1 ≠ x.2) ∧
    ∀ z, (Sometimes (GaussianEmission z)).ops.Emits (fun x => x.1 = x.2 ∨ True) := by
  refine ⟨fun m s b t _ _ => ⟨!b, t, rfl, by simp⟩, fun V m s b t _ _ => ⟨b, t, rfl, trivial⟩, fun z m s b t _ _ => ⟨_, _, rfl, trivial⟩, ?_,
    fun m s b t _ _ => ⟨_, _, rfl, trivial⟩, ?_, ?_⟩
  · rintro k m s b t hs ⟨y, hb, hy⟩
    obtain ⟨a, hr⟩ := (CategoricalEmission.lawful k).holds hs
    obtain ⟨rfl, hm⟩ : s = CategoricalEmission.rep k a.1 m ∧ _ := hr
    have hrow := CategoricalEmission.row_rep (k := k) (a := a.1) (m := m) hb
    have hl : (DirichletCategorical.rep (a.1 b.toNat) k (CategoricalEmission.dirty m b.toNat)).counts.length = k := by
      simp [DirichletCategorical.rep, DirichletCategorical.of]
    have hlt : ((DirichletCategorical.rep (a.1 b.toNat) k (CategoricalEmission.dirty m b.toNat)).sample t).1 < k := by
      unfold DirichletCategorical.sample
      rw [hl]
      have := hb.1.trans_lt hb.2
      exact draw_lt (by omega) t
    refine ⟨(((DirichletCategorical.rep (a.1 b.toNat) k (CategoricalEmission.dirty m b.toNat)).sample t).1 : Nat),
      ((DirichletCategorical.rep (a.1 b.toNat) k (CategoricalEmission.dirty m b.toNat)).sample t).2, ?_, hb, by positivity,
      Int.ofNat_lt.mpr hlt⟩
    show CategoricalEmission.corrupt _ _ _ = _
    simp only [CategoricalEmission.corrupt, bind, Except.bind, hrow]
  · exact Sometimes.emits (fun s b t => ⟨!b, t, rfl, by simp⟩)
  · exact fun z => Sometimes.emits (fun s b t => ⟨_, _, rfl, trivial⟩)

/-- a fresh categorical emission with three states corrupts the value 2 to an acceptable value -/
example (t : Tape) : ∃ x t', (CategoricalEmission 3).ops.corrupt (CategoricalEmission 3).fresh 2 t = .ok (x, t') ∧
    (0 ≤ (2 : Int) ∧ (2 : Int) < 3) ∧ 0 ≤ x ∧ x < 3 :=
  C52_emissions.2.2.2.1 3 0 _ 2 t ⟨[], [], rfl, rfl⟩ ⟨0, by simp⟩

end
end Verif
