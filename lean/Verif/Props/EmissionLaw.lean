import Verif.Model.EmissionLaw
import Verif.Spec.EmissionLaw
import Verif.Props.Emission
import Verif.Props.SampleLaw
import Verif.Props.NormalLaw
/-! ### C95: emissions corrupt values with the probabilities that `logp` reports -/
namespace Verif
open Verif.Spec MeasureTheory
noncomputable section

/-- **C95**, `BitFlip`: the flipped value has the reported probability, one; the other one has probability zero, and asking for it stops the program. -/
theorem C95_bitflip (s : ℝ) (clean dirty : Bool) :
    (clean ≠ dirty → ∃ lp s', BitFlip.logp s (clean, dirty) = .ok (lp, s') ∧ probOf (BitFlip.corruptLaw clean) dirty = Real.exp lp) ∧
    (clean = dirty → BitFlip.logp s (clean, dirty) = .error .assert ∧ probOf (BitFlip.corruptLaw clean) dirty = 0) := by
  constructor
  · intro h
    refine ⟨0, s, BitFlip.logp_eq (x := (clean, dirty)) h s, ?_⟩
    cases clean <;> cases dirty <;> simp_all [probOf, BitFlip.corruptLaw]
  · rintro rfl
    constructor
    · simp [BitFlip, assertR, bind, Except.bind]
    · cases clean <;> simp [probOf, BitFlip.corruptLaw]

/-- **C95**, `IdentityEmission`: the probability of the clean value is the reported one.
MISSING (false in the code, see `C95_identity_false`): the property for other values. -/
theorem C95_identity_partial {V : Type} [DecidableEq V] (s : ℝ) (clean : V) :
    ∃ lp s', (IdentityEmission V).logp s (clean, clean) = .ok (lp, s') ∧ probOf (IdentityEmission.corruptLaw clean) clean = Real.exp lp :=
  ⟨0, s, rfl, by simp [probOf, IdentityEmission.corruptLaw]⟩

/-- Every value other than the clean one is reported with probability one, and never drawn. -/
theorem C95_identity_false {V : Type} [DecidableEq V] (s : ℝ) (clean dirty : V) (h : clean ≠ dirty) :
    ∃ lp s', (IdentityEmission V).logp s (clean, dirty) = .ok (lp, s') ∧ Real.exp lp = 1 ∧ probOf (IdentityEmission.corruptLaw clean) dirty = 0 :=
  ⟨0, s, rfl, by simp, by simp [probOf, IdentityEmission.corruptLaw, h]⟩

theorem probOf_range (ps : List ℝ) (i : Nat) (hi : i < ps.length) : probOf (((List.range ps.length).map Int.ofNat).zip ps) (i : Int) = ps[i] := by
  have key : ∀ (ps : List ℝ) (k i : Nat) (hi : i < ps.length),
      probOf (((List.range' k ps.length).map Int.ofNat).zip ps) ((k + i : Nat) : Int) = ps[i] := by
    intro ps
    induction ps with
    | nil => intro k i hi; simp at hi
    | cons p ps ih =>
      intro k i hi
      rw [List.length_cons, List.range'_succ, List.map_cons, List.zip_cons_cons]
      have hstep : ∀ v : Int, probOf ((Int.ofNat k, p) :: (((List.range' (k + 1) ps.length).map Int.ofNat).zip ps)) v =
          (if (Int.ofNat k) = v then p else 0) + probOf (((List.range' (k + 1) ps.length).map Int.ofNat).zip ps) v := by
        intro v
        unfold probOf
        by_cases h : Int.ofNat k = v
        · rw [if_pos h, List.filter_cons_of_pos (by simpa using h), List.map_cons, List.sum_cons]
        · rw [if_neg h, List.filter_cons_of_neg (by simpa using h), zero_add]
      rw [hstep]
      cases i with
      | zero =>
        have h0 : probOf (((List.range' (k + 1) ps.length).map Int.ofNat).zip ps) ((k + 0 : Nat) : Int) = 0 := by
          unfold probOf
          rw [List.filter_eq_nil_iff.2]
          · simp
          · intro x hx
            have h1 := (List.of_mem_zip (a := x.1) (b := x.2) hx).1
            obtain ⟨j, hj, hj'⟩ := List.mem_map.1 h1
            have := List.mem_range'_1.1 hj
            rw [← hj']
            simp
            omega
        rw [h0]
        simp
      | succ i =>
        have := ih (k + 1) i (by simpa using hi)
        rw [if_neg (by simp; omega), zero_add, show k + (i + 1) = k + 1 + i by ring, this]
        simp
  have := key ps 0 i hi
  rwa [zero_add, ← List.range_eq_range'] at this

/-- **C95**, `CategoricalEmission`: after any history, every value is drawn with the reported probability. -/
theorem C95_categorical (k : Nat) (m : Multiset (Int × Int)) (s : CategoricalEmission.St)
    (hs : (CategoricalEmission k).ops.Holds (fun x => (0 ≤ x.1 ∧ x.1 < k) ∧ 0 ≤ x.2 ∧ x.2 < k) m s) (clean : Int) (hc : 0 ≤ clean ∧ clean < k) :
    ∃ l, CategoricalEmission.corruptLaw s clean = .ok l ∧ ∀ dirty : Int, 0 ≤ dirty ∧ dirty < k →
      ∃ lp s', (CategoricalEmission k).logp s (clean, dirty) = .ok (lp, s') ∧ probOf l dirty = Real.exp lp := by
  obtain ⟨a, hr⟩ := (CategoricalEmission.lawful k).holds hs
  obtain ⟨rfl, hm⟩ : s = CategoricalEmission.rep k a.1 m ∧ _ := hr
  have ha := a.2 clean.toNat
  have hk : 0 < k := by omega
  set M := CategoricalEmission.dirty m clean.toNat with hM
  have hsupp : ∀ x ∈ M, 0 ≤ x ∧ x < (k : Int) := by
    intro x hx
    obtain ⟨p, hp, rfl⟩ := Multiset.mem_map.mp hx
    exact (hm p (Multiset.mem_of_mem_filter hp)).2
  have hlaw : (DirichletCategorical.rep (a.1 clean.toNat) k M).sampleLaw = .ok ((List.range k).map (fun i : Nat => ((M.count (i : Int) : ℝ) + a.1 clean.toNat) / (Multiset.card M + a.1 clean.toNat * k))) :=
    DirichletCategorical.sampleLaw_of ha hk (by positivity) (sum_count_range M hsupp)
  refine ⟨_, by
    unfold CategoricalEmission.corruptLaw
    rw [CategoricalEmission.row_rep hc]
    simp only [bind, Except.bind]
    rw [hlaw], ?_⟩
  intro dirty hd
  obtain ⟨i, rfl⟩ := Int.eq_ofNat_of_zero_le hd.1
  have hi : i < k := by have := hd.2; omega
  have hx : CategoricalEmission.Supp k (clean, (i : Int)) := ⟨hc, hd⟩
  refine ⟨Real.log (a.1 clean.toNat + M.count (i : Int)) - Real.log (Multiset.card M + a.1 clean.toNat * k), CategoricalEmission.rep k a.1 m, ?_, ?_⟩
  · show (CategoricalEmission.logp _ _).bind _ = _
    rw [CategoricalEmission.logp_rep hx]
    rfl
  rw [probOf_range _ i (by simpa using hi), exp_logp_of ha hk (by positivity) (by positivity)]
  simp [hM]

theorem coin_law {d : BetaBernoulli} (h : Real.exp (d.logp true) + Real.exp (d.logp false) = 1) :
    d.sampleLaw = .ok [(false, Real.exp (d.logp false)), (true, Real.exp (d.logp true))] := by
  unfold BetaBernoulli.sampleLaw
  dsimp only
  have hsum : [1 - Real.exp (d.logp true), Real.exp (d.logp true)].sum = 1 := by simp
  rw [discrete_pos (by simp) (by rw [hsum]; exact one_ne_zero), hsum, show Real.exp (d.logp false) = 1 - Real.exp (d.logp true) by linarith]
  simp [bind, Except.bind]

theorem probOf_scaled {V : Type} [DecidableEq V] (c : ℝ) (l : List (V × ℝ)) (v : V) : probOf (l.map (fun x => (x.1, c * x.2))) v = c * probOf l v := by
  unfold probOf
  induction l with
  | nil => simp
  | cons x l ih =>
    by_cases h : x.1 = v <;> simp [h, ih, mul_add]

theorem probOf_append {V : Type} [DecidableEq V] (l l' : List (V × ℝ)) (v : V) : probOf (l ++ l') v = probOf l v + probOf l' v := by
  simp [probOf]

theorem sometimes_law {V : Type} [DecidableEq V] {W : WEmis V} {base : W.S → V → Res (List (V × ℝ))} {s : Sometimes.St W} {clean : V} {l : List (V × ℝ)}
    (h : Real.exp (s.bb.logp true) + Real.exp (s.bb.logp false) = 1) (hl : base s.be clean = .ok l) :
    ∃ l', Sometimes.corruptLaw base s clean = .ok l' ∧ ∀ v, probOf l' v = (if clean = v then Real.exp (s.bb.logp false) else 0) + Real.exp (s.bb.logp true) * probOf l v := by
  refine ⟨_, by
    unfold Sometimes.corruptLaw
    simp only [coin_law h, bind, Except.bind, List.mapM_cons, List.mapM_nil, hl, pure, Except.pure]
    rfl, ?_⟩
  intro v
  simp only [List.flatten_cons, List.flatten_nil, List.append_nil, probOf_append, probOf_scaled]
  by_cases hv : clean = v <;> simp [probOf, hv]

/-- **C95**, `Sometimes`, for every base emission and both settings of the option `dirty_can_equal_clean`: if the coin is proper and the base emission draws the values of `D` with the
probabilities it reports, so does `Sometimes`.  Without the option, the base emission must never draw the clean value. -/
theorem C95_sometimes {V : Type} [DecidableEq V] (W : WEmis V) (base : W.S → V → Res (List (V × ℝ))) (canEqual : Bool) (s : Sometimes.St W) (clean : V) (D : V → Prop) (l : List (V × ℝ))
    (hcoin : 0 < s.bb.s + s.bb.alpha ∧ 0 < s.bb.N - s.bb.s + s.bb.beta) (hl : base s.be clean = .ok l) (hno : canEqual = false → probOf l clean = 0)
    (hb : ∀ dirty, D dirty → clean ≠ dirty ∨ canEqual = true → ∃ lp s', W.logp s.be (clean, dirty) = .ok (lp, s') ∧ probOf l dirty = Real.exp lp) :
    ∃ l', Sometimes.corruptLaw base s clean = .ok l' ∧ ∀ dirty, D dirty →
      ∃ lp s', (Sometimes W canEqual).logp s (clean, dirty) = .ok (lp, s') ∧ probOf l' dirty = Real.exp lp := by
  have hsum := coin_sum hcoin.1 hcoin.2
  obtain ⟨l', h1, h2⟩ := sometimes_law hsum hl
  refine ⟨l', h1, fun dirty hd => ?_⟩
  rw [h2]
  by_cases he : clean = dirty
  · cases canEqual with
    | false =>
      refine ⟨s.bb.logp false, s, by simp [Sometimes, Sometimes.logp, he], ?_⟩
      subst he
      rw [hno rfl]
      simp
    | true =>
      obtain ⟨lp, s', h3, h4⟩ := hb dirty hd (.inr rfl)
      refine ⟨Real.log (Real.exp (s.bb.logp false) + Real.exp (s.bb.logp true + lp)), { s with be := s' }, ?_, ?_⟩
      · subst he
        simp [Sometimes, Sometimes.logp, bind, Except.bind, h3]
      rw [if_pos he, h4, Real.exp_log (by positivity), Real.exp_add]
  · obtain ⟨lp, s', h3, h4⟩ := hb dirty hd (.inl he)
    refine ⟨s.bb.logp true + lp, { s with be := s' }, by simp [Sometimes, Sometimes.logp, he, bind, Except.bind, h3], ?_⟩
    rw [if_neg he, h4, Real.exp_add, zero_add]

/-- **C95**, sometimes-bitflip noise: after any history, each value is drawn with the reported probability. -/
theorem C95_sometimes_bitflip (m : Multiset (Bool × Bool)) (s : Sometimes.St BitFlip) (hs : (Sometimes BitFlip).ops.Holds (fun x => x.1 = x.2 ∨ x.1 ≠ x.2) m s) (clean : Bool) :
    ∃ l, Sometimes.corruptLaw (fun _ c => .ok (BitFlip.corruptLaw c)) s clean = .ok l ∧ ∀ dirty,
      ∃ lp s', (Sometimes BitFlip).logp s (clean, dirty) = .ok (lp, s') ∧ probOf l dirty = Real.exp lp := by
  obtain ⟨h, hr⟩ := (Sometimes.lawful BitFlip.lawful).holds hs
  obtain ⟨_, h2, _⟩ : Sometimes.Rep BitFlip.lawful h m s := hr
  have hc : ((Sometimes.tosses m).count true : ℝ) ≤ Multiset.card (Sometimes.tosses m) := by exact_mod_cast Multiset.count_le_card _ _
  have h0 : (0 : ℝ) ≤ (Sometimes.tosses m).count true := by positivity
  have hp1 := h.1.2.1
  have hp2 := h.1.2.2
  obtain ⟨l, h3, h4⟩ := C95_sometimes BitFlip (fun _ c => .ok (BitFlip.corruptLaw c)) false s clean (fun _ => True) _
    (by rw [h2]; constructor <;> simp only [BetaBernoulli.rep] <;> push_cast <;> linarith) rfl
    (fun _ => ((C95_bitflip s.be clean clean).2 rfl).2)
    (fun dirty _ hd => (C95_bitflip s.be clean dirty).1 (by simpa using hd))
  exact ⟨l, h3, fun dirty => h4 dirty trivial⟩

/-- **C95**, `GaussianEmission`: the corrupted values have the reported density exactly when every pair held was left unchanged.
MISSING (false in the code, by this theorem; see C94): the property for other data. -/
theorem C95_gaussian_partial (z : Tape → ℝ × Tape) (m : Multiset (ℝ × ℝ)) (s : Gaussian.St) (hs : (GaussianEmission z).ops.Holds (fun _ => True) m s) (clean : ℝ) :
    ∃ lp : ℝ → ℝ, (∀ dirty, (GaussianEmission z).logp s (clean, dirty) = .ok (lp dirty, s)) ∧
      (Gaussian.corruptLaw s clean = volume.withDensity (fun dirty => ENNReal.ofReal (Real.exp (lp dirty))) ↔ ∀ x ∈ m, x.1 = x.2) := by
  refine ⟨fun dirty => s.zmn.logp (dirty - clean), fun _ => rfl, ?_⟩
  obtain ⟨h, hr⟩ := (GaussianEmission.lawful z).holds hs
  have hr' : s = GaussianEmission.rep h.1 m := hr
  have h1 := ZeroMeanNormal.law_iff (m := GaussianEmission.diffs m) (s := s.zmn) h.2.1 h.2.2 (by rw [hr']; rfl)
  have h2 : (∀ x ∈ GaussianEmission.diffs m, x = 0) ↔ ∀ x ∈ m, x.1 = x.2 := by
    simp only [GaussianEmission.diffs, Multiset.mem_map, forall_exists_index, and_imp, forall_apply_eq_imp_iff₂, sub_eq_zero]
    exact forall₂_congr fun x _ => eq_comm
  rw [← h2, ← h1]
  have hlp : Measurable (fun x => ENNReal.ofReal (Real.exp (s.zmn.logp x))) := by
    unfold ZeroMeanNormal.logp logTDistribution
    fun_prop
  have hshift : volume.withDensity (fun dirty => ENNReal.ofReal (Real.exp (s.zmn.logp (dirty - clean)))) =
      (volume.withDensity (fun x => ENNReal.ofReal (Real.exp (s.zmn.logp x)))).map (fun e => clean + e) := by
    ext A hA
    rw [Measure.map_apply (by fun_prop) hA, withDensity_apply _ hA, withDensity_apply _ (measurableSet_preimage (by fun_prop) hA)]
    have hp := (measurePreserving_add_left volume clean).setLIntegral_comp_preimage hA (f := fun dirty => ENNReal.ofReal (Real.exp (s.zmn.logp (dirty - clean))))
      (hlp.comp (measurable_id.sub_const clean))
    rw [← hp]
    simp only [add_sub_cancel_left]
  unfold Gaussian.corruptLaw
  rw [hshift]
  exact (MeasurableEquiv.addLeft clean).map_measurableEquiv_injective.eq_iff

/-- The hypotheses are met, with a value held: a categorical emission of three states that has seen 0 become 2. -/
example : ∃ s l, (CategoricalEmission 3).ops.Holds (fun x => (0 ≤ x.1 ∧ x.1 < (3 : Nat)) ∧ 0 ≤ x.2 ∧ x.2 < (3 : Nat)) {(0, 2)} s ∧ CategoricalEmission.corruptLaw s 0 = .ok l := by
  have hr : remaining (fun x : Int × Int => (0 ≤ x.1 ∧ x.1 < (3 : Nat)) ∧ 0 ≤ x.2 ∧ x.2 < (3 : Nat)) [.inc (0, 2), .trans [1, 2, 3]] 0 = some {(0, 2)} := by
    unfold remaining; rw [if_pos (by norm_num)]; rfl
  obtain ⟨s, h, _⟩ := (CategoricalEmission.lawful 3).total [] _ _ hr
  have hs : (CategoricalEmission 3).ops.Holds (fun x => (0 ≤ x.1 ∧ x.1 < (3 : Nat)) ∧ 0 ≤ x.2 ∧ x.2 < (3 : Nat)) {(0, 2)} s := ⟨_, _, hr, h⟩
  obtain ⟨l, h1, _⟩ := C95_categorical 3 _ s hs 0 (by norm_num)
  exact ⟨s, l, hs, h1⟩

/-- The hypotheses are met by a sometimes-bitflip emission that holds a pair. -/
example : ∃ s l, (Sometimes BitFlip).ops.Holds (fun x => x.1 = x.2 ∨ x.1 ≠ x.2) {(true, true)} s ∧
    Sometimes.corruptLaw (W := BitFlip) (fun _ c => .ok (BitFlip.corruptLaw c)) s false = .ok l := by
  obtain ⟨s, h, _⟩ := C43_total.2.2.2.2.2.1 [] _ _ bitflip_history
  have hs : (Sometimes BitFlip).ops.Holds (fun x => x.1 = x.2 ∨ x.1 ≠ x.2) {(true, true)} s := ⟨[], _, bitflip_history, h⟩
  obtain ⟨l, h1, _⟩ := C95_sometimes_bitflip _ s hs false
  exact ⟨s, l, hs, h1⟩

/-- A Gaussian emission that has seen 0 become 1: its corrupted values do not have the density it reports. -/
theorem C95_gaussian_false (z : Tape → ℝ × Tape) (clean : ℝ) : ∃ s : Gaussian.St, (GaussianEmission z).ops.Holds (fun _ => True) {(0, 1)} s ∧
    ∃ lp : ℝ → ℝ, (∀ dirty, (GaussianEmission z).logp s (clean, dirty) = .ok (lp dirty, s)) ∧
      Gaussian.corruptLaw s clean ≠ volume.withDensity (fun dirty => ENNReal.ofReal (Real.exp (lp dirty))) := by
  have hr : remaining (fun _ : ℝ × ℝ => True) [.inc (0, 1)] 0 = some {(0, 1)} := by simp only [remaining, if_true]; rfl
  obtain ⟨s, h, _⟩ := (GaussianEmission.lawful z).total [] _ _ hr
  have hs : (GaussianEmission z).ops.Holds (fun _ => True) {(0, 1)} s := ⟨_, _, hr, h⟩
  obtain ⟨lp, h1, h2⟩ := C95_gaussian_partial z _ s hs clean
  refine ⟨s, hs, lp, h1, fun h => ?_⟩
  have := h2.1 h (0, 1) (by simp)
  norm_num at this

/-- `SimpleStringEmission`: a fresh emission reports a number above one for the insertion of one character, which is not the probability of anything.  (The property is false for it.) -/
theorem C95_simple_string_false : ∃ lp s, SimpleStringEmission.logp {} ([], ['a']) = .ok (lp, s) ∧ ∀ p : ℝ, p ≤ 1 → p ≠ Real.exp lp := by
  obtain ⟨lp, s, h1, _, h3⟩ := C43_simple_string_above_one
  refine ⟨lp, s, h1, fun p hp he => ?_⟩
  have := Real.one_lt_exp_iff.2 h3
  linarith

/-! Sometimes-categorical noise stores fractions of pairs. -/

/-- what a row keeps as long as nothing is removed -/
def RowOK (k : Nat) (d : DirichletCategorical) : Prop := 0 < d.alpha ∧ d.counts.length = k ∧ (∀ c ∈ d.counts, 0 ≤ c) ∧ d.counts.sum = d.N

def CoinOK (d : BetaBernoulli) : Prop := 0 < d.alpha ∧ 0 < d.beta ∧ 0 ≤ d.s ∧ (d.s : ℝ) ≤ d.N

theorem sum_modify (l : List ℝ) (i : Nat) (hi : i < l.length) (w : ℝ) : (l.modify i (· + w)).sum = l.sum + w := by
  induction l generalizing i with
  | nil => simp at hi
  | cons x l ih =>
    cases i with
    | zero => simp; ring
    | succ i => simp [ih i (by simpa using hi)]; ring

theorem RowOK.inc {k d} (h : RowOK k d) {x : Int} (hx : 0 ≤ x ∧ x < k) {w : ℝ} (hw : 0 ≤ w) : ∃ d', d.incorporate x w = .ok d' ∧ RowOK k d' := by
  obtain ⟨h1, h2, h3, h4⟩ := h
  have hlt : x.toNat < d.counts.length := by omega
  refine ⟨{ d with counts := d.counts.modify x.toNat (· + w), N := d.N + w }, ?_, h1, by simpa using h2, ?_, ?_⟩
  · have : d.inRange x = true := by simp [DirichletCategorical.inRange, hx.1, h2, hx.2]
    simp [DirichletCategorical.incorporate, this, assertR, bind, Except.bind]
  · intro c hc
    obtain ⟨i, hi, rfl⟩ := List.getElem_of_mem hc
    rw [List.getElem_modify]
    have := h3 _ (List.getElem_mem (by simpa using hi : i < d.counts.length))
    split <;> linarith
  · rw [sum_modify _ _ hlt, h4]

theorem RowOK.logp {k d} (h : RowOK k d) {x : Int} (hx : 0 ≤ x ∧ x < k) :
    ∃ c, d.counts[x.toNat]? = some c ∧ 0 ≤ c ∧ c ≤ d.N ∧ d.logp x = .ok (Real.log (d.alpha + c) - Real.log (d.N + d.alpha * k)) := by
  obtain ⟨h1, h2, h3, h4⟩ := h
  have hlt : x.toNat < d.counts.length := by omega
  refine ⟨d.counts[x.toNat], List.getElem?_eq_getElem hlt, h3 _ (List.getElem_mem hlt), ?_, ?_⟩
  · rw [← h4]; exact List.single_le_sum h3 _ (List.getElem_mem hlt)
  · have : d.inRange x = true := by simp [DirichletCategorical.inRange, hx.1, h2, hx.2]
    simp [DirichletCategorical.logp, this, assertR, bind, Except.bind, idxR, List.getElem?_eq_getElem hlt, h2]

theorem RowOK.law {k d} (h : RowOK k d) (hk : 0 < k) : d.sampleLaw = .ok (d.counts.map (fun c => (c + d.alpha) / (d.N + d.alpha * k))) := by
  obtain ⟨h1, h2, h3, h4⟩ := h
  have hk' : (0 : ℝ) < k := by exact_mod_cast hk
  have hN : 0 ≤ d.N := by rw [← h4]; exact List.sum_nonneg h3
  have hs : (d.counts.map (fun y => y + d.alpha)).sum = d.N + d.alpha * k := by
    rw [← h4, ← h2]
    generalize d.counts = l
    induction l with
    | nil => simp
    | cons x l ih => simp [ih]; ring
  unfold DirichletCategorical.sampleLaw
  rw [discrete_pos (by intro he; rw [List.map_eq_nil_iff] at he; rw [he] at h2; simp at h2; omega) (by rw [hs]; positivity), hs]
  simp [Function.comp_def]

theorem CoinOK.inc {d : BetaBernoulli} (h : CoinOK d) (x : Bool) : CoinOK (d.incorporate x 1) := by
  obtain ⟨h1, h2, h3, h4⟩ := h
  have e : truncInt ((d.s : ℝ) + 1 * (if x then 1 else 0)) = d.s + (if x then 1 else 0) := by
    rw [← truncInt_int (d.s + (if x then 1 else 0))]
    cases x <;> simp
  refine ⟨h1, h2, ?_, ?_⟩
  · show 0 ≤ truncInt _
    rw [e]; split <;> omega
  · show ((truncInt _ : Int) : ℝ) ≤ d.N + 1
    rw [e]; push_cast; split <;> linarith

theorem CoinOK.split {d : BetaBernoulli} (h : CoinOK d) {p : ℝ} (hp : 0 ≤ p) (hp1 : p ≤ 1) : CoinOK ((d.incorporate true (p * 1)).incorporate false ((1 - p) * 1)) := by
  obtain ⟨h1, h2, h3, h4⟩ := h
  have h3' : (0 : ℝ) ≤ d.s := by exact_mod_cast h3
  have e1 : truncInt ((d.s : ℝ) + p * 1 * 1) = ⌊(d.s : ℝ) + p⌋ := by
    unfold truncInt
    rw [if_pos (by linarith)]; simp
  have e2 : truncInt (((⌊(d.s : ℝ) + p⌋ : Int) : ℝ) + (1 - p) * 1 * 0) = ⌊(d.s : ℝ) + p⌋ := by
    rw [mul_zero, add_zero, truncInt_int]
  have hf := Int.floor_le ((d.s : ℝ) + p)
  refine ⟨h1, h2, ?_, ?_⟩
  · simp only [BetaBernoulli.incorporate, if_true, Bool.false_eq_true, if_false, e1, e2]
    exact Int.floor_nonneg.2 (by linarith)
  · simp only [BetaBernoulli.incorporate, if_true, Bool.false_eq_true, if_false, e1, e2]
    linarith

theorem CoinOK.proper {d : BetaBernoulli} (h : CoinOK d) : 0 < d.s + d.alpha ∧ 0 < d.N - d.s + d.beta := by
  obtain ⟨h1, h2, h3, h4⟩ := h
  have h3' : (0 : ℝ) ≤ d.s := by exact_mod_cast h3
  constructor <;> linarith

/-- what a sometimes-categorical emission keeps as long as nothing is removed -/
def MixOK (k : Nat) (s : Sometimes.St (CategoricalEmission k)) : Prop :=
  CoinOK s.bb ∧ (s.be : CategoricalEmission.St).dists.length = k ∧ ∀ d ∈ (s.be : CategoricalEmission.St).dists, RowOK k d

theorem RowsOK.inc {k : Nat} {s : CategoricalEmission.St} (hl : s.dists.length = k) (hr : ∀ d ∈ s.dists, RowOK k d) {x : Int × Int}
    (hx : (0 ≤ x.1 ∧ x.1 < k) ∧ 0 ≤ x.2 ∧ x.2 < k) {w : ℝ} (hw : 0 ≤ w) :
    ∃ s', CategoricalEmission.incorporate s x w = .ok s' ∧ s'.dists.length = k ∧ ∀ d ∈ s'.dists, RowOK k d := by
  have hlt : x.1.toNat < s.dists.length := by omega
  obtain ⟨d', h1, h2⟩ := (hr _ (List.getElem_mem hlt)).inc hx.2 hw
  refine ⟨{ N := s.N + w, dists := s.dists.set x.1.toNat d' }, ?_, by simpa using hl, ?_⟩
  · simp [CategoricalEmission.incorporate, CategoricalEmission.row, not_lt.2 hx.1.1, idxR, List.getElem?_eq_getElem hlt, h1, bind, Except.bind]
  · intro d hd
    rcases List.mem_or_eq_of_mem_set hd with h | rfl
    · exact hr d h
    · exact h2

theorem transLoop_ok {k : Nat} : ∀ (l : List DirichletCategorical) (t : Tape), (∀ d ∈ l, RowOK k d) →
    (CategoricalEmission.transLoop l t).1.length = l.length ∧ ∀ d ∈ (CategoricalEmission.transLoop l t).1, RowOK k d
  | [], _, _ => ⟨rfl, by simp [CategoricalEmission.transLoop]⟩
  | d :: ds, t, h => by
    obtain ⟨h1, h2⟩ := transLoop_ok ds (d.transitionHyperparameters t).2 (fun e he => h e (by simp [he]))
    refine ⟨by simp only [CategoricalEmission.transLoop, List.length_cons, h1], ?_⟩
    intro e he
    simp only [CategoricalEmission.transLoop, List.mem_cons] at he
    rcases he with rfl | he
    · obtain ⟨a, ha, he⟩ := DirichletCategorical.trans_mem d t
      rw [he]
      obtain ⟨_, r2, r3, r4⟩ := h d (by simp)
      exact ⟨ZeroMeanNormal.alphaGrid_pos ha, r2, r3, r4⟩
    · exact h2 e he

theorem MixOK.base {k : Nat} {s : Sometimes.St (CategoricalEmission k)} (h : MixOK k s) {clean dirty : Int} (hc : 0 ≤ clean ∧ clean < k) (hd : 0 ≤ dirty ∧ dirty < k) :
    ∃ d ∈ (s.be : CategoricalEmission.St).dists, ∃ c, CategoricalEmission.row s.be clean = .ok d ∧ d.counts[dirty.toNat]? = some c ∧ 0 ≤ c ∧ c ≤ d.N ∧
      (CategoricalEmission k).logp s.be (clean, dirty) = .ok (Real.log (d.alpha + c) - Real.log (d.N + d.alpha * k), s.be) := by
  obtain ⟨_, h2, h3⟩ := h
  have hlt : clean.toNat < (s.be : CategoricalEmission.St).dists.length := by omega
  have hrow : CategoricalEmission.row s.be clean = .ok (s.be : CategoricalEmission.St).dists[clean.toNat] := by
    simp [CategoricalEmission.row, not_lt.2 hc.1, idxR, List.getElem?_eq_getElem hlt]
  obtain ⟨c, c1, c2, c3, c4⟩ := (h3 _ (List.getElem_mem hlt)).logp hd
  refine ⟨_, List.getElem_mem hlt, c, hrow, c1, c2, c3, ?_⟩
  show (CategoricalEmission.logp _ _).bind _ = _
  unfold CategoricalEmission.logp
  simp only [hrow, bind, Except.bind, c4]
  rfl

theorem MixOK.step {k : Nat} {s : (Sometimes (CategoricalEmission k) true).S} (ih : MixOK k s) {x : Int × Int} (hx : (0 ≤ x.1 ∧ x.1 < k) ∧ 0 ≤ x.2 ∧ x.2 < k) :
    ∃ s', (Sometimes (CategoricalEmission k) true).incW s x 1 = .ok s' ∧ MixOK k s' := by
  by_cases he : x.1 = x.2
  · obtain ⟨d, hd, c, hrow, _, c2, c3, hlp⟩ := ih.base hx.1 hx.2
    have hp := CoinOK.proper ih.1
    have hsum := coin_sum hp.1 hp.2
    have hdok := ih.2.2 d hd
    have hk : (0 : ℝ) < k := by
      have : 0 < k := by omega
      exact_mod_cast this
    have ha := hdok.1
    have hexp : Real.exp (Real.log (d.alpha + c) - Real.log (d.N + d.alpha * k)) ≤ 1 := by
      have hk1 : (1 : ℝ) ≤ k := by
        have : 1 ≤ k := by omega
        exact_mod_cast this
      rw [Real.exp_sub, Real.exp_log (by positivity), Real.exp_log (by have := le_trans c2 c3; positivity), div_le_one (by have := le_trans c2 c3; positivity)]
      nlinarith
    set lp := Real.log (d.alpha + c) - Real.log (d.N + d.alpha * k)
    have hpe : Real.exp (s.bb.logp true + lp) ≤ 1 := by
      rw [Real.exp_add]
      have h1 := Real.exp_pos (s.bb.logp false)
      have h2 := Real.exp_pos (s.bb.logp true)
      nlinarith [Real.exp_pos lp]
    obtain ⟨be', b1, b2, b3⟩ := RowsOK.inc ih.2.1 ih.2.2 hx (w := Real.exp (s.bb.logp true + lp) * 1) (by positivity)
    have : (Sometimes (CategoricalEmission k) true).incW s x 1 = .ok { N := s.N + 1, bb := (s.bb.incorporate true (Real.exp (s.bb.logp true + lp) * 1)).incorporate false ((1 - Real.exp (s.bb.logp true + lp)) * 1), be := be' } := by
      show Sometimes.incorporate _ _ _ _ _ = _
      unfold Sometimes.incorporate
      rw [if_neg (by simpa using he), if_pos rfl]
      have hlp' : (CategoricalEmission k).logp s.be x = .ok (lp, s.be) := hlp
      have b1' : (CategoricalEmission k).incW s.be x (Real.exp (s.bb.logp true + lp) * 1) = .ok be' := b1
      simp only [hlp', bind, Except.bind, b1']
      rfl
    exact ⟨_, this, ih.1.split (Real.exp_pos _).le hpe, b2, b3⟩
  · obtain ⟨be', b1, b2, b3⟩ := RowsOK.inc ih.2.1 ih.2.2 hx (w := 1) one_pos.le
    have : (Sometimes (CategoricalEmission k) true).incW s x 1 = .ok { N := s.N + 1, bb := s.bb.incorporate true 1, be := be' } := by
      show Sometimes.incorporate _ _ _ _ _ = _
      unfold Sometimes.incorporate
      rw [if_pos he]
      have b1' : (CategoricalEmission k).incW s.be x 1 = .ok be' := b1
      simp only [bind, Except.bind, b1']
      rfl
    exact ⟨_, this, ih.1.inc true, b2, b3⟩

theorem MixOK.of_grown {k : Nat} {s : (Sometimes (CategoricalEmission k) true).S}
    (h : Grown (Sometimes (CategoricalEmission k) true) (fun x => (0 ≤ x.1 ∧ x.1 < k) ∧ 0 ≤ x.2 ∧ x.2 < k) s) : MixOK k s := by
  induction h with
  | fresh =>
    refine ⟨⟨one_pos, one_pos, le_refl _, by simp [Sometimes]⟩, by simp [Sometimes, CategoricalEmission], ?_⟩
    intro d hd
    have : d = DirichletCategorical.mk' k := by
      have hd' : d ∈ List.replicate k (DirichletCategorical.mk' k) := hd
      exact (List.mem_replicate.1 hd').2
    subst this
    exact ⟨one_pos, by simp [DirichletCategorical.mk'], by simp [DirichletCategorical.mk'], by simp [DirichletCategorical.mk']⟩
  | @inc s s' x _ hx hi ih =>
    obtain ⟨s2, h1, h2⟩ := ih.step hx
    have e := h1.symm.trans hi
    injection e with e
    subst e
    exact h2
  | @trans s t _ ih =>
    obtain ⟨h1, h2, _⟩ := BetaBernoulli.trans_mem s.bb ((CategoricalEmission k).trans s.be t).2
    obtain ⟨t1, t2⟩ := transLoop_ok (s.be : CategoricalEmission.St).dists t ih.2.2
    exact ⟨⟨BetaBernoulli.grid_pos h1, BetaBernoulli.grid_pos h2, ih.1.2.2.1, ih.1.2.2.2⟩, t1.trans ih.2.1, t2⟩

/-- **C95**, sometimes-categorical noise, in every state reached by adding pairs, equal or not, and by hyperparameter transitions: each value is drawn with the reported probability.
MISSING: states after removals, which do not undo additions in this emission (see `C43_sometimes_categorical_no_round_trip`). -/
theorem C95_sometimes_categorical_partial (k : Nat) (s : Sometimes.St (CategoricalEmission k))
    (hs : Grown (Sometimes (CategoricalEmission k) true) (fun x => (0 ≤ x.1 ∧ x.1 < k) ∧ 0 ≤ x.2 ∧ x.2 < k) s) (clean : Int) (hc : 0 ≤ clean ∧ clean < k) :
    ∃ l, Sometimes.corruptLaw (W := CategoricalEmission k) CategoricalEmission.corruptLaw s clean = .ok l ∧ ∀ dirty : Int, 0 ≤ dirty ∧ dirty < k →
      ∃ lp s', (Sometimes (CategoricalEmission k) true).logp s (clean, dirty) = .ok (lp, s') ∧ probOf l dirty = Real.exp lp := by
  have h := MixOK.of_grown hs
  have hk : 0 < k := by omega
  obtain ⟨d, hd, _, hrow, _⟩ := h.base hc hc
  have hdok := h.2.2 d hd
  have hlaw := hdok.law hk
  refine C95_sometimes (CategoricalEmission k) CategoricalEmission.corruptLaw true s clean (fun d => 0 ≤ d ∧ d < k)
    (((List.range (d.counts.map (fun c => (c + d.alpha) / (d.N + d.alpha * k))).length).map Int.ofNat).zip (d.counts.map (fun c => (c + d.alpha) / (d.N + d.alpha * k))))
    h.1.proper ?_ (fun h => by simp at h) ?_
  · unfold CategoricalEmission.corruptLaw
    simp only [hrow, bind, Except.bind, hlaw]
  · intro dirty hdirty _
    obtain ⟨d', _, c, hrow', c1, c2, c3, hlp⟩ := h.base hc hdirty
    have : d' = d := by
      have := hrow'.symm.trans hrow
      injection this
    subst this
    obtain ⟨i, rfl⟩ := Int.eq_ofNat_of_zero_le hdirty.1
    have hi : i < d'.counts.length := by rw [hdok.2.1]; have := hdirty.2; omega
    refine ⟨_, _, hlp, ?_⟩
    rw [probOf_range _ i (by simpa using hi), exp_logp_of hdok.1 hk (le_trans c2 c3) c2]
    have c1' : d'.counts[i]? = some c := by simpa using c1
    rw [List.getElem?_eq_getElem hi] at c1'
    injection c1' with c1'
    simp [c1']

/-- The states of `C95_sometimes_categorical_partial` can always grow: adding a pair never fails. -/
theorem C95_grows (k : Nat) (s : Sometimes.St (CategoricalEmission k))
    (hs : Grown (Sometimes (CategoricalEmission k) true) (fun x => (0 ≤ x.1 ∧ x.1 < k) ∧ 0 ≤ x.2 ∧ x.2 < k) s) (x : Int × Int) (hx : (0 ≤ x.1 ∧ x.1 < k) ∧ 0 ≤ x.2 ∧ x.2 < k) :
    ∃ s', (Sometimes (CategoricalEmission k) true).incW s x 1 = .ok s' ∧
      Grown (Sometimes (CategoricalEmission k) true) (fun x => (0 ≤ x.1 ∧ x.1 < k) ∧ 0 ≤ x.2 ∧ x.2 < k) s' := by
  obtain ⟨s', h1, _⟩ := (MixOK.of_grown hs).step hx
  exact ⟨s', h1, .inc hs hx h1⟩

/-- The hypotheses are met by an emission of three states that has seen 0 stay 0 and 1 become 2. -/
example : ∃ s1 s2, (Sometimes (CategoricalEmission 3) true).incW (Sometimes (CategoricalEmission 3) true).fresh (0, 0) 1 = .ok s1 ∧
    (Sometimes (CategoricalEmission 3) true).incW s1 (1, 2) 1 = .ok s2 ∧
    Grown (Sometimes (CategoricalEmission 3) true) (fun x => (0 ≤ x.1 ∧ x.1 < (3 : Nat)) ∧ 0 ≤ x.2 ∧ x.2 < (3 : Nat)) s2 := by
  obtain ⟨s1, h1, h2⟩ := C95_grows 3 _ .fresh (0, 0) (by norm_num)
  obtain ⟨s2, h3, h4⟩ := C95_grows 3 s1 h2 (1, 2) (by norm_num)
  exact ⟨s1, s2, h1, h3, h4⟩

/-- a two-state emission that has only seen changes from 0 to 1 and the value 0 unchanged -/
def two (N Nb : ℝ) (s : Int) (c0 c1 : ℝ) : Sometimes.St (CategoricalEmission 2) :=
  { N := N, bb := { N := Nb, s := s }, be := ({ N := c0 + c1, dists := [{ N := c0 + c1, counts := [c0, c1] }, .mk' 2] } : CategoricalEmission.St) }

theorem two_change (N Nb : ℝ) (s : Int) (c0 c1 w : ℝ) :
    (Sometimes (CategoricalEmission 2) true).incW (two N Nb s c0 c1) (0, 1) w = .ok (two (N + w) (Nb + w) (truncInt (s + w * 1)) c0 (c1 + w)) := by
  have hinc : (CategoricalEmission 2).incW (two N Nb s c0 c1).be (0, 1) w = .ok (two (N + w) (Nb + w) (truncInt (s + w * 1)) c0 (c1 + w)).be := by
    simp [CategoricalEmission, CategoricalEmission.incorporate, CategoricalEmission.row, two, idxR, DirichletCategorical.incorporate,
      DirichletCategorical.inRange, assertR, bind, Except.bind]
    ring
  simp only [Sometimes, Sometimes.incorporate, ne_eq, if_pos (show ¬ (0 : Int) = 1 by decide), hinc, bind, Except.bind]
  rfl

theorem two_keep {N Nb : ℝ} {s : Int} {c0 c1 w p : ℝ} (hs : 0 ≤ s) (hN : 0 ≤ Nb) (h0 : 0 ≤ c0) (h1 : 0 ≤ c1) (hp : p = (s + 1) / (Nb + 2) * ((1 + c0) / (c0 + c1 + 2))) :
    (Sometimes (CategoricalEmission 2) true).incW (two N Nb s c0 c1) (0, 0) w = .ok (two (N + w) (Nb + w) (truncInt (s + p * w * 1)) (c0 + p * w) c1) := by
  have hs' : (0 : ℝ) ≤ s := by exact_mod_cast hs
  have hlp : (CategoricalEmission 2).logp (two N Nb s c0 c1).be (0, 0) = .ok (Real.log (1 + c0) - Real.log (c0 + c1 + 2), (two N Nb s c0 c1).be) := by
    simp [CategoricalEmission, CategoricalEmission.logp, CategoricalEmission.row, two, idxR, DirichletCategorical.logp,
      DirichletCategorical.inRange, assertR, bind, Except.bind]
  have hexp : Real.exp ((two N Nb s c0 c1).bb.logp true + (Real.log (1 + c0) - Real.log (c0 + c1 + 2))) = p := by
    simp only [two, BetaBernoulli.logp, if_true]
    rw [Real.exp_add, Real.exp_sub, Real.exp_sub, Real.exp_log (by positivity), Real.exp_log (by positivity), Real.exp_log (by positivity), Real.exp_log (by positivity), hp]
    congr 2
    ring
  have hinc : (CategoricalEmission 2).incW (two N Nb s c0 c1).be (0, 0) (p * w) = .ok (two (N + w) (Nb + w) (truncInt (s + p * w * 1)) (c0 + p * w) c1).be := by
    simp [CategoricalEmission, CategoricalEmission.incorporate, CategoricalEmission.row, two, idxR, DirichletCategorical.incorporate,
      DirichletCategorical.inRange, assertR, bind, Except.bind]
    ring
  have hbb : ((two N Nb s c0 c1).bb.incorporate true (p * w)).incorporate false ((1 - p) * w) = (two (N + w) (Nb + w) (truncInt (s + p * w * 1)) (c0 + p * w) c1).bb := by
    simp only [BetaBernoulli.incorporate, two, if_true, Bool.false_eq_true, if_false, mul_zero, add_zero, truncInt_int]
    congr 1; ring
  simp only [Sometimes, Sometimes.incorporate, ne_eq, not_true_eq_false, if_false, if_true, hlp, bind, Except.bind, hexp, hinc, hbb]
  rfl

/-- **C95**, sometimes-categorical noise after removals: add the pair (0, 1) and the pair (0, 0), and remove both again.  The emission, which holds no pair, then counts -1 changes: the
argument `s + alpha` of the logarithm in the coin's `logp(true)` is 0, so that every change is reported with log probability minus infinity. -/
theorem C95_sometimes_categorical_removed_false :
    ∃ s1 s2 s3 s4 : Sometimes.St (CategoricalEmission 2),
      (Sometimes (CategoricalEmission 2) true).incW {} (0, 1) 1 = .ok s1 ∧ (Sometimes (CategoricalEmission 2) true).incW s1 (0, 0) 1 = .ok s2 ∧
      (Sometimes (CategoricalEmission 2) true).incW s2 (0, 0) (-1) = .ok s3 ∧ (Sometimes (CategoricalEmission 2) true).incW s3 (0, 1) (-1) = .ok s4 ∧
      s4.N = 0 ∧ s4.bb.s = -1 ∧ (s4.bb.s : ℝ) + s4.bb.alpha = 0 := by
  have h0 : (({} : Sometimes.St (CategoricalEmission 2))) = two 0 0 0 0 0 := by
    simp [two, CategoricalEmission, DirichletCategorical.mk', List.replicate]
  have t1 : truncInt (((0 : Int) : ℝ) + 1 * 1) = 1 := by rw [← truncInt_int 1]; norm_num
  have t2 : truncInt (((1 : Int) : ℝ) + 2 / 9 * 1 * 1) = 1 := by
    unfold truncInt; rw [if_pos (by norm_num), Int.floor_eq_iff]; norm_num
  have t3 : truncInt (((1 : Int) : ℝ) + 11 / 58 * -1 * 1) = 0 := by
    unfold truncInt; rw [if_pos (by norm_num), Int.floor_eq_iff]; norm_num
  have t4 : truncInt (((0 : Int) : ℝ) + -1 * 1) = -1 := by rw [← truncInt_int (-1)]; norm_num
  have k1 := two_change 0 0 0 0 0 1
  rw [t1] at k1
  have k2 := two_keep (N := 0 + 1) (Nb := 0 + 1) (s := 1) (c0 := 0) (c1 := 0 + 1) (w := 1) (p := 2 / 9) (by norm_num) (by norm_num) (by norm_num) (by norm_num) (by norm_num)
  rw [t2] at k2
  have k3 := two_keep (N := 0 + 1 + 1) (Nb := 0 + 1 + 1) (s := 1) (c0 := 0 + 2 / 9 * 1) (c1 := 0 + 1) (w := -1) (p := 11 / 58) (by norm_num) (by norm_num) (by norm_num) (by norm_num) (by norm_num)
  rw [t3] at k3
  have k4 := two_change (0 + 1 + 1 + -1) (0 + 1 + 1 + -1) 0 (0 + 2 / 9 * 1 + 11 / 58 * -1) (0 + 1) (-1)
  rw [t4] at k4
  rw [h0]
  exact ⟨_, _, _, _, k1, k2, k3, k4, by simp [two], rfl, by simp [two]⟩

end
end Verif
