import Verif.Lemmas.Propose
import Verif.Props.Dist
/-!
Properties of the emissions (noise models): C42, C43, C44.
-/
namespace Verif
noncomputable section
open Spec

/-! ### C42: SimpleStringEmission counts edits consistently -/

/-- Incorporating a pair records exactly max(0, |dirty| - |clean|) insertions and max(0, |clean| - |dirty|) deletions (natural
number subtraction is truncated at zero), counts one pair, and leaves the hyperparameters alone; it terminates for all strings. -/
theorem C42_edit_counts (s : SimpleString.St) (clean dirty : List Char) :
    ∃ s', SimpleStringEmission.incW s (clean, dirty) 1 = .ok s' ∧ s'.N = s.N + 1 ∧
      s'.ins.s = s.ins.s + ((dirty.length - clean.length : Nat) : Int) ∧
      s'.del.s = s.del.s + ((clean.length - dirty.length : Nat) : Int) ∧
      s'.ins.alpha = s.ins.alpha ∧ s'.ins.beta = s.ins.beta ∧ s'.del.alpha = s.del.alpha ∧ s'.del.beta = s.del.beta ∧
      s'.sub.alpha = s.sub.alpha ∧ s'.sub.beta = s.sub.beta := by
  refine ⟨_, rfl, ?_⟩
  rw [SimpleString.incorporate_one]
  obtain ⟨h1, h2⟩ := SimpleString.tally_lengths clean dirty
  simp only [SimpleString.St.add, BetaBernoulli.add, h1, h2, one_mul]
  exact ⟨trivial, trivial, trivial, trivial, trivial, trivial, trivial, trivial, trivial⟩

/-- Every clean character is tested for deletion once; the substitution coin is tossed once per character pair, that is
min(|clean|, |dirty|) times; at most that many substitutions are recorded. -/
theorem C42_tosses (s : SimpleString.St) (clean dirty : List Char) :
    ∃ s', SimpleStringEmission.incW s (clean, dirty) 1 = .ok s' ∧
      s'.del.N = s.del.N + clean.length ∧ s'.sub.N = s.sub.N + min clean.length dirty.length ∧
      s.sub.s ≤ s'.sub.s ∧ s'.sub.s ≤ s.sub.s + min clean.length dirty.length := by
  refine ⟨_, rfl, ?_⟩
  rw [SimpleString.incorporate_one]
  obtain ⟨h1, h2, h3, h4⟩ := SimpleString.tally_tosses clean dirty
  simp only [SimpleString.St.add, BetaBernoulli.add, h1, h2, one_mul]
  refine ⟨by push_cast; rfl, by push_cast; rfl, by omega, by omega⟩

/-- Unincorporating the pair restores the state, whatever the state. -/
theorem C42_undo (s : SimpleString.St) (x : List Char × List Char) :
    ∃ s', SimpleStringEmission.incW s x 1 = .ok s' ∧ SimpleStringEmission.incW s' x (-1) = .ok s :=
  ⟨_, rfl, congrArg Except.ok (SimpleString.undo s x)⟩

/-- "cat" misspelt as "carts": two insertions, no deletion. -/
example : ∃ s', SimpleStringEmission.incW {} ("cat".toList, "carts".toList) 1 = .ok s' ∧ s'.ins.s = 2 ∧ s'.del.s = 0 := by
  obtain ⟨s', h1, _, h2, h3, _⟩ := C42_edit_counts {} "cat".toList "carts".toList
  exact ⟨s', h1, h2, h3⟩

/-! ### C43: emissions are lawful distributions -/

/-- The emissions that undo: incorporating an acceptable pair and unincorporating it restores the state, and `logp` does not
change it. -/
theorem C43_round_trip :
    BitFlip.ops.RoundTrip (fun x => x.1 ≠ x.2) ∧ (∀ V, (IdentityEmission V).ops.RoundTrip (fun _ => True)) ∧
    (∀ z, (GaussianEmission z).ops.RoundTrip (fun _ => True)) ∧
    (∀ k : Nat, (CategoricalEmission k).ops.RoundTrip (fun x => (0 ≤ x.1 ∧ x.1 < k) ∧ 0 ≤ x.2 ∧ x.2 < k)) ∧
    SimpleStringEmission.ops.RoundTrip (fun _ => True) ∧
    (Sometimes BitFlip).ops.RoundTrip (fun x => x.1 = x.2 ∨ x.1 ≠ x.2) ∧
    ∀ z, (Sometimes (GaussianEmission z)).ops.RoundTrip (fun x => x.1 = x.2 ∨ True) :=
  ⟨BitFlip.exact.roundTrip, fun V => (IdentityEmission.exact V).roundTrip, fun z => (GaussianEmission.exact z).roundTrip,
    fun k => (CategoricalEmission.exact k).roundTrip, SimpleString.exact.roundTrip,
    (Sometimes.exact BitFlip.exact).roundTrip, fun z => (Sometimes.exact (GaussianEmission.exact z)).roundTrip⟩

/-- Their state depends only on the multiset of pairs they hold. -/
theorem C43_exchangeable :
    BitFlip.ops.Exchangeable (fun x => x.1 ≠ x.2) ∧ (∀ V, (IdentityEmission V).ops.Exchangeable (fun _ => True)) ∧
    (∀ z, (GaussianEmission z).ops.Exchangeable (fun _ => True)) ∧
    (∀ k : Nat, (CategoricalEmission k).ops.Exchangeable (fun x => (0 ≤ x.1 ∧ x.1 < k) ∧ 0 ≤ x.2 ∧ x.2 < k)) ∧
    SimpleStringEmission.ops.Exchangeable (fun _ => True) ∧
    (Sometimes BitFlip).ops.Exchangeable (fun x => x.1 = x.2 ∨ x.1 ≠ x.2) ∧
    ∀ z, (Sometimes (GaussianEmission z)).ops.Exchangeable (fun x => x.1 = x.2 ∨ True) :=
  ⟨BitFlip.exact.exchangeable, fun V => (IdentityEmission.exact V).exchangeable, fun z => (GaussianEmission.exact z).exchangeable,
    fun k => (CategoricalEmission.exact k).exchangeable, SimpleString.exact.exchangeable,
    (Sometimes.exact BitFlip.exact).exchangeable, fun z => (Sometimes.exact (GaussianEmission.exact z)).exchangeable⟩

/-- No legal history of them fails, and `N` is the number of pairs held. -/
theorem C43_total :
    BitFlip.ops.Total (fun x => x.1 ≠ x.2) ∧ (∀ V, (IdentityEmission V).ops.Total (fun _ => True)) ∧
    (∀ z, (GaussianEmission z).ops.Total (fun _ => True)) ∧
    (∀ k : Nat, (CategoricalEmission k).ops.Total (fun x => (0 ≤ x.1 ∧ x.1 < k) ∧ 0 ≤ x.2 ∧ x.2 < k)) ∧
    SimpleStringEmission.ops.Total (fun _ => True) ∧
    (Sometimes BitFlip).ops.Total (fun x => x.1 = x.2 ∨ x.1 ≠ x.2) ∧
    ∀ z, (Sometimes (GaussianEmission z)).ops.Total (fun x => x.1 = x.2 ∨ True) :=
  ⟨BitFlip.lawful.total, fun V => (IdentityEmission.lawful V).total, fun z => (GaussianEmission.lawful z).total,
    fun k => (CategoricalEmission.lawful k).total, SimpleString.lawful.total,
    (Sometimes.lawful BitFlip.lawful).total, fun z => (Sometimes.lawful (GaussianEmission.lawful z)).total⟩

/-- Their `logp` is the score after incorporating the pair minus the score before. -/
theorem C43_score_ratio :
    BitFlip.ops.ScoreRatio (fun x => x.1 ≠ x.2) ∧ (∀ V, (IdentityEmission V).ops.ScoreRatio (fun _ => True)) ∧
    (∀ z, (GaussianEmission z).ops.ScoreRatio (fun _ => True)) ∧
    (∀ k : Nat, (CategoricalEmission k).ops.ScoreRatio (fun x => (0 ≤ x.1 ∧ x.1 < k) ∧ 0 ≤ x.2 ∧ x.2 < k)) ∧
    SimpleStringEmission.ops.ScoreRatio (fun _ => True) ∧
    (Sometimes BitFlip).ops.ScoreRatio (fun x => x.1 = x.2 ∨ x.1 ≠ x.2) ∧
    ∀ z, (Sometimes (GaussianEmission z)).ops.ScoreRatio (fun x => x.1 = x.2 ∨ True) :=
  ⟨BitFlip.coherent.scoreRatio, fun V => (IdentityEmission.coherent V).scoreRatio, fun z => (GaussianEmission.coherent z).scoreRatio,
    fun k => (CategoricalEmission.coherent k).scoreRatio, SimpleString.coherent.scoreRatio,
    (Sometimes.coherent BitFlip.coherent).scoreRatio, fun z => (Sometimes.coherent (GaussianEmission.coherent z)).scoreRatio⟩

/-- `Sometimes` (without the option dirty_can_equal_clean) preserves all of this, for every base emission that has it. -/
theorem C43_sometimes {V : Type} [DecidableEq V] {W : WEmis V} {supp : V × V → Prop} (L : Lawful W.ops.toDistOps supp)
    (E : L.Exact) (C : Coherent L) :
    (Sometimes W).ops.RoundTrip (fun x => x.1 = x.2 ∨ supp x) ∧ (Sometimes W).ops.Exchangeable (fun x => x.1 = x.2 ∨ supp x) ∧
    (Sometimes W).ops.Total (fun x => x.1 = x.2 ∨ supp x) ∧ (Sometimes W).ops.ScoreRatio (fun x => x.1 = x.2 ∨ supp x) :=
  ⟨(Sometimes.exact E).roundTrip, (Sometimes.exact E).exchangeable, (Sometimes.lawful L).total, (Sometimes.coherent C).scoreRatio⟩

/-- A legal history of a sometimes-bitflip emission. -/
theorem bitflip_history : remaining (V := Bool × Bool) (fun x => x.1 = x.2 ∨ x.1 ≠ x.2)
    [.inc (true, false), .inc (true, true), .trans [5, 6], .eval (false, true), .dec (true, false)] 0 = some {(true, true)} := by
  have h : ∀ x : Bool × Bool, x.1 = x.2 ∨ x.1 ≠ x.2 := fun x => em _
  unfold remaining; rw [if_pos (h _)]
  unfold remaining; rw [if_pos (h _)]
  unfold remaining; unfold remaining; rw [if_pos (h _)]
  unfold remaining; rw [if_pos (by simp)]
  unfold remaining
  rw [Multiset.cons_swap]
  have : ∀ (i : DecidableEq (Bool × Bool)) (a b : Bool × Bool), (a ::ₘ b ::ₘ 0).erase a = {b} := by intro i a b; simp
  rw [this]

/-- The hypotheses are met: the emission reaches a state that holds a pair. -/
example : ∃ s, (Sometimes BitFlip).ops.Holds (fun x => x.1 = x.2 ∨ x.1 ≠ x.2) {(true, true)} s := by
  obtain ⟨s, h, _⟩ := C43_total.2.2.2.2.2.1 [] _ _ bitflip_history
  exact ⟨s, [], _, bitflip_history, h⟩

/-- the coin's two probabilities sum to one -/
theorem coin_sum {d : BetaBernoulli} (h1 : 0 < d.s + d.alpha) (h2 : 0 < d.N - d.s + d.beta) :
    Real.exp (d.logp true) + Real.exp (d.logp false) = 1 := by
  have h3 : 0 < d.N + d.alpha + d.beta := by linarith
  simp only [BetaBernoulli.logp, if_true, Bool.false_eq_true, if_false]
  rw [Real.exp_sub, Real.exp_sub, Real.exp_log h1, Real.exp_log h2, Real.exp_log h3]
  field_simp
  ring

theorem coin_sum_rep {h : BetaBernoulli.PosH} {m : Multiset Bool} :
    Real.exp ((BetaBernoulli.rep h.1 m).logp true) + Real.exp ((BetaBernoulli.rep h.1 m).logp false) = 1 := by
  have hc : (m.count true : ℝ) ≤ Multiset.card m := by exact_mod_cast Multiset.count_le_card _ _
  have h0 : (0 : ℝ) ≤ m.count true := by positivity
  have := h.2.1
  have := h.2.2
  apply coin_sum <;> simp only [BetaBernoulli.rep] <;> push_cast <;> linarith

/-- Sometimes-bitflip noise is normalised: given the clean value, the probabilities of the two dirty values sum to one. -/
theorem C43_bitflip_normalised (clean : Bool) :
    NoiseNormalised (Sometimes BitFlip).ops.toDistOps (fun x => x.1 = x.2 ∨ x.1 ≠ x.2) Finset.univ clean := by
  intro m s hs
  obtain ⟨h, hr⟩ := (Sometimes.lawful BitFlip.lawful).holds hs
  obtain ⟨_, h2, h3⟩ : Sometimes.Rep BitFlip.lawful h m s := hr
  replace h2 : (s : Sometimes.St BitFlip).bb = BetaBernoulli.rep h.1.1 (Sometimes.tosses m) := h2
  refine ⟨fun d => (s : Sometimes.St BitFlip).bb.logp (decide (clean ≠ d)), ?_, ?_⟩
  · intro d _
    by_cases he : clean = d
    · refine ⟨s, ?_⟩
      simp [WEmis.ops, Sometimes, Sometimes.logp, he]
    · refine ⟨({ (s : Sometimes.St BitFlip) with be := (s : Sometimes.St BitFlip).be } : Sometimes.St BitFlip), ?_⟩
      have := BitFlip.logp_eq (x := (clean, d)) he (s : Sometimes.St BitFlip).be
      simp [WEmis.ops, Sometimes, Sometimes.logp, he, this, bind, Except.bind]
  · rw [h2]
    cases clean <;> simp [coin_sum_rep]
    rw [add_comm]; exact coin_sum_rep

/-- Categorical noise is normalised: given a clean state, the probabilities of the `k` dirty states sum to one. -/
theorem C43_categorical_normalised (k : Nat) (clean : Int) (hc : 0 ≤ clean ∧ clean < k) :
    NoiseNormalised (CategoricalEmission k).ops.toDistOps (fun x => (0 ≤ x.1 ∧ x.1 < k) ∧ 0 ≤ x.2 ∧ x.2 < k)
      ((Finset.range k).image Int.ofNat) clean := by
  intro m s hs
  obtain ⟨a, hr⟩ := (CategoricalEmission.lawful k).holds hs
  obtain ⟨rfl, hm⟩ : s = CategoricalEmission.rep k a.1 m ∧ _ := hr
  have ha := a.2 clean.toNat
  set M := CategoricalEmission.dirty m clean.toNat with hM
  refine ⟨fun d => Real.log (a.1 clean.toNat + M.count d) - Real.log (Multiset.card M + a.1 clean.toNat * k), ?_, ?_⟩
  · intro d hd
    obtain ⟨i, hi, rfl⟩ := Finset.mem_image.mp hd
    refine ⟨CategoricalEmission.rep k a.1 m, ?_⟩
    show (CategoricalEmission.logp _ _).bind _ = _
    have hs : CategoricalEmission.Supp k (clean, Int.ofNat i) :=
      ⟨hc, Int.natCast_nonneg _, by simpa using Finset.mem_range.mp hi⟩
    rw [CategoricalEmission.logp_rep hs]
    rfl
  · rw [Finset.sum_image (fun x _ y _ h => Int.ofNat.inj h)]
    have hk : (0 : ℝ) < k := by
      have : 0 < k := by omega
      exact_mod_cast this
    have hpos : 0 < (Multiset.card M : ℝ) + a.1 clean.toNat * k := by positivity
    have : ∀ i ∈ Finset.range k, Real.exp (Real.log (a.1 clean.toNat + M.count (Int.ofNat i)) -
        Real.log (Multiset.card M + a.1 clean.toNat * k)) =
        (a.1 clean.toNat + M.count (i : Int)) / (Multiset.card M + a.1 clean.toNat * k) := by
      intro i _
      rw [Real.exp_sub, Real.exp_log (by positivity), Real.exp_log hpos]
      rfl
    rw [Finset.sum_congr rfl this, ← Finset.sum_div, Finset.sum_add_distrib, sum_count_range M]
    · simp only [Finset.sum_const, Finset.card_range, nsmul_eq_mul]
      rw [div_eq_one_iff_eq hpos.ne']; ring
    · intro x hx
      obtain ⟨p, hp, rfl⟩ := Multiset.mem_map.mp hx
      exact (hm p (Multiset.mem_of_mem_filter hp)).2

/-- The simple string noise is *not* a probability: a fresh emission gives the one-character insertion "" → "a" a log
probability of log(95/2), which is positive.  (The code adds, instead of subtracting, the log of the number of characters for
every random character.) -/
theorem C43_simple_string_above_one :
    ∃ lp s, SimpleStringEmission.logp {} ([], ['a']) = .ok (lp, s) ∧ lp = Real.log 95 - Real.log 2 ∧ 0 < lp := by
  refine ⟨_, _, congrArg Except.ok (SimpleString.logp_eq {} ([], ['a'])), ?_⟩
  have e : SimpleString.incorporate {} ([], ['a']) 1 = { N := 1, ins := { N := 1, s := 1 } } := by
    rw [SimpleString.incorporate_one]
    simp [SimpleString.tally, SimpleString.St.add, BetaBernoulli.add]
  rw [e]
  simp only [SimpleString.logpScore, BetaBernoulli.logpScore, lbeta]
  have g1 : lgamma 1 = 0 := by simp [lgamma]
  have g2 : lgamma 2 = 0 := by simp [lgamma]
  have g3 : lgamma 3 = Real.log 2 := by
    rw [show (3 : ℝ) = 2 + 1 by norm_num, lgamma_add_one (by norm_num), g2, add_zero]
  norm_num [g1, g2, g3]
  have := Real.log_lt_log (x := 2) (y := 95) (by norm_num) (by norm_num)
  constructor <;> linarith

/-- IdentityEmission also gives log probability 0 to a change, which it never makes. -/
theorem C43_identity_accepts_changes : ∃ s, (IdentityEmission Bool).logp (0 : ℝ) (true, false) = .ok (0, s) := ⟨_, rfl⟩

/-- the state of a two-state sometimes-categorical emission whose data are pairs (0, 0) -/
def stay (n c : ℝ) : Sometimes.St (CategoricalEmission 2) where
  N := n
  bb := { N := n }
  be := ({ N := c, dists := [{ N := c, counts := [c, 0] }, { counts := [0, 0] }] } : CategoricalEmission.St)

theorem stay_step {n c w p : ℝ} (hn : 0 ≤ n) (hc : 0 ≤ c) (hw : w = 1 ∨ w = -1) (hp : p = (1 + c) / ((n + 2) * (c + 2))) :
    (Sometimes (CategoricalEmission 2) true).incW (stay n c) (0, 0) w = .ok (stay (n + w) (c + p * w)) := by
  have hp0 : 0 < p := by rw [hp]; positivity
  have hp1 : p < 1 := by
    rw [hp, div_lt_one (by positivity)]
    nlinarith [mul_nonneg hn hc]
  have hlp : (CategoricalEmission 2).logp (stay n c).be (0, 0) = .ok (Real.log (1 + c) - Real.log (c + 2), (stay n c).be) := by
    simp [CategoricalEmission, CategoricalEmission.logp, CategoricalEmission.row, stay, idxR, DirichletCategorical.logp,
      DirichletCategorical.inRange, assertR, bind, Except.bind]
  have hexp : Real.exp ((stay n c).bb.logp true + (Real.log (1 + c) - Real.log (c + 2))) = p := by
    simp only [stay, BetaBernoulli.logp, if_true]
    rw [Real.exp_add, Real.exp_sub, Real.exp_sub, Real.exp_log, Real.exp_log, Real.exp_log, Real.exp_log, hp]
    · push_cast; field_simp; ring
    all_goals (try push_cast); (try positivity)
  have hinc : (CategoricalEmission 2).incW (stay n c).be (0, 0) (p * w) = .ok (stay (n + w) (c + p * w)).be := by
    simp [CategoricalEmission, CategoricalEmission.incorporate, CategoricalEmission.row, stay, idxR, DirichletCategorical.incorporate,
      DirichletCategorical.inRange, assertR, bind, Except.bind]
  have ht1 : truncInt (((0 : Int) : ℝ) + p * w * 1) = 0 := by
    unfold truncInt
    rcases hw with rfl | rfl
    · rw [if_pos (by push_cast; linarith), Int.floor_eq_iff]; push_cast; constructor <;> linarith
    · rw [if_neg (by push_cast; linarith), Int.ceil_eq_iff]; push_cast; constructor <;> linarith
  have ht2 : truncInt (((0 : Int) : ℝ) + (1 - p) * w * 0) = 0 := by
    have := truncInt_int 0
    simpa using this
  have hbb : ((stay n c).bb.incorporate true (p * w)).incorporate false ((1 - p) * w) = (stay (n + w) (c + p * w)).bb := by
    simp only [BetaBernoulli.incorporate, stay, if_true, Bool.false_eq_true, if_false, ht1, ht2]
    congr 1; ring
  simp only [Sometimes, Sometimes.incorporate, ne_eq, not_true_eq_false, if_false, if_true, hlp, bind, Except.bind, hexp, hinc, hbb]
  rfl

/-- With the option dirty_can_equal_clean (the emission "sometimes_categorical"), unincorporating does not undo incorporating:
on a fresh two-state emission, incorporating the pair (0, 0) and unincorporating it leaves other weights behind. -/
theorem C43_sometimes_categorical_no_round_trip :
    ∃ s1 s2 : Sometimes.St (CategoricalEmission 2), (Sometimes (CategoricalEmission 2) true).incW {} (0, 0) 1 = .ok s1 ∧
      (Sometimes (CategoricalEmission 2) true).incW s1 (0, 0) (-1) = .ok s2 ∧
      s2 ≠ {} := by
  have h0 : (({} : Sometimes.St (CategoricalEmission 2))) = stay 0 0 := rfl
  refine ⟨stay 1 (1 / 4), stay (1 + -1) (1 / 4 + 5 / 27 * -1), ?_, ?_, ?_⟩
  rotate_left
  · exact stay_step (n := 1) (c := 1 / 4) (p := 5 / 27) (by norm_num) (by norm_num) (.inr rfl) (by norm_num)
  · intro h
    rw [h0] at h
    have h1 : (stay (1 + -1) (1 / 4 + 5 / 27 * -1)).be = (stay 0 0).be := by rw [h]
    have h2 := congrArg CategoricalEmission.St.N h1
    simp only [stay] at h2
    norm_num at h2
  · rw [h0, stay_step (p := 1 / 4) (le_refl _) (le_refl _) (.inl rfl) (by norm_num)]
    norm_num

/-! ### C44: propose_clean -/

/-- GaussianEmission proposes the mean of the observations. -/
theorem C44_gaussian (z) (s : Gaussian.St) (l : List ℝ) (hl : l ≠ []) (t : Tape) :
    (GaussianEmission z).propose s l t = .ok (l.sum / l.length, t) := by
  have h := Gaussian.meanLoop_eq l 0 0
  have hn : (l.length : ℝ) ≠ 0 := by simpa using hl
  show Except.ok (Gaussian.meanLoop 0 0 l, t) = _
  have h2 : Gaussian.meanLoop 0 0 l = l.sum / l.length := eq_div_of_mul_eq hn (by simpa using h)
  rw [h2]

example : (GaussianEmission (fun t => (0, t))).propose {} [1, 2, 6] [] = .ok (3, []) := by
  rw [C44_gaussian _ _ _ (by simp)]; norm_num

/-- Sometimes proposes a most frequent observation. -/
theorem C44_sometimes {V : Type} [DecidableEq V] (W : WEmis V) (f : Bool) (s : Sometimes.St W) (l : List V) (hl : l ≠ [])
    (t : Tape) : ∃ x, (Sometimes W f).propose s l t = .ok (x, t) ∧ IsMode l x := by
  cases l with
  | nil => exact absurd rfl hl
  | cons c cs => exact ⟨_, rfl, modeLoop_mode hl c⟩

example : (Sometimes BitFlip).propose {} [false, true, true] [] = .ok (true, []) := rfl

/-- CategoricalEmission proposes a clean state under which the observations together are most likely. -/
theorem C44_categorical (k : Nat) (hk : 0 < k) (m s) (hs : (CategoricalEmission k).ops.Holds
      (fun x => (0 ≤ x.1 ∧ x.1 < k) ∧ 0 ≤ x.2 ∧ x.2 < k) m s)
    (l : List Int) (hl : ∀ d ∈ l, 0 ≤ d ∧ d < k) (t : Tape) :
    ∃ (lp : Int → Int → ℝ) (b : Int),
      (∀ c d : Int, 0 ≤ c → c < k → d ∈ l → ∃ s', (CategoricalEmission k).logp s (c, d) = .ok (lp c d, s')) ∧
      (CategoricalEmission k).propose s l t = .ok (b, t) ∧ 0 ≤ b ∧ b < k ∧
      ∀ c : Int, 0 ≤ c → c < k → (l.map (lp c)).sum ≤ (l.map (lp b)).sum := by
  obtain ⟨a, hr⟩ := (CategoricalEmission.lawful k).holds hs
  obtain ⟨rfl, hm⟩ : s = CategoricalEmission.rep k a.1 m ∧ _ := hr
  let lp : Int → Int → ℝ := fun c d => Real.log (a.1 c.toNat + (CategoricalEmission.dirty m c.toNat).count d) -
    Real.log (Multiset.card (CategoricalEmission.dirty m c.toNat) + a.1 c.toNat * k)
  have hlp : ∀ c d : Int, 0 ≤ c → c < k → d ∈ l → CategoricalEmission.logp (CategoricalEmission.rep k a.1 m) (c, d) = .ok (lp c d) :=
    fun c d h1 h2 hd => CategoricalEmission.logp_rep ⟨⟨h1, h2⟩, hl d hd⟩
  have hlen : (CategoricalEmission.rep k a.1 m).dists.length = k := by
    simp [CategoricalEmission.rep, CategoricalEmission.rows]
  have htot : ∀ (i : Nat) (d : DirichletCategorical), (CategoricalEmission.rep k a.1 m).dists[i]? = some d →
      CategoricalEmission.total d l = .ok ((l.map (lp i)).sum) := by
    intro i d hd
    have hi : i < k := by
      by_contra h
      rw [List.getElem?_eq_none (by omega)] at hd; cases hd
    have hrow : CategoricalEmission.row (CategoricalEmission.rep k a.1 m) i = .ok d := by
      unfold CategoricalEmission.row
      rw [if_neg (by omega)]
      simp [idxR, hd]
    have : ∀ l' : List Int, (∀ x ∈ l', x ∈ l) → CategoricalEmission.total d l' = .ok ((l'.map (lp i)).sum) := by
      intro l'
      induction l' with
      | nil => intro _; rfl
      | cons x xs ih =>
        intro hx
        have h1 := hlp i x (by omega) (by omega) (hx x (by simp))
        unfold CategoricalEmission.logp at h1
        rw [hrow] at h1
        replace h1 : d.logp x = .ok (lp i x) := h1
        simp [CategoricalEmission.total, h1, ih (fun y hy => hx y (by simp [hy])), bind, Except.bind]
    exact this l (fun _ h => h)
  obtain ⟨r, h1, h2, h3⟩ := CategoricalEmission.bestLoop_spec l _ (fun i => (l.map (lp i)).sum) htot
    (CategoricalEmission.rep k a.1 m).dists 0 0 none (by simp) (by simp) (by simp) (by
      intro h; rw [h] at hlen; simp at hlen; omega)
  rw [hlen] at h2 h3
  refine ⟨lp, r, ?_, ?_, by omega, by omega, ?_⟩
  · intro c d hc1 hc2 hd
    refine ⟨CategoricalEmission.rep k a.1 m, ?_⟩
    · show (CategoricalEmission.logp _ _).bind _ = _
      rw [hlp c d hc1 hc2 hd]
      rfl
  · show (CategoricalEmission.bestLoop _ _ _ _ _).bind _ = _
    rw [h1]
    rfl
  · intro c hc1 hc2
    have := h3 c.toNat (by omega)
    simpa [Int.toNat_of_nonneg hc1] using this

/-- A fresh emission of three states meets the hypotheses. -/
example : ∃ b, (CategoricalEmission 3).propose (CategoricalEmission 3).fresh [2, 2, 0] [] = .ok (b, []) ∧ 0 ≤ b ∧ b < 3 := by
  obtain ⟨s, h, _⟩ := (CategoricalEmission.lawful 3).total [] [] 0 rfl
  have hs : (CategoricalEmission 3).ops.Holds (fun x => (0 ≤ x.1 ∧ x.1 < ((3 : Nat) : Int)) ∧ 0 ≤ x.2 ∧ x.2 < ((3 : Nat) : Int)) 0
      (CategoricalEmission 3).fresh := ⟨[], [], rfl, rfl⟩
  obtain ⟨_, b, _, h1, h2, h3, _⟩ := C44_categorical 3 (by norm_num) 0 _ hs [2, 2, 0] (by simp) []
  exact ⟨b, h1, h2, h3⟩

/-- SimpleStringEmission proposes the string that wins the vote at every position, where a string that is too short votes for the
end of the string (NUL): every character of the proposal is a most frequent one of its position and not NUL, and after its last
character the end is a most frequent vote. -/
theorem C44_simple_string (s : SimpleString.St) (l : List (List Char)) (hl : l ≠ []) (t : Tape) :
    ∃ p, SimpleStringEmission.propose s l t = .ok (p, t) ∧
      (∀ j (h : j < p.length), p[j] ≠ Char.ofNat 0 ∧ IsMode (l.map (fun x => x.getD j (Char.ofNat 0))) p[j]) ∧
      IsMode (l.map (fun x => x.getD p.length (Char.ofNat 0))) (Char.ofNat 0) := by
  obtain ⟨h1, h2⟩ := SimpleString.voteLoop_spec hl (SimpleString.maxLen l + 1) 0 (by omega)
  refine ⟨_, rfl, ?_, ?_⟩
  · intro j h
    obtain ⟨c, h3, h4, h5⟩ := h1 j h
    rw [Nat.zero_add] at h5
    have : (SimpleString.propose l)[j] = c := by
      rw [← Option.some.injEq, ← List.getElem?_eq_getElem]; exact h3
    rw [this]
    exact ⟨h4, h5⟩
  · rw [Nat.zero_add] at h2; exact h2

/-- Consequently a string that is observed by a strict majority is proposed. -/
theorem C44_simple_string_majority (s : SimpleString.St) (l : List (List Char)) (t : Tape) (x : List Char)
    (hx : ∀ c ∈ x, c ≠ Char.ofNat 0) (hmaj : l.length < 2 * l.count x) :
    SimpleStringEmission.propose s l t = .ok (x, t) := by
  have hl : l ≠ [] := by rintro rfl; simp at hmaj
  have key : ∀ j c, IsMode (l.map (fun x => x.getD j (Char.ofNat 0))) c → c = x.getD j (Char.ofNat 0) := by
    intro j c hc
    by_contra hne
    have h1 := hc.2 (x.getD j (Char.ofNat 0))
    have h2 : l.count x ≤ (l.map (fun x => x.getD j (Char.ofNat 0))).count (x.getD j (Char.ofNat 0)) := List.count_le_count_map (f := fun x : List Char => x.getD j (Char.ofNat 0))
    have h3 : (l.map (fun x => x.getD j (Char.ofNat 0))).count c + (l.map (fun x => x.getD j (Char.ofNat 0))).count (x.getD j (Char.ofNat 0))
        ≤ (l.map (fun x => x.getD j (Char.ofNat 0))).length := by
      generalize l.map (fun x => x.getD j (Char.ofNat 0)) = L
      generalize x.getD j (Char.ofNat 0) = d at hne
      induction L with
      | nil => simp
      | cons a L ih =>
        simp only [List.count_cons, List.length_cons, beq_iff_eq]
        split <;> split
        · rename_i p q; exact absurd (p.symm.trans q) hne
        all_goals omega
    rw [List.length_map] at h3
    omega
  obtain ⟨p, h1, h2, h3⟩ := C44_simple_string s l hl t
  rw [h1]
  have hlen : x.length ≤ p.length := by
    by_contra h
    have := key _ _ h3
    rw [List.getD_eq_getElem?_getD, List.getElem?_eq_getElem (by omega)] at this
    exact hx _ (List.getElem_mem _) this.symm
  have hlen' : p.length ≤ x.length := by
    by_contra h
    obtain ⟨h4, h5⟩ := h2 x.length (by omega)
    have := key _ _ h5
    rw [List.getD_eq_getElem?_getD, List.getElem?_eq_none (le_refl _)] at this
    exact h4 this
  have : p = x := by
    apply List.ext_getElem (by omega)
    intro j hj hj'
    have := key _ _ (h2 j hj).2
    rw [List.getD_eq_getElem?_getD, List.getElem?_eq_getElem hj'] at this
    exact this
  rw [this]

example : SimpleStringEmission.propose {} ["cat".toList, "cart".toList, "cat".toList] [] = .ok ("cat".toList, []) :=
  C44_simple_string_majority _ _ _ _ (by decide) (by decide)

/-- IdentityEmission proposes the first observation, BitFlip the negation of the first observation: the only clean value that
each can turn into it. -/
theorem C44_deterministic :
    (∀ (V : Type) (s : ℝ) (c : V) (cs : List V) (t : Tape), (IdentityEmission V).propose s (c :: cs) t = .ok (c, t) ∧
      (IdentityEmission V).corrupt s c t = .ok (c, t)) ∧
    ∀ (s : ℝ) (c : Bool) (cs : List Bool) (t : Tape), BitFlip.propose s (c :: cs) t = .ok (!c, t) ∧
      BitFlip.corrupt s (!c) t = .ok (c, t) :=
  ⟨fun _ _ _ _ _ => ⟨rfl, rfl⟩, fun s c cs t => ⟨rfl, by simp [BitFlip]⟩⟩

/-- Without observations they, and Sometimes, read past the end of the vector. -/
theorem C44_empty (t : Tape) : (∀ (V : Type) (s : ℝ), (IdentityEmission V).propose s [] t = .error .ub) ∧
    (∀ s : ℝ, BitFlip.propose s [] t = .error .ub) ∧
    ∀ (V : Type) [DecidableEq V] (W : WEmis V) (f : Bool) (s : Sometimes.St W), (Sometimes W f).propose s [] t = .error .ub :=
  ⟨fun _ _ => rfl, fun _ => rfl, fun _ _ _ _ _ => rfl⟩

end
end Verif
