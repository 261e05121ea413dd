import Verif.Model.SampleLaw
import Verif.Lemmas.DistMore
import Verif.Props.Dist
import Verif.Props.CRP
/-! ### C93: samples are drawn with the probabilities that `logp` reports -/
namespace Verif
noncomputable section

theorem discrete_pos {ws : List ℝ} (hne : ws ≠ []) (h : ws.sum ≠ 0) : choiceProbs ws = .ok (ws.map (fun w => w / ws.sum)) := by
  simp [choiceProbs, discrete, hne, h]

/-- **C93**, `BetaBernoulli`. -/
theorem C93_beta_bernoulli (m : Multiset Bool) (s : BetaBernoulli) (hs : BetaBernoulli.ops.Holds (fun _ => True) m s) :
    s.sampleLaw = .ok [(false, Real.exp (s.logp false)), (true, Real.exp (s.logp true))] := by
  have h := C14_beta_bernoulli m s hs
  unfold BetaBernoulli.sampleLaw
  dsimp only
  have hsum : [1 - Real.exp (s.logp true), Real.exp (s.logp true)].sum = 1 := by simp
  rw [discrete_pos (by simp) (by rw [hsum]; exact one_ne_zero), hsum, show Real.exp (s.logp false) = 1 - Real.exp (s.logp true) by linarith]
  simp [bind, Except.bind]

theorem DirichletCategorical.sampleLaw_of {a : ℝ} {k : Nat} {c : Nat → ℝ} {n : ℝ} (ha : 0 < a) (hk : 0 < k) (hn : 0 ≤ n) (hsum : ∑ i ∈ Finset.range k, c i = n) :
    (of a k c n).sampleLaw = .ok ((List.range k).map (fun i => (c i + a) / (n + a * k))) := by
  have hk' : (0 : ℝ) < k := by exact_mod_cast hk
  have hs : ((of a k c n).counts.map (fun y => y + (of a k c n).alpha)).sum = n + a * k := by
    show (((List.range k).map c).map (fun y => y + a)).sum = _
    rw [List.map_map, ← hsum]
    show ((List.range k).map (fun i => c i + a)).sum = _
    rw [← List.sum_toFinset _ List.nodup_range, List.toFinset_range, Finset.sum_add_distrib]
    simp [mul_comm]
  unfold sampleLaw
  rw [discrete_pos (by simp [of]; omega) (by rw [hs]; positivity), hs]
  simp [of, Function.comp_def]

theorem exp_logp_of {a n c : ℝ} {k : Nat} (ha : 0 < a) (hk : 0 < k) (hn : 0 ≤ n) (hc : 0 ≤ c) :
    Real.exp (Real.log (a + c) - Real.log (n + a * k)) = (c + a) / (n + a * k) := by
  have hk' : (0 : ℝ) < k := by exact_mod_cast hk
  rw [Real.exp_sub, Real.exp_log (by positivity), Real.exp_log (by positivity), add_comm a]

/-- **C93**, `DirichletCategorical`. -/
theorem C93_dirichlet_categorical {k : Nat} (hk : 0 < k) (m : Multiset Int) (s : DirichletCategorical)
    (hs : (DirichletCategorical.ops k).Holds (fun x => 0 ≤ x ∧ x < k) m s) :
    ∃ l : List ℝ, s.sampleLaw = .ok l ∧ l.length = k ∧ ∀ i < k, ∃ lp, s.logp i = .ok lp ∧ l[i]? = some (Real.exp lp) := by
  obtain ⟨⟨a, ha⟩, rfl, hm⟩ := (DirichletCategorical.lawful k).holds hs
  refine ⟨_, DirichletCategorical.sampleLaw_of ha hk (by positivity) (sum_count_range m hm), by simp, ?_⟩
  intro i hi
  refine ⟨_, DirichletCategorical.logp_of _ _ _ _ _ hi, ?_⟩
  rw [exp_logp_of ha hk (by positivity) (by positivity)]
  simp [hi]

/-- **C93**, `StringCat` with distinct strings. -/
theorem C93_stringcat {strings : List String} (hne : strings ≠ []) (hnd : strings.Nodup) (m : Multiset String) (s : StringCat)
    (hs : (StringCat.ops strings).Holds (· ∈ strings) m s) :
    ∃ l : List (String × ℝ), s.sampleLaw = .ok l ∧ l.map Prod.fst = strings ∧ ∀ x p, (x, p) ∈ l → ∃ lp, s.logp x = .ok lp ∧ p = Real.exp lp := by
  obtain ⟨⟨a, ha⟩, rfl, hm⟩ := (StringCat.lawful strings).holds hs
  have hk := List.length_pos_iff.2 hne
  have hsum : ∑ i ∈ Finset.range strings.length, ((m.map (fun s => (strings.idxOf s : Int))).count (i : Int) : ℝ) = Multiset.card (m.map (fun s => (strings.idxOf s : Int))) := by
    apply sum_count_range
    intro x hx
    rw [Multiset.mem_map] at hx
    obtain ⟨y, hy, rfl⟩ := hx
    exact StringCat.supp_idx (hm y hy)
  have hl := DirichletCategorical.sampleLaw_of ha hk (by positivity) hsum
  generalize hg : (List.range strings.length).map _ = ps at hl
  refine ⟨strings.zip ps, ?_, ?_, ?_⟩
  all_goals subst hg
  · unfold StringCat.sampleLaw
    show ((DirichletCategorical.of _ _ _ _).sampleLaw).bind _ = _
    rw [hl]
    rfl
  · rw [List.map_fst_zip (by simp)]
  · intro x p hp
    obtain ⟨i, hi, he⟩ := List.mem_iff_getElem.1 hp
    simp only [List.length_zip, List.length_map, List.length_range, min_self] at hi
    rw [List.getElem_zip] at he
    simp only [List.getElem_map, List.getElem_range, Prod.mk.injEq] at he
    obtain ⟨rfl, rfl⟩ := he
    refine ⟨_, StringCat.logp_rep (List.getElem_mem hi), ?_⟩
    rw [exp_logp_of ha hk (by positivity) (by positivity), hnd.idxOf_getElem, Multiset.card_map]

/-- **C93**, `CRP` with customers: the tables drawn are those to which `logp` gives a probability, each drawn with this probability. -/
theorem C93_crp {c : CRP} (hc : c.Reachable) (hN : 0 < c.N) :
    ∃ l : List (Int × ℝ), c.sampleLaw = .ok l ∧ (l.map Prod.fst).Nodup ∧ (∀ t, t ∈ l.map Prod.fst ↔ c.logp t ≠ ⊥) ∧
      ∀ t p, (t, p) ∈ l → ∃ lp : ℝ, c.logp t = lp ∧ p = Real.exp lp := by
  obtain ⟨new, hnew, hw, hsum⟩ := C03_tables_weights hc hN
  have ha : 0 < c.alpha := hc.alpha_pos
  have hd : (0 : ℝ) < c.N + c.alpha := by
    have : (0 : ℝ) < c.N := by exact_mod_cast hN
    linarith
  have hpos : ∀ t w, c.tablesWeights.find? t = some w → 0 < w := by
    intro t w h
    rw [hw] at h
    split at h
    · cases h; exact ha
    · split at h
      · cases h
      · rename_i h0
        cases h
        exact_mod_cast Nat.pos_of_ne_zero h0
  have hl : c.sampleLaw = .ok (c.tablesWeights.entries.map (fun e => (e.1, e.2 / (c.N + c.alpha)))) := by
    unfold CRP.sampleLaw
    dsimp only
    rw [discrete_pos (by intro h; rw [h] at hsum; simp only [List.sum_nil] at hsum; linarith) (by rw [hsum]; exact hd.ne'), hsum]
    simp only [bind, Except.bind]
    congr 1
    unfold FMap.keys FMap.vals
    rw [List.map_map, List.zip_map', ]
    rfl
  refine ⟨_, hl, ?_, ?_, ?_⟩
  · rw [List.map_map]
    exact c.tablesWeights.nodupKeys
  · intro t
    rw [List.map_map]
    show t ∈ c.tablesWeights.keys ↔ _
    rw [FMap.mem_keys]
    unfold CRP.logp
    cases h : c.tablesWeights.find? t with
    | none => simp
    | some w => simp
  · intro t p h
    obtain ⟨⟨t', w⟩, he, h⟩ := List.mem_map.1 h
    cases h
    have hf := FMap.mem_entries.1 he
    refine ⟨Real.log w - Real.log (c.N + c.alpha), by simp only [CRP.logp, hf], ?_⟩
    rw [Real.exp_sub, Real.exp_log (hpos _ _ hf), Real.exp_log hd]

/-- a `CRP` with customers -/
example : exampleCRP.Reachable ∧ 0 < exampleCRP.N := ⟨exampleCRP_reachable, by decide⟩

/-- **C93**: an empty `CRP` always draws table 0, but `logp` gives it the probability `1 / alpha`, which is not one unless `alpha` is. -/
theorem C93_crp_empty_false {c : CRP} (ha : 0 < c.alpha) (hN : c.N = 0) :
    c.sampleLaw = .ok [(0, 1)] ∧ ∃ lp : ℝ, c.logp 0 = lp ∧ Real.exp lp = 1 / c.alpha := by
  have ht : c.tablesWeights = (∅ : FMap Int ℝ).set 0 1 := by simp [CRP.tablesWeights, hN]
  refine ⟨?_, Real.log 1 - Real.log (c.N + c.alpha), ?_, ?_⟩
  · unfold CRP.sampleLaw
    dsimp only
    rw [ht]
    have hv : ((∅ : FMap Int ℝ).set 0 1).vals = [1] := rfl
    have hk : ((∅ : FMap Int ℝ).set 0 1).keys = [0] := rfl
    rw [hv, hk, discrete_pos (by simp) (by simp)]
    simp [bind, Except.bind]
  · simp only [CRP.logp, ht, FMap.find?_set_self]
  · rw [hN, Int.cast_zero, zero_add, Real.exp_sub, Real.exp_log one_pos, Real.exp_log ha]

/-- C93: distributions with data -/
example : (∃ s, BetaBernoulli.ops.Holds (fun _ => True) {true, false, true} s) ∧ (∃ s, (DirichletCategorical.ops 3).Holds (fun x => 0 ≤ x ∧ x < (3 : Nat)) {2, 0} s) ∧
    (∃ s, (StringCat.ops ["no", "yes"]).Holds (· ∈ ["no", "yes"]) {"yes"} s) ∧ ["no", "yes"].Nodup := by
  have h1 : remaining (fun _ => True) [.inc true, .inc false, .inc true] 0 = some ({true, false, true} : Multiset Bool) := by simp [remaining]
  have h2 : remaining (fun x : Int => 0 ≤ x ∧ x < (3 : Nat)) [.inc 0, .inc 2] 0 = some {2, 0} := by simp [remaining]
  have h3 : remaining (· ∈ ["no", "yes"]) [.inc "yes"] 0 = some {"yes"} := by simp [remaining]
  obtain ⟨s1, e1, _⟩ := BetaBernoulli.lawful.total [] _ _ h1
  obtain ⟨s2, e2, _⟩ := (DirichletCategorical.lawful 3).total [] _ _ h2
  obtain ⟨s3, e3, _⟩ := (StringCat.lawful ["no", "yes"]).total [] _ _ h3
  exact ⟨⟨s1, [], _, h1, e1⟩, ⟨s2, [], _, h2, e2⟩, ⟨s3, [], _, h3, e3⟩, by decide⟩

/-! #### Bigram -/

theorem sumR_ok {f : Nat → Res ℝ} {g : Nat → ℝ} : ∀ {l : List Nat}, (∀ i ∈ l, f i = .ok (g i)) → sumR f l = .ok ((l.map g).sum)
  | [], _ => rfl
  | i :: l, h => by
    have h1 := h i (by simp)
    have h2 := sumR_ok (l := l) (fun j hj => h j (by simp [hj]))
    simp only [sumR, h1, h2, bind, Except.bind, List.map_cons, List.sum_cons]

theorem sum_range_single {k i : Nat} (hi : i < k) {g : Nat → ℝ} (h : ∀ j < k, j ≠ i → g j = 0) : ((List.range k).map g).sum = g i := by
  rw [← List.sum_toFinset _ List.nodup_range, List.toFinset_range]
  exact Finset.sum_eq_single i (fun j hj hne => h j (Finset.mem_range.1 hj) hne) (fun h => absurd (Finset.mem_range.2 hi) h)

namespace Bigram
open DirichletCategorical (of)

/-- rows whose counts are those of transitions -/
def Tally (k : Nat) (f : Nat → Nat → ℝ) (g : Nat → ℝ) : Prop := (∀ i j, 0 ≤ f i j) ∧ (∀ i, 0 ≤ g i) ∧ ∀ i < k, ∑ j ∈ Finset.range k, f i j = g i

theorem Tally.bump {k f g i j} (h : Tally k f g) (hj : j < k) : Tally k (bump f i j 1) (bump1 g i 1) := by
  refine ⟨fun i' j' => ?_, fun i' => ?_, fun i' hi' => ?_⟩
  · rw [bump_apply]; have := h.1 i' j'; split <;> linarith
  · rw [bump1_apply]; have := h.2.1 i'; split <;> linarith
  · simp only [bump_apply, bump1_apply, Finset.sum_add_distrib, h.2.2 i' hi']
    congr 1
    by_cases hii : i' = i
    · simp [hii, hj]
    · simp [hii]

/-- the probability of going on to `j` -/
def step (a : ℝ) (k : Nat) (f : Nat → Nat → ℝ) (g : Nat → ℝ) (i j : Nat) : ℝ := (f i j + a) / (g i + a * k)

theorem nextProb_rows {a k f g i} {K : Nat → List DirichletCategorical → Res ℝ} {q : Nat → ℝ} (ha : 0 < a) (hi : i < k) (hT : Tally k f g)
    (hK : ∀ j < k, K j (rows a k (bump f i j 1) (bump1 g i 1)) = .ok (q j)) :
    nextProb (rows a k f g) i K = .ok (((List.range k).map (fun j => step a k f g i j * q j)).sum) := by
  unfold nextProb
  rw [idx_rows hi]
  show ((of a k (f i) (g i)).sampleLaw).bind _ = _
  rw [DirichletCategorical.sampleLaw_of ha (by omega) (hT.2.1 i) (hT.2.2 i hi)]
  show sumR _ _ = _
  rw [List.length_map, List.length_range]
  refine sumR_ok fun j hj => ?_
  have hj' := List.mem_range.1 hj
  have hp : idxR ((List.range k).map (fun j => (f i j + a) / (g i + a * k))) j = .ok (step a k f g i j) := by
    simp [idxR, hj', step]
  rw [hp]
  show (incAt _ _ _ _).bind _ = _
  rw [incAt_rows hi hj']
  show (K _ _).bind _ = _
  rw [hK j hj']
  rfl

variable {b : Bigram} {a : ℝ} {x : List Char}

theorem head_char (hlo : b.minChar ≤ b.maxChar) (acc : List Char) {cur : Nat} (h1 : cur < b.numChars + 1) (h2 : cur ≠ b.numChars) :
    b.sampleHead cur acc = .ok (acc ++ [Char.ofNat (cur + b.minChar)], decide ((acc ++ [Char.ofNat (cur + b.minChar)]).length = b.maxLength)) := by
  have hnum : b.numChars = b.maxChar - b.minChar + 1 := rfl
  simp only [sampleHead, if_neg h2, indexToChar_eq (b := b) (i := cur) (by omega)]
  rfl

theorem head_stop (acc : List Char) : b.sampleHead b.numChars acc = .ok (acc, true) := by simp [sampleHead]

/-- a string that has already gone another way is not returned -/
theorem loopProb_away (hlo : b.minChar ≤ b.maxChar) (ha : 0 < a) : ∀ (n : Nat) {f g} {cur : Nat} {acc : List Char}, Tally (b.numChars + 1) f g → cur < b.numChars + 1 →
    ¬ acc <+: x → b.loopProb x n (rows a (b.numChars + 1) f g) cur acc = .ok 0 := by
  intro n
  induction n with
  | zero => intros; rfl
  | succ n ih =>
    intro f g cur acc hT hcur hp
    unfold loopProb
    by_cases hs : cur = b.numChars
    · rw [hs, head_stop]
      have : acc ≠ x := fun h => hp (h ▸ List.prefix_refl _)
      simp [bind, Except.bind, this]
    · rw [head_char hlo acc hcur hs]
      have hp' : ¬ acc ++ [Char.ofNat (cur + b.minChar)] <+: x := fun h => hp ((List.prefix_append _ _).trans h)
      simp only [bind, Except.bind]
      split
      · rw [if_neg (fun h : _ = x => hp' (by rw [h]))]
      · rw [nextProb_rows (q := fun _ => 0) ha hcur hT (fun j hj => ih (hT.bump hj) hj hp')]
        simp

/-- the first index of what is left of a string -/
def nextIdx (b : Bigram) : List Char → Nat
  | [] => b.numChars
  | c :: _ => c.toNat - b.minChar

/-- a loop that goes on with another index does not return the string -/
theorem loopProb_wrong (hlo : b.minChar ≤ b.maxChar) (hhi : b.maxChar < 128) (ha : 0 < a) (n : Nat) {f g} {cur : Nat} {acc rest : List Char} (hT : Tally (b.numChars + 1) f g)
    (hcur : cur < b.numChars + 1) (hx : acc ++ rest = x) (hne : cur ≠ b.nextIdx rest) : b.loopProb x n (rows a (b.numChars + 1) f g) cur acc = .ok 0 := by
  have hnum : b.numChars = b.maxChar - b.minChar + 1 := rfl
  cases n with
  | zero => rfl
  | succ n =>
    unfold loopProb
    by_cases hs : cur = b.numChars
    · rw [hs, head_stop]
      have : acc ≠ x := by
        intro h
        rw [← h] at hx
        have : rest = [] := by simpa using hx
        subst this
        exact hne hs
      simp [bind, Except.bind, this]
    · rw [head_char hlo acc hcur hs]
      have hp' : ¬ acc ++ [Char.ofNat (cur + b.minChar)] <+: x := by
        intro h
        rw [← hx, List.prefix_append_right_inj] at h
        cases rest with
        | nil => simp at h
        | cons c rest =>
          obtain ⟨h, _⟩ := List.cons_prefix_cons.1 h
          apply hne
          show cur = c.toNat - b.minChar
          rw [← h, toNat_ofNat (by omega)]
          omega
      simp only [bind, Except.bind]
      split
      · rw [if_neg (fun h : _ = x => hp' (by rw [h]))]
      · rw [nextProb_rows (q := fun _ => 0) ha hcur hT (fun j hj => loopProb_away hlo ha n (hT.bump hj) hj hp')]
        simp

theorem step_eq {k f g i j} (ha : 0 < a) (hj : j < k) (hT : Tally k f g) :
    ∃ lp, (of a k (f i) (g i)).logp (j : Int) = .ok lp ∧ Real.exp lp = step a k f g i j :=
  ⟨_, DirichletCategorical.logp_of _ _ _ _ _ hj, exp_logp_of ha (by omega) (hT.2.1 i) (hT.1 i j)⟩

/-- one draw of a sample that goes on as the string does -/
theorem nextProb_path {k f g i j} {K : Nat → List DirichletCategorical → Res ℝ} {l : List Nat} {lp q : ℝ} {ds} (ha : 0 < a) (hi : i < k) (hj : j < k) (hT : Tally k f g)
    (hz : ∀ j' < k, j' ≠ j → K j' (rows a k (bump f i j' 1) (bump1 g i 1)) = .ok 0)
    (hl : logpPairs (rows a k (bump f i j 1) (bump1 g i 1)) (j :: l) = .ok (lp, ds))
    (hK : K j (rows a k (bump f i j 1) (bump1 g i 1)) = .ok q) :
    ∃ sp ds', logpPairs (rows a k f g) (i :: j :: l) = .ok (sp + lp, ds') ∧ nextProb (rows a k f g) i K = .ok (Real.exp sp * q) := by
  obtain ⟨sp, h1, h2⟩ := step_eq (i := i) ha hj hT
  refine ⟨sp, ds, ?_, ?_⟩
  · unfold logpPairs
    rw [idx_rows hi]
    show ((of a k (f i) (g i)).logp _).bind _ = _
    rw [h1]
    show (incAt _ _ _ _).bind _ = _
    rw [incAt_rows hi hj]
    show (logpPairs _ _).bind _ = _
    rw [hl]
    rfl
  · rw [nextProb_rows (q := fun j' => if j' = j then q else 0) ha hi hT (fun j' hj' => by
      by_cases h : j' = j
      · subst h; rw [if_pos rfl]; exact hK
      · rw [if_neg h]; exact hz j' hj' h), sum_range_single hj (fun j' _ h => by rw [if_neg h, mul_zero]), if_pos rfl, ← h2]

/-- no transition is certain -/
theorem step_lt {k f g i j} (ha : 0 < a) (hi : i < k) (hj : j < k) (hk : 1 < k) (hT : Tally k f g) : step a k f g i j < 1 := by
  have h1 : f i j ≤ g i := by
    rw [← hT.2.2 i hi]
    exact Finset.single_le_sum (fun j' _ => hT.1 i j') (Finset.mem_range.2 hj)
  have hk' : (1 : ℝ) < k := by exact_mod_cast hk
  have h0 := hT.2.1 i
  have h2 : a < a * k := by nlinarith
  unfold step
  rw [div_lt_one (by positivity)]
  linarith

theorem nextIdx_lt {rest : List Char} (hlo : b.minChar ≤ b.maxChar) (hr : ∀ c ∈ rest, b.minChar ≤ c.toNat ∧ c.toNat ≤ b.maxChar) : b.nextIdx rest < b.numChars + 1 := by
  have hnum : b.numChars = b.maxChar - b.minChar + 1 := rfl
  cases rest with
  | nil => exact Nat.lt_succ_self _
  | cons d rest =>
    have := hr d (by simp)
    simp only [nextIdx]; omega

theorem idxs_next (b : Bigram) (rest : List Char) : ∃ l, idxs b.minChar rest ++ [b.numChars] = b.nextIdx rest :: l := by
  cases rest with
  | nil => exact ⟨[], rfl⟩
  | cons d rest => exact ⟨_, rfl⟩

/-- the loop returns the string with the probability of the transitions that are left -/
theorem loopProb_path (hlo : b.minChar ≤ b.maxChar) (hhi : b.maxChar < 128) (ha : 0 < a) (hlen : 0 < b.maxLength → x.length < b.maxLength) :
    ∀ (rest : List Char) (n : Nat) {f g} {acc : List Char}, Tally (b.numChars + 1) f g → acc ++ rest = x → rest.length < n →
    (∀ c ∈ rest, b.minChar ≤ c.toNat ∧ c.toNat ≤ b.maxChar) →
    ∃ lp ds, logpPairs (rows a (b.numChars + 1) f g) (idxs b.minChar rest ++ [b.numChars]) = .ok (lp, ds) ∧
      b.loopProb x n (rows a (b.numChars + 1) f g) (b.nextIdx rest) acc = .ok (Real.exp lp) := by
  have hnum : b.numChars = b.maxChar - b.minChar + 1 := rfl
  intro rest
  induction rest with
  | nil =>
    intro n f g acc hT hx hn hr
    obtain ⟨n, rfl⟩ : ∃ k, n = k + 1 := ⟨n - 1, by simp at hn; omega⟩
    refine ⟨0, _, rfl, ?_⟩
    unfold loopProb nextIdx
    rw [head_stop]
    have : acc = x := by simpa using hx
    simp [bind, Except.bind, this]
  | cons c rest ih =>
    intro n f g acc hT hx hn hr
    obtain ⟨n, rfl⟩ : ∃ k, n = k + 1 := ⟨n - 1, by simp at hn; omega⟩
    have hc := hr c (by simp)
    have hcur : c.toNat - b.minChar < b.numChars + 1 := by omega
    have hs : c.toNat - b.minChar ≠ b.numChars := by omega
    have hback : Char.ofNat (c.toNat - b.minChar + b.minChar) = c := by
      rw [Nat.sub_add_cancel hc.1, Char.ofNat_toNat]
    have hx' : (acc ++ [c]) ++ rest = x := by rw [← hx]; simp
    have hnext : b.nextIdx rest < b.numChars + 1 := nextIdx_lt hlo (fun d hd => hr d (by simp [hd]))
    have hloop : b.loopProb x (n + 1) (rows a (b.numChars + 1) f g) (b.nextIdx (c :: rest)) acc =
        nextProb (rows a (b.numChars + 1) f g) (c.toNat - b.minChar) (fun next ds => b.loopProb x n ds next (acc ++ [c])) := by
      conv_lhs => unfold loopProb nextIdx
      rw [head_char hlo acc hcur hs, hback]
      have hl : (acc ++ [c]).length ≠ b.maxLength := by
        have h1 := congrArg List.length hx'
        simp only [List.length_append, List.length_cons, List.length_nil] at h1 ⊢
        by_cases h0 : 0 < b.maxLength
        · have := hlen h0; omega
        · omega
      simp only [bind, Except.bind, decide_eq_false hl]
      rfl
    rw [hloop]
    obtain ⟨lp, ds, h1, h2⟩ := ih n (hT.bump (i := c.toNat - b.minChar) hnext) hx' (by simp at hn; omega) (fun d hd => hr d (by simp [hd]))
    obtain ⟨l, hl⟩ := idxs_next b rest
    have : idxs b.minChar (c :: rest) ++ [b.numChars] = (c.toNat - b.minChar) :: b.nextIdx rest :: l := by
      rw [← hl]; rfl
    rw [this]
    rw [hl] at h1
    obtain ⟨sp, ds', h3, h4⟩ := nextProb_path (K := fun next ds => b.loopProb x n ds next (acc ++ [c])) ha hcur hnext hT (fun j hj hne => loopProb_wrong hlo hhi ha n (hT.bump hj) hj hx' hne) h1 h2
    exact ⟨_, ds', h3, by rw [h4, Real.exp_add]⟩

/-- a string of maximal length is returned without a draw of the stop symbol -/
theorem loopProb_full (hlo : b.minChar ≤ b.maxChar) (hhi : b.maxChar < 128) (ha : 0 < a) (hlen : x.length = b.maxLength) :
    ∀ (rest : List Char) (n : Nat) {f g} {acc : List Char}, Tally (b.numChars + 1) f g → acc ++ rest = x → rest ≠ [] → rest.length < n →
    (∀ c ∈ rest, b.minChar ≤ c.toNat ∧ c.toNat ≤ b.maxChar) →
    ∃ lp ds q, logpPairs (rows a (b.numChars + 1) f g) (idxs b.minChar rest ++ [b.numChars]) = .ok (lp, ds) ∧
      b.loopProb x n (rows a (b.numChars + 1) f g) (b.nextIdx rest) acc = .ok q ∧ Real.exp lp < q := by
  have hnum : b.numChars = b.maxChar - b.minChar + 1 := rfl
  intro rest
  induction rest with
  | nil => intro n f g acc _ _ h; exact absurd rfl h
  | cons c rest ih =>
    intro n f g acc hT hx _ hn hr
    obtain ⟨n, rfl⟩ : ∃ k, n = k + 1 := ⟨n - 1, by simp at hn; omega⟩
    have hc := hr c (by simp)
    have hcur : c.toNat - b.minChar < b.numChars + 1 := by omega
    have hs : c.toNat - b.minChar ≠ b.numChars := by omega
    have hback : Char.ofNat (c.toNat - b.minChar + b.minChar) = c := by
      rw [Nat.sub_add_cancel hc.1, Char.ofNat_toNat]
    have hx' : (acc ++ [c]) ++ rest = x := by rw [← hx]; simp
    have hnext : b.nextIdx rest < b.numChars + 1 := nextIdx_lt hlo (fun d hd => hr d (by simp [hd]))
    have h1 := congrArg List.length hx'
    simp only [List.length_append, List.length_cons, List.length_nil] at h1
    by_cases hrest : rest = []
    · subst hrest
      obtain ⟨sp, e1, e2⟩ := step_eq (i := c.toNat - b.minChar) ha (Nat.lt_succ_self b.numChars) hT
      refine ⟨sp + 0, rows a (b.numChars + 1) (Bigram.bump f (c.toNat - b.minChar) b.numChars 1) (bump1 g (c.toNat - b.minChar) 1), 1, ?_, ?_, ?_⟩
      · show logpPairs _ [c.toNat - b.minChar, b.numChars] = _
        unfold logpPairs
        rw [idx_rows hcur]
        show (DirichletCategorical.logp _ _).bind _ = _
        rw [e1]
        show (incAt _ _ _ _).bind _ = _
        rw [incAt_rows hcur (Nat.lt_succ_self _)]
        rfl
      · unfold loopProb nextIdx
        have hl : (acc ++ [c]).length = b.maxLength := by simp only [List.length_append, List.length_cons, List.length_nil] at h1 ⊢; omega
        have hax : acc ++ [c] = x := by simpa using hx'
        rw [head_char hlo acc hcur hs, hback]
        simp [bind, Except.bind, hl, hax]
        omega
      · rw [add_zero, e2]
        exact step_lt ha hcur (Nat.lt_succ_self _) (by omega) hT
    · have hpos := List.length_pos_iff.2 hrest
      have hloop : b.loopProb x (n + 1) (rows a (b.numChars + 1) f g) (b.nextIdx (c :: rest)) acc =
          nextProb (rows a (b.numChars + 1) f g) (c.toNat - b.minChar) (fun next ds => b.loopProb x n ds next (acc ++ [c])) := by
        conv_lhs => unfold loopProb nextIdx
        rw [head_char hlo acc hcur hs, hback]
        have hl : (acc ++ [c]).length ≠ b.maxLength := by
          simp only [List.length_append, List.length_cons, List.length_nil] at h1 ⊢
          omega
        simp only [bind, Except.bind, decide_eq_false hl]
        rfl
      rw [hloop]
      obtain ⟨lp, ds, q, h1, h2, hq⟩ := ih n (hT.bump (i := c.toNat - b.minChar) hnext) hx' hrest (by simp at hn; omega) (fun d hd => hr d (by simp [hd]))
      obtain ⟨l, hl⟩ := idxs_next b rest
      have : idxs b.minChar (c :: rest) ++ [b.numChars] = (c.toNat - b.minChar) :: b.nextIdx rest :: l := by
        rw [← hl]; rfl
      rw [this]
      rw [hl] at h1
      obtain ⟨sp, ds', h3, h4⟩ := nextProb_path (K := fun next ds => b.loopProb x n ds next (acc ++ [c])) ha hcur hnext hT (fun j hj hne => loopProb_wrong hlo hhi ha n (hT.bump hj) hj hx' hne) h1 h2
      exact ⟨_, ds', _, h3, h4, by rw [Real.exp_add]; exact mul_lt_mul_of_pos_left hq (Real.exp_pos _)⟩

/-- the value of `logp` is the sum over the transitions -/
theorem logp_of_pairs {m lo hi maxLength lp ds} (ha : 0 < a) (hx : ∀ c ∈ x, lo ≤ c.toNat ∧ c.toNat ≤ hi)
    (h : logpPairs (rep a maxLength lo hi m).dists ((rep a maxLength lo hi m).numChars :: idxs lo x ++ [(rep a maxLength lo hi m).numChars]) = .ok (lp, ds)) :
    (rep a maxLength lo hi m).logp x = .ok (lp, rep a maxLength lo hi m) := by
  have h1 := logp_rep (maxLength := maxLength) (m := m) ha hx
  rw [h1]
  unfold logp at h1
  rw [stringToIndices_eq (b := rep a maxLength lo hi m) hx] at h1
  change (logpPairs (rep a maxLength lo hi m).dists ((rep a maxLength lo hi m).numChars :: idxs lo x ++ [(rep a maxLength lo hi m).numChars])).bind _ = _ at h1
  rw [h] at h1
  change (incPairs ds _ _).bind _ = _ at h1
  cases hi : incPairs ds (-1) ((rep a maxLength lo hi m).numChars :: idxs (rep a maxLength lo hi m).minChar x ++ [(rep a maxLength lo hi m).numChars]) with
  | error e => rw [hi] at h1; cases h1
  | ok ds' =>
    rw [hi] at h1
    have h2 : lp = _ := congrArg Prod.fst (Except.ok.inj h1)
    rw [h2]

theorem rep_tally {m : Multiset (List Char)} {maxLength lo hi : Nat} (hm : ∀ x ∈ m, Accepts maxLength lo hi x) :
    Tally (hi - lo + 1 + 1) (fun i j => ((allTrans lo hi m).count (i, j) : ℝ)) (fun i => (((allTrans lo hi m).map Prod.fst).count i : ℝ)) := by
  refine ⟨fun _ _ => by positivity, fun _ => by positivity, fun i _ => ?_⟩
  apply sum_pairs_row
  intro p hp
  unfold Bigram.allTrans at hp
  obtain ⟨y, hy, hp⟩ := mem_multiset_sum hp
  rw [Multiset.mem_map] at hy
  obtain ⟨x, hx, rfl⟩ := hy
  rw [Multiset.mem_coe] at hp
  exact Bigram.idxs_lt (hm x hx).2 _ (Bigram.mem_pairs hp).2

/-- from the loop to the whole of `sample` -/
theorem sampleProb_path {m : Multiset (List Char)} {maxLength lo hi n : Nat} {lp q : ℝ} {ds} (hlo : lo ≤ hi) (hhi : hi < 128) (ha : 0 < a) (hm : ∀ x ∈ m, Accepts maxLength lo hi x)
    (hx : Accepts maxLength lo hi x)
    (hl : logpPairs (rows a (hi - lo + 1 + 1) (bump (fun i j => ((allTrans lo hi m).count (i, j) : ℝ)) (hi - lo + 1) (nextIdx (rep a maxLength lo hi m) x) 1)
      (bump1 (fun i => (((allTrans lo hi m).map Prod.fst).count i : ℝ)) (hi - lo + 1) 1)) (idxs lo x ++ [hi - lo + 1]) = .ok (lp, ds))
    (hq : (rep a maxLength lo hi m).loopProb x n (rows a (hi - lo + 1 + 1) (bump (fun i j => ((allTrans lo hi m).count (i, j) : ℝ)) (hi - lo + 1) (nextIdx (rep a maxLength lo hi m) x) 1)
      (bump1 (fun i => (((allTrans lo hi m).map Prod.fst).count i : ℝ)) (hi - lo + 1) 1)) (nextIdx (rep a maxLength lo hi m) x) [] = .ok q) :
    ∃ sp, (rep a maxLength lo hi m).logp x = .ok (sp + lp, rep a maxLength lo hi m) ∧ (rep a maxLength lo hi m).sampleProb x n = .ok (Real.exp sp * q) := by
  have hT := rep_tally hm
  obtain ⟨l, he⟩ := idxs_next (rep a maxLength lo hi m) x
  change idxs lo x ++ [hi - lo + 1] = _ at he
  rw [he] at hl
  have hnext : nextIdx (rep a maxLength lo hi m) x < hi - lo + 1 + 1 := nextIdx_lt (b := rep a maxLength lo hi m) hlo hx.2
  obtain ⟨sp, ds', h3, h4⟩ := nextProb_path (K := fun next ds => (rep a maxLength lo hi m).loopProb x n ds next []) ha (Nat.lt_succ_self _) hnext hT
    (fun j hj hne => loopProb_wrong (b := rep a maxLength lo hi m) hlo hhi ha n (hT.bump hj) hj rfl hne) hl hq
  refine ⟨sp, logp_of_pairs (ds := ds') ha hx.2 ?_, h4⟩
  show logpPairs _ ((hi - lo + 1) :: (idxs lo x ++ [hi - lo + 1])) = _
  rw [he]
  exact h3

end Bigram

/-- **C93**, `Bigram`: a string shorter than the maximal length is returned with the probability that `logp` reports.  MISSING (false in the code): strings of maximal length, after
which `sample` does not draw the stop symbol. -/
theorem C93_bigram_partial (maxLength lo hi : Nat) (hlo : lo ≤ hi) (hhi : hi < 128) (m : Multiset (List Char)) (s : Bigram)
    (hs : (Bigram.ops maxLength lo hi).Holds (Bigram.Accepts maxLength lo hi) m s) (x : List Char) (hx : Bigram.Accepts maxLength lo hi x) (hlen : maxLength = 0 ∨ x.length < maxLength)
    (n : Nat) (hn : x.length < n) :
    ∃ lp, s.logp x = .ok (lp, s) ∧ s.sampleProb x n = .ok (Real.exp lp) := by
  obtain ⟨⟨a, ha⟩, rfl, hm⟩ := (Bigram.lawful maxLength lo hi).holds hs
  have hT := Bigram.rep_tally hm
  have hnext : Bigram.nextIdx (Bigram.rep a maxLength lo hi m) x < hi - lo + 1 + 1 := Bigram.nextIdx_lt (b := Bigram.rep a maxLength lo hi m) hlo hx.2
  obtain ⟨lp, ds, h1, h2⟩ := Bigram.loopProb_path (b := Bigram.rep a maxLength lo hi m) hlo hhi ha
    (fun h0 => hlen.resolve_left (Nat.pos_iff_ne_zero.1 h0)) x n (acc := []) (hT.bump (i := hi - lo + 1) hnext) rfl hn hx.2
  obtain ⟨sp, h3, h4⟩ := Bigram.sampleProb_path hlo hhi ha hm hx h1 h2
  exact ⟨_, h3, by rw [h4, Real.exp_add]⟩

/-- **C93**, `Bigram`: a string of maximal length is returned more often than `logp` reports. -/
theorem C93_bigram_truncated_false (maxLength lo hi : Nat) (hlo : lo ≤ hi) (hhi : hi < 128) (m : Multiset (List Char)) (s : Bigram)
    (hs : (Bigram.ops maxLength lo hi).Holds (Bigram.Accepts maxLength lo hi) m s) (x : List Char) (hx : Bigram.Accepts maxLength lo hi x) (hpos : 0 < maxLength)
    (hlen : x.length = maxLength) (n : Nat) (hn : x.length < n) :
    ∃ lp p, s.logp x = .ok (lp, s) ∧ s.sampleProb x n = .ok p ∧ Real.exp lp < p := by
  obtain ⟨⟨a, ha⟩, rfl, hm⟩ := (Bigram.lawful maxLength lo hi).holds hs
  have hT := Bigram.rep_tally hm
  have hnext : Bigram.nextIdx (Bigram.rep a maxLength lo hi m) x < hi - lo + 1 + 1 := Bigram.nextIdx_lt (b := Bigram.rep a maxLength lo hi m) hlo hx.2
  obtain ⟨lp, ds, q, h1, h2, hq⟩ := Bigram.loopProb_full (b := Bigram.rep a maxLength lo hi m) hlo hhi ha hlen x n (acc := []) (hT.bump (i := hi - lo + 1) hnext) rfl
    (fun h => by rw [h] at hlen; simp at hlen; omega) hn hx.2
  obtain ⟨sp, h3, h4⟩ := Bigram.sampleProb_path hlo hhi ha hm hx h1 h2
  exact ⟨_, _, h3, h4, by rw [Real.exp_add]; exact mul_lt_mul_of_pos_left hq (Real.exp_pos _)⟩

/-- C93: a bigram distribution that has seen "ab", and the strings "a" and "ba" of lengths below and at its maximum -/
example : ∃ s : Bigram, (Bigram.ops 2 97 98).Holds (Bigram.Accepts 2 97 98) {['a', 'b']} s ∧ Bigram.Accepts 2 97 98 ['a'] ∧ Bigram.Accepts 2 97 98 ['b', 'a'] := by
  have hacc : Bigram.Accepts 2 97 98 ['a', 'b'] := by unfold Bigram.Accepts; decide
  obtain ⟨s, hs, _⟩ := (Bigram.lawful 2 97 98).total [] [.inc ['a', 'b']] {['a', 'b']} (by simp [remaining, hacc])
  exact ⟨s, ⟨[], _, by simp [remaining, hacc], hs⟩, by unfold Bigram.Accepts; decide, by unfold Bigram.Accepts; decide⟩

end
end Verif
