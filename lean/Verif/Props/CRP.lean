import Verif.Lemmas.CRPGibbs
/-!
Property theorems C01 - C05 (CRP).  Specification: `Verif/Spec/CRP.lean`.
-/
namespace Verif
open Spec

/-! ### C01: the seating is always a partition -/

theorem CRP.run_spec (ops : List SeatOp) : ∀ (c : CRP), c.WF →
    match seatRun c.seating ops with
    | none => c.run ops = .error .assert
    | some f => ∃ c', c.run ops = .ok c' ∧ c'.WF ∧ c'.seating = f ∧ c'.alpha = c.alpha := by
  induction ops with
  | nil => intro c hc; exact ⟨c, rfl, hc, rfl, rfl⟩
  | cons op ops ih =>
    intro c hc
    cases op with
    | enter i t =>
      simp only [seatRun, seatStep, CRP.run, CRP.apply]
      cases hf : c.assignments.find? i with
      | some t' =>
        have : c.seating i ≠ none := by simp [CRP.seating, hf]
        simp [this, CRP.incorporate_of_mem hf, bind, Except.bind]
      | none =>
        have h0 : c.seating i = none := hf
        have hs : (c.incState i t).seating = fun j => if j = i then some t else c.seating j := by
          funext j; simp only [CRP.seating, CRP.incState, FMap.find?_set]
        have := ih (c.incState i t) (hc.incState hf t)
        rw [hs] at this
        simp only [h0, if_true, Option.bind_some, CRP.incorporate_eq hf, bind, Except.bind]
        exact this
    | leave i =>
      simp only [seatRun, seatStep, CRP.run, CRP.apply]
      cases hf : c.assignments.find? i with
      | none =>
        have : c.seating i = none := by simp [CRP.seating, hf]
        simp [this, CRP.unincorporate_of_not_mem hf, bind, Except.bind]
      | some t =>
        have h0 : c.seating i ≠ none := by simp [CRP.seating, hf]
        obtain ⟨s, hs, _⟩ := CRP.mem_table hc hf
        have hs' : (c.uninState i t s).seating = fun j => if j = i then none else c.seating j := by
          funext j; simp only [CRP.seating, CRP.uninState, FMap.find?_erase]
        have := ih (c.uninState i t s) (hc.uninState hf hs)
        rw [hs'] at this
        simp only [h0, if_false, Option.bind_some, CRP.unincorporate_eq hf hs, bind, Except.bind]
        exact this

/-- **C01.** Every history of `incorporate`/`unincorporate` calls on a fresh CRP either is refused by an
`assert` - exactly when it seats a seated customer or removes an absent one - or ends in a state that
agrees with the abstract seating plan: the assignment map is the plan, the customers listed at table `t` are exactly
those the plan puts at `t`, a table is listed exactly when somebody sits there, and `N` is the number of seated
customers. -/
theorem C01_crp_is_partition (a : ℝ) (ops : List SeatOp) :
    match seatRun nobody ops with
    | none => CRP.run { alpha := a } ops = .error .assert
    | some f => ∃ c, CRP.run { alpha := a } ops = .ok c ∧
        (∀ i, c.assignments.find? i = f i) ∧
        (∀ t i, (∃ s, c.tables.find? t = some s ∧ i ∈ s.keys) ↔ f i = some t) ∧
        (∀ t, c.tables.contains t = true ↔ ∃ i, f i = some t) ∧
        c.N = seated f ∧ c.alpha = a := by
  have := CRP.run_spec ops { alpha := a } (CRP.WF.init a)
  have h0 : CRP.seating { alpha := a } = nobody := rfl
  rw [h0] at this
  cases hf : seatRun nobody ops with
  | none => rw [hf] at this; exact this
  | some f =>
    rw [hf] at this
    obtain ⟨c, hc, hwf, hseat, ha⟩ := this
    refine ⟨c, hc, fun i => by rw [← hseat]; rfl, ?_, ?_, ?_, ha⟩
    · intro t i; rw [← hwf.mem, ← hseat]; rfl
    · intro t
      rw [FMap.contains_iff]
      constructor
      · rintro ⟨s, hs⟩
        obtain ⟨i, hi⟩ := hwf.nonempty t s hs
        exact ⟨i, by rw [← hseat]; exact (hwf.mem i t).mpr ⟨s, hs, hi⟩⟩
      · rintro ⟨i, hi⟩
        rw [← hseat] at hi
        obtain ⟨s, hs, _⟩ := (hwf.mem i t).mp hi
        exact ⟨s, hs⟩
    · rw [← hseat]; exact (CRP.seated_eq hwf).symm

/-- a history with a table created, shared, emptied and re-created -/
example : (seatRun nobody [.enter 5 0, .enter 7 0, .enter 8 3, .leave 8, .enter 8 0, .leave 5]).isSome := by
  decide

/-- the refusals do occur -/
example : seatRun nobody [.enter 5 0, .enter 5 1] = none := by decide

/-! ### C02: unincorporate undoes incorporate -/

/-- **C02.** Seating an absent customer anywhere and removing it restores the state. -/
theorem C02_incorporate_unincorporate {c : CRP} (hc : c.Reachable) {i : Int} (t : Int)
    (hi : c.assignments.find? i = none) :
    (c.incorporate i t >>= fun c' => c'.unincorporate i) = .ok c := by
  have hwf := hc.wf
  have hwf1 := hwf.incState hi t
  have hf : (c.incState i t).assignments.find? i = some t := by simp [CRP.incState]
  obtain ⟨s, hs, _⟩ := CRP.mem_table hwf1 hf
  rw [CRP.incorporate_eq hi]
  simp only [bind, Except.bind]
  rw [CRP.unincorporate_eq hf hs]
  congr 1
  apply CRP.WF.ext (hwf1.uninState hf hs) hwf rfl
  intro j
  simp only [CRP.uninState, CRP.incState, FMap.find?_erase, FMap.find?_set]
  split
  · rename_i h; rw [h, hi]
  · rfl

/-- **C02.** Removing a customer and seating it again at its table restores the state. -/
theorem C02_unincorporate_incorporate {c : CRP} (hc : c.Reachable) {i t : Int}
    (hi : c.assignments.find? i = some t) :
    (c.unincorporate i >>= fun c' => c'.incorporate i t) = .ok c := by
  have hwf := hc.wf
  obtain ⟨s, hs, _⟩ := CRP.mem_table hwf hi
  have hwf1 := hwf.uninState hi hs
  have hf : (c.uninState i t s).assignments.find? i = none := by simp [CRP.uninState]
  rw [CRP.unincorporate_eq hi hs]
  simp only [bind, Except.bind]
  rw [CRP.incorporate_eq hf]
  congr 1
  apply CRP.WF.ext (hwf1.incState hf t) hwf rfl
  intro j
  simp only [CRP.uninState, CRP.incState, FMap.find?_erase, FMap.find?_set]
  split
  · rename_i h; rw [h, hi]
  · rfl

/-- a reachable state in which customer 8 sits alone and customers 5, 7 share a table -/
def exampleCRP : CRP :=
  (((CRP.incState { alpha := 2 } 5 0).incState 7 0).incState 8 3)

theorem exampleCRP_reachable : exampleCRP.Reachable := by
  have h1 : CRP.Reachable (CRP.incState { alpha := 2 } 5 0) :=
    .incorporate (.fresh 2 (by norm_num)) (CRP.incorporate_eq rfl)
  have h2 : CRP.Reachable ((CRP.incState { alpha := 2 } 5 0).incState 7 0) :=
    .incorporate h1 (CRP.incorporate_eq rfl)
  exact .incorporate h2 (CRP.incorporate_eq rfl)

example : exampleCRP.assignments.find? 6 = none ∧ exampleCRP.assignments.find? 8 = some 3 ∧
    exampleCRP.assignments.find? 7 = some 0 := ⟨rfl, rfl, rfl⟩

/-! ### C03: predictive weights -/

/-- **C03.** With `N > 0` the table weights are the occupancies of the occupied tables, plus exactly one
unoccupied table that carries `alpha`; they add up to `N + alpha`. -/
theorem C03_tables_weights {c : CRP} (hc : c.Reachable) (hN : 0 < c.N) :
    ∃ new : Int, occupancy c.seating new = 0 ∧
      (∀ t, c.tablesWeights.find? t =
        if t = new then some c.alpha
        else if occupancy c.seating t = 0 then none
        else some (occupancy c.seating t : ℝ)) ∧
      c.tablesWeights.vals.sum = c.N + c.alpha := by
  have hwf := hc.wf
  have hN' : c.N ≠ 0 := hN.ne'
  refine ⟨c.maxTable + 1, CRP.occupancy_none hwf (CRP.new_not_mem hwf hN'), ?_,
    CRP.sum_tablesWeights hwf hN'⟩
  intro t
  rw [CRP.find?_tablesWeights hwf hN']
  split
  · rfl
  · cases hs : c.tables.find? t with
    | none => simp [CRP.occupancy_none hwf hs]
    | some s =>
      have := CRP.size_pos hwf hs
      simp [← CRP.size_eq_occupancy hwf hs, this.ne']

/-- With no customers the only table offered is table 0, with weight one. -/
theorem C03_tables_weights_empty {c : CRP} (hN : c.N = 0) (t : Int) :
    c.tablesWeights.find? t = if t = 0 then some 1 else none := by
  simp [CRP.tablesWeights, hN, FMap.find?_set]

/-- **C03 (Gibbs).** The Gibbs weights for a customer `i` seated at table `t` are the weights of the plan
without `i`: occupancies by the other customers and one new table with weight `alpha`, which is `i`'s own table `t` if `i` sat
there alone; they add up to `N - 1 + alpha`. -/
theorem C03_tables_weights_gibbs {c : CRP} (hc : c.Reachable) {i t : Int}
    (hi : c.seating i = some t) :
    ∃ w, c.tablesWeightsGibbs t = .ok w ∧
      ∃ new : Int, occupancy (without c.seating i) new = 0 ∧
        (occupancy (without c.seating i) t = 0 → new = t) ∧
        (∀ u, w.find? u =
          if u = new then some c.alpha
          else if occupancy (without c.seating i) u = 0 then none
          else some (occupancy (without c.seating i) u : ℝ)) ∧
        w.vals.sum = c.N - 1 + c.alpha := by exact CRP.tablesWeightsGibbs_spec hc.wf hi

/-- both cases of the Gibbs weights occur in a reachable state -/
example : exampleCRP.seating 8 = some 3 ∧ exampleCRP.seating 7 = some 0 ∧ 0 < exampleCRP.N :=
  ⟨rfl, rfl, by decide⟩

/-! ### C04: chain rule and exchangeability -/

/-- **C04 (one step).** Seating an absent customer at an offered table changes the joint score by exactly the predictive
log probability of the table (for `N > 0`). -/
theorem C04_chain_rule_step {c c' : CRP} (hc : c.Reachable) (hN : 0 < c.N) {i t : Int}
    (h : c.incorporate i t = .ok c') {p : ℝ} (hp : c.logp t = (p : WithBot ℝ)) :
    c'.logpScore = c.logpScore + p := by
  exact CRP.chain_rule_step hc.wf hc.alpha_pos hN h hp

/-- The empty restaurant has score zero, and so has a restaurant with one customer. -/
theorem C04_score_first {a : ℝ} (ha : 0 < a) :
    CRP.logpScore { alpha := a } = 0 ∧
    ∀ (i t : Int) (c : CRP), CRP.incorporate { alpha := a } i t = .ok c → c.logpScore = 0 := by
  constructor
  · simp [CRP.logpScore, FMap.size, FMap.vals, EmptyCollection.emptyCollection, FMap.empty]
  · intro i t c h
    rw [CRP.incorporate_eq rfl] at h; cases h
    have hl : lgamma (1 + a) = Real.log a + lgamma a := by rw [add_comm]; exact lgamma_add_one ha
    have h1 : lgamma 1 = 0 := lgamma_one
    simp only [CRP.logpScore, CRP.incState, FMap.size, FMap.vals, FMap.set, FSet.insert, FMap.lset,
      EmptyCollection.emptyCollection, FMap.empty, FMap.find?, FMap.lfind, Option.getD_none,
      List.map_cons, List.map_nil, List.length_cons, List.length_nil]
    simp [hl, h1]

/-- seat a list of (customer, table) pairs in order, adding up the predictive log probabilities of the tables -/
noncomputable def CRP.seatAll (c : CRP) : List (Int × Int) → Option (CRP × ℝ)
  | [] => some (c, 0)
  | (i, t) :: l =>
    match c.logp t, c.incorporate i t with
    | (p : ℝ), .ok c' => (c'.seatAll l).map (fun r => (r.1, p + r.2))
    | _, _ => none

/-- **C04 (chain rule, any sequence).** From any state with `N > 0`, seating any customers in any order at offered tables changes the
joint score by the sum of the predictive log probabilities. -/
theorem C04_chain_rule (l : List (Int × Int)) : ∀ {c c' : CRP} {p : ℝ}, c.Reachable → 0 < c.N →
    c.seatAll l = some (c', p) → c'.logpScore = c.logpScore + p := by
  induction l with
  | nil => intro c c' p _ _ h; simp [CRP.seatAll] at h; obtain ⟨rfl, rfl⟩ := h; simp
  | cons e l ih =>
    intro c c' p hc hN h
    obtain ⟨i, t⟩ := e
    simp only [CRP.seatAll] at h
    split at h
    · rename_i q c1 hq hinc
      simp only [Option.map_eq_some_iff, Prod.mk.injEq] at h
      obtain ⟨⟨c2, r⟩, h1, rfl, rfl⟩ := h
      have hs := C04_chain_rule_step hc hN hinc hq
      have hc1 : c1.Reachable := .incorporate hc hinc
      have hN1 : 0 < c1.N := by
        cases hf : c.assignments.find? i with
        | some t' => rw [CRP.incorporate_of_mem hf] at hinc; cases hinc
        | none => rw [CRP.incorporate_eq hf] at hinc; cases hinc; simp only [CRP.incState]; omega
      have := ih hc1 hN1 h1
      dsimp only at this ⊢
      rw [this, hs]; ring
    · cases h

/-- **C04 (whole history).** Seating customers from an empty restaurant: the joint score is the sum of the predictive log
probabilities of all customers after the first (the first one has only one possible seat). -/
theorem C04_chain_rule_from_empty {a : ℝ} (ha : 0 < a) {i t : Int} {l : List (Int × Int)} {c : CRP} {p q : ℝ}
    (hq : CRP.logp { alpha := a } t = (q : WithBot ℝ))
    (h : CRP.seatAll { alpha := a } ((i, t) :: l) = some (c, p)) : c.logpScore = p - q := by
  simp only [CRP.seatAll, hq] at h
  split at h
  · rename_i q' c1 hq' hinc
    cases hq'
    simp only [Option.map_eq_some_iff, Prod.mk.injEq] at h
    obtain ⟨⟨c2, r⟩, h1, rfl, rfl⟩ := h
    have hc1 : c1.Reachable := .incorporate (.fresh a ha) hinc
    have hN1 : 0 < c1.N := by
      rw [CRP.incorporate_eq rfl] at hinc; cases hinc; simp [CRP.incState]
    have := C04_chain_rule l hc1 hN1 h1
    rw [(C04_score_first ha).2 i t c1 hinc] at this
    dsimp only at this ⊢
    linarith
  · cases h

theorem CRP.logp_of_contains {c : CRP} {t : Int} (h : c.tablesWeights.contains t = true) :
    ∃ p : ℝ, c.logp t = (p : WithBot ℝ) := by
  obtain ⟨w, hw⟩ := FMap.contains_iff.mp h
  exact ⟨Real.log w - Real.log (c.N + c.alpha), by simp only [CRP.logp, hw]⟩

/-- a seating of three customers with a shared table and a new table -/
example : ∃ c p, CRP.seatAll exampleCRP [(1, 0), (2, 4), (3, 4)] = some (c, p) := by
  obtain ⟨p1, h1⟩ : ∃ p : ℝ, exampleCRP.logp 0 = (p : WithBot ℝ) := CRP.logp_of_contains rfl
  have e1 : exampleCRP.incorporate 1 0 = .ok (exampleCRP.incState 1 0) := CRP.incorporate_eq rfl
  obtain ⟨p2, h2⟩ : ∃ p : ℝ, (exampleCRP.incState 1 0).logp 4 = (p : WithBot ℝ) :=
    CRP.logp_of_contains rfl
  have e2 : (exampleCRP.incState 1 0).incorporate 2 4 = .ok ((exampleCRP.incState 1 0).incState 2 4) :=
    CRP.incorporate_eq rfl
  obtain ⟨p3, h3⟩ : ∃ p : ℝ, ((exampleCRP.incState 1 0).incState 2 4).logp 4 = (p : WithBot ℝ) :=
    CRP.logp_of_contains rfl
  have e3 : ((exampleCRP.incState 1 0).incState 2 4).incorporate 3 4 =
      .ok (((exampleCRP.incState 1 0).incState 2 4).incState 3 4) := CRP.incorporate_eq rfl
  exact ⟨((exampleCRP.incState 1 0).incState 2 4).incState 3 4, p1 + (p2 + (p3 + 0)),
    by simp only [CRP.seatAll, h1, e1, h2, e2, h3, e3, Option.map_some]⟩

/-- **C04 (exchangeability).** Two reachable CRPs with the same concentration whose customers are partitioned in the same way -
whatever the histories and the table labels - have the same joint score. -/
theorem C04_exchangeable {c d : CRP} (hc : c.Reachable) (hd : d.Reachable) (ha : c.alpha = d.alpha)
    (h : ∀ i j, (∃ t, c.seating i = some t ∧ c.seating j = some t) ↔
                (∃ t, d.seating i = some t ∧ d.seating j = some t)) :
    c.logpScore = d.logpScore := by
  have hm : ∀ i, c.mates i = d.mates i := by
    intro i; unfold CRP.mates; congr 1; ext j; exact h i j
  have hk : c.assignments.keys.Perm d.assignments.keys := by
    rw [List.perm_ext_iff_of_nodup c.assignments.nodupKeys d.assignments.nodupKeys]
    intro i
    have := h i i
    simpa [CRP.seating, FMap.mem_keys] using this
  rw [CRP.logpScore_eq hc.wf, CRP.logpScore_eq hd.wf, ha]
  simp only [hm]
  rw [hk.length_eq, (hk.map (fun i => (1 : ℝ) / (d.mates i))).sum_eq,
    (hk.map (fun i => lgamma (d.mates i) / (d.mates i))).sum_eq]

/-- two different histories and labelings of the same partition -/
example : ∃ c d : CRP, c.Reachable ∧ d.Reachable ∧ c.alpha = d.alpha ∧ c.assignments ≠ d.assignments ∧
    ∀ i j, (∃ t, c.seating i = some t ∧ c.seating j = some t) ↔
           (∃ t, d.seating i = some t ∧ d.seating j = some t) := by
  refine ⟨CRP.incState { alpha := 2 } 5 0, CRP.incState { alpha := 2 } 5 9,
    .incorporate (.fresh 2 (by norm_num)) (CRP.incorporate_eq rfl),
    .incorporate (.fresh 2 (by norm_num)) (CRP.incorporate_eq rfl), rfl, by decide, ?_⟩
  intro i j
  simp only [CRP.seating, CRP.incState, FMap.find?_set, FMap.find?_empty]
  by_cases hi : i = 5 <;> by_cases hj : j = 5 <;> simp [hi, hj]

/-! ### C05: normalisation -/

/-- **C05.** With `N > 0` the predictive probabilities of the offered tables are positive and sum to one. -/
theorem C05_normalised_partial {c : CRP} (hc : c.Reachable) (hN : 0 < c.N) :
    (c.tablesWeights.keys.map (fun t => expW (c.logp t))).sum = 1 ∧
    ∀ t, 0 < expW (c.logp t) ↔ t ∈ c.tablesWeights.keys := by
  have hwf := hc.wf
  have ha := hc.alpha_pos
  have hN' : c.N ≠ 0 := hN.ne'
  have hNa : (0 : ℝ) < c.N + c.alpha := by
    have : (0 : ℝ) < c.N := by exact_mod_cast hN
    linarith
  have hpos : ∀ t w, c.tablesWeights.find? t = some w → 0 < w := by
    intro t w h
    rw [CRP.find?_tablesWeights hwf hN'] at h
    split at h
    · cases h; exact ha
    · cases hs : c.tables.find? t with
      | none => rw [hs] at h; cases h
      | some s => rw [hs] at h; cases h; exact Nat.cast_pos.mpr (CRP.size_pos hwf hs)
  have hexp : ∀ t w, c.tablesWeights.find? t = some w → expW (c.logp t) = w / (c.N + c.alpha) := by
    intro t w h
    simp only [CRP.logp, h, expW]
    rw [Real.exp_sub, Real.exp_log (hpos t w h), Real.exp_log hNa]
  constructor
  · have : c.tablesWeights.keys.map (fun t => expW (c.logp t)) =
        c.tablesWeights.vals.map (fun w => w * (c.N + c.alpha)⁻¹) := by
      simp only [FMap.keys, FMap.vals, List.map_map]
      apply List.map_congr_left
      rintro ⟨t, w⟩ h
      simp only [Function.comp]
      rw [hexp t w (FMap.mem_entries.mp h), div_eq_mul_inv]
    rw [this, List.sum_map_mul_right, List.map_id', CRP.sum_tablesWeights hwf hN',
      mul_inv_cancel₀ hNa.ne']
  · intro t
    rw [FMap.mem_keys]
    constructor
    · intro h
      cases hf : c.tablesWeights.find? t with
      | some w => exact ⟨w, rfl⟩
      | none => simp [CRP.logp, hf, expW] at h
    · rintro ⟨w, hw⟩
      rw [hexp t w hw]; exact div_pos (hpos t w hw) hNa

/-- With no customers the total is `1 / alpha`; so it is one exactly when `alpha = 1`. -/
theorem C05_total_empty {c : CRP} (ha : 0 < c.alpha) (hN : c.N = 0) :
    (c.tablesWeights.keys.map (fun t => expW (c.logp t))).sum = 1 / c.alpha := by
  have h0 : c.tablesWeights = (∅ : FMap Int ℝ).set 0 1 := by simp [CRP.tablesWeights, hN]
  have hk : c.tablesWeights.keys = [0] := by rw [h0]; rfl
  have hl : c.logp 0 = ((Real.log 1 - Real.log (c.N + c.alpha) : ℝ) : WithBot ℝ) := by
    simp [CRP.logp, h0]
  simp [hk, hl, expW, hN, Real.exp_neg, Real.exp_log ha]

/-- the last point of the grid for one customer is 2 -/
theorem transitionAlpha_two {c : CRP} (hN : c.N = 1) : (c.transitionAlpha [19]).1.alpha = 2 := by
  have hgrid : logLinspace (1 / ((1 : Int) : ℝ)) (((1 : Int) : ℝ) + 1) 20 true =
      (List.range 20).map (fun i : Nat => Real.exp (Real.log 2 / 19 * (i : ℝ))) := by
    simp only [logLinspace, linspace, List.map_map]
    apply List.map_congr_left
    intro i _
    simp only [Function.comp]
    norm_num
  have : (c.transitionAlpha [19]).1.alpha = (logLinspace (1 / ((1 : Int) : ℝ)) (((1 : Int) : ℝ) + 1) 20 true).getD
      ((draw (logLinspace (1 / ((1 : Int) : ℝ)) (((1 : Int) : ℝ) + 1) 20 true).length [19]).1) 0 := by
    unfold CRP.transitionAlpha
    rw [hN]; simp
  rw [this, length_logLinspace, hgrid]
  have : (draw 20 [19]).1 = 19 := rfl
  rw [this]
  simp only [List.getD_eq_getElem?_getD, List.getElem?_map]
  rw [List.getElem?_eq_getElem (by simp)]
  simp only [Option.map_some, Option.getD_some, List.getElem_range]
  rw [show Real.log 2 / 19 * ((19 : Nat) : ℝ) = Real.log 2 by push_cast; ring]
  exact Real.exp_log (by norm_num)

/-- **C05 fails for an emptied restaurant**: after seating two customers, a concentration update and removing
both, the only table offered has probability different from one. -/
theorem C05_not_normalised_when_emptied :
    ∃ c : CRP, c.Reachable ∧ (c.tablesWeights.keys.map (fun t => expW (c.logp t))).sum ≠ 1 := by
  let c0 : CRP := { alpha := 1 }
  let c1 := c0.incState 5 0
  let c2 := (c1.transitionAlpha [19]).1
  have r1 : c1.Reachable := .incorporate (.fresh 1 one_pos) (CRP.incorporate_eq rfl)
  have r2 : c2.Reachable := .transitionAlpha [19] r1
  have ha2 : c2.alpha = 2 := transitionAlpha_two rfl
  have hA : c2.assignments = c1.assignments := by
    show (c1.transitionAlpha [19]).1.assignments = _
    unfold CRP.transitionAlpha; split <;> rfl
  have hT : c2.tables = c1.tables := by
    show (c1.transitionAlpha [19]).1.tables = _
    unfold CRP.transitionAlpha; split <;> rfl
  have hN2 : c2.N = c1.N := by
    show (c1.transitionAlpha [19]).1.N = _
    unfold CRP.transitionAlpha; split <;> rfl
  have hf : c2.assignments.find? 5 = some 0 := by rw [hA]; rfl
  obtain ⟨s, hs, _⟩ := CRP.mem_table r2.wf hf
  have h3 := CRP.unincorporate_eq hf hs
  refine ⟨_, .unincorporate r2 h3, ?_⟩
  have hN3 : (c2.uninState 5 0 s).N = 0 := by
    simp only [CRP.uninState, hN2]; rfl
  have ha3 : (c2.uninState 5 0 s).alpha = 2 := ha2
  rw [C05_total_empty (by rw [ha3]; norm_num) hN3, ha3]
  norm_num

end Verif
