import Verif.Lemmas.IRMOps
import Verif.Props.Math
/-! Helper lemmas: the joint predictive of an IRM is normalised. -/
namespace Verif
open Spec
noncomputable section
variable {V : Type} {F : Family V} {L : FamilyLaws F} {ar : Ptr → Option Nat}

/-- the total probability of a list of choices with log weights -/
def massOf (c : List (Int × ℝ)) : ℝ := (c.map (fun e => Real.exp e.2)).sum

theorem tableChoices_spec {σ : Doms} (hσ : StoreWF σ) {d : String} {dom : Domain} (hd : σ.find? d = some dom) (ha : 0 < dom.crp.alpha) (i : Int) :
    ∃ c, CleanRel.tableChoices σ d i = .ok c ∧ c ≠ [] ∧
      massOf c = if dom.items.contains i = true ∨ dom.crp.N ≠ 0 then 1 else 1 / dom.crp.alpha := by
  have hw := hσ d dom hd
  have hget : σ.get d = .ok dom := by simp [Doms.get, hd]
  unfold CleanRel.tableChoices
  simp only [hget, bind, Except.bind]
  by_cases hi : dom.items.contains i = true
  · obtain ⟨z, hz⟩ := hw.mem.mp hi
    refine ⟨[(z, 0)], by simp [hi, Domain.getClusterAssignment_eq hw hz], by simp, by simp [massOf, hi]⟩
  · simp only [hi, Bool.false_eq_true, if_false, false_or]
    refine ⟨_, rfl, ?_, ?_⟩
    · intro h
      have hl : dom.crp.tablesWeights.entries = [] := by simpa using h
      by_cases hN : dom.crp.N = 0
      · have : dom.crp.tablesWeights = (∅ : FMap Int ℝ).set 0 1 := by simp [CRP.tablesWeights, hN]
        rw [this] at hl
        cases hl
      · have := CRP.sum_tablesWeights hw.crp hN
        rw [FMap.vals, hl] at this
        simp only [List.map_nil, List.sum_nil] at this
        have hN0 : (0 : ℝ) ≤ dom.crp.N := by rw [hw.crp.count]; exact_mod_cast Nat.zero_le _
        linarith
    · have hN0 : (0 : ℝ) ≤ dom.crp.N := by rw [hw.crp.count]; exact_mod_cast Nat.zero_le _
      have hpos : ∀ e ∈ dom.crp.tablesWeights.entries, 0 < e.2 := by
        rintro ⟨k, w⟩ he
        have hf := FMap.mem_entries.mp he
        by_cases hN : dom.crp.N = 0
        · have : dom.crp.tablesWeights = (∅ : FMap Int ℝ).set 0 1 := by simp [CRP.tablesWeights, hN]
          rw [this, FMap.find?_set] at hf
          split at hf
          · cases hf; exact one_pos
          · simp at hf
        · rw [CRP.find?_tablesWeights hw.crp hN] at hf
          split at hf
          · cases hf; exact ha
          · cases hs : dom.crp.tables.find? k with
            | none => rw [hs] at hf; cases hf
            | some s =>
              rw [hs] at hf
              cases hf
              exact Nat.cast_pos.mpr (CRP.size_pos hw.crp hs)
      have hNa : 0 < dom.crp.alpha + dom.crp.N := by linarith
      have : massOf (dom.crp.tablesWeights.entries.map (fun e => (e.1, Real.log e.2 - Real.log (dom.crp.alpha + dom.crp.N)))) =
          dom.crp.tablesWeights.vals.sum / (dom.crp.alpha + dom.crp.N) := by
        unfold massOf FMap.vals
        rw [List.map_map, div_eq_mul_inv, ← List.sum_map_mul_right]
        congr 1
        apply List.map_congr_left
        intro e he
        simp only [Function.comp]
        rw [Real.exp_sub, Real.exp_log (hpos e he), Real.exp_log hNa, div_eq_mul_inv]
      rw [this]
      by_cases hN : dom.crp.N = 0
      · have h1 : dom.crp.tablesWeights = (∅ : FMap Int ℝ).set 0 1 := by simp [CRP.tablesWeights, hN]
        have h2 : dom.crp.tablesWeights.vals.sum = 1 := by rw [h1]; simp [FMap.vals, FMap.set, EmptyCollection.emptyCollection, FMap.empty, FMap.lset]
        rw [h2]; simp [hN]
      · rw [CRP.sum_tablesWeights hw.crp hN, if_pos hN, add_comm, div_self hNa.ne']

namespace IRM

/-- the slot offers the tables of its entity -/
def SlotOK (σ : Doms) (s : Slot) : Prop := σ.contains s.dom = true ∧ CleanRel.tableChoices σ s.dom s.item = .ok s.choices

theorem slotsOne_spec {σ : Doms} (hσ : StoreWF σ) (ha : ∀ d dom, σ.find? d = some dom → 0 < dom.crp.alpha) :
    ∀ (ds : List String) (is : Items) (acc : List Slot), is.length = ds.length → (∀ d ∈ ds, σ.contains d = true) →
    (∀ s ∈ acc, SlotOK σ s) →
    ∃ tl, slotsOne σ ds is acc = .ok (acc ++ tl) ∧ (∀ s ∈ acc ++ tl, SlotOK σ s) ∧
      (∀ s ∈ tl, (s.dom, s.item) ∈ ds.zip is) ∧
      ∀ d i, (d, i) ∈ ds.zip is → ∃ s ∈ acc ++ tl, s.dom = d ∧ s.item = i := by
  intro ds
  induction ds with
  | nil =>
    intro is acc _ _ hacc
    exact ⟨[], by simp [slotsOne], by simpa using hacc, by simp, by simp⟩
  | cons d ds ih =>
    intro is acc hl hd hacc
    cases is with
    | nil => simp at hl
    | cons i is =>
      by_cases hany : acc.any (fun s => decide (s.dom = d ∧ s.item = i)) = true
      · obtain ⟨tl, h1, h2, h3, h4⟩ := ih is acc (by simpa using hl) (fun d' hd' => hd d' (by simp [hd'])) hacc
        refine ⟨tl, by simp only [slotsOne, hany, if_true, h1], h2, fun s hs => by simp [h3 s hs], ?_⟩
        intro d' i' hm
        simp only [List.zip_cons_cons, List.mem_cons, Prod.mk.injEq] at hm
        rcases hm with ⟨rfl, rfl⟩ | hm
        · simp only [List.any_eq_true, decide_eq_true_eq] at hany
          obtain ⟨s, hs, hs'⟩ := hany
          exact ⟨s, by simp [hs], hs'⟩
        · exact h4 d' i' hm
      · obtain ⟨dom, hdom⟩ := FMap.contains_iff.mp (hd d (by simp))
        obtain ⟨c, hc, _⟩ := tableChoices_spec hσ hdom (ha d dom hdom) i
        obtain ⟨tl, h1, h2, h3, h4⟩ := ih is (acc ++ [{ dom := d, item := i, choices := c }]) (by simpa using hl)
          (fun d' hd' => hd d' (by simp [hd'])) (by
            intro s hs
            rcases List.mem_append.mp hs with hs | hs
            · exact hacc s hs
            · rw [List.mem_singleton.mp hs]; exact ⟨hd d (by simp), hc⟩)
        refine ⟨{ dom := d, item := i, choices := c } :: tl, ?_, ?_, ?_, ?_⟩
        · simp only [slotsOne, hany, Bool.false_eq_true, if_false, bind, Except.bind, hc, h1]
          simp
        · simpa using h2
        · intro s hs
          rcases List.mem_cons.mp hs with rfl | hs
          · simp
          · simp [h3 s hs]
        · intro d' i' hm
          simp only [List.zip_cons_cons, List.mem_cons, Prod.mk.injEq] at hm
          rcases hm with ⟨rfl, rfl⟩ | hm
          · exact ⟨⟨d', i', c⟩, by simp, rfl, rfl⟩
          · obtain ⟨s, hs, hs'⟩ := h4 d' i' hm
            exact ⟨s, by simpa using hs, hs'⟩

theorem slots_spec {I : IRM F} (h : Inv L ar I) : ∀ (keys : List (String × Items)) (seen : List (String × Items)) (acc : List Slot),
    keys.Nodup → (∀ k ∈ keys, k ∉ seen) →
    (∀ n items, (n, items) ∈ keys → ∃ id r, I.rels.find? n = some (id, r) ∧ items.length = r.doms.length) →
    (∀ s ∈ acc, SlotOK I.doms s) →
    ∃ tl, (∀ vs : List V, vs.length = keys.length → slots I (zipObs keys vs) seen acc = .ok (acc ++ tl)) ∧
      (∀ s ∈ acc ++ tl, SlotOK I.doms s) ∧
      (∀ s ∈ tl, ∃ n items id r, (n, items) ∈ keys ∧ I.rels.find? n = some (id, r) ∧ (s.dom, s.item) ∈ r.doms.zip items) ∧
      ∀ n items id r, (n, items) ∈ keys → I.rels.find? n = some (id, r) →
        ∀ d i, (d, i) ∈ r.doms.zip items → ∃ s ∈ acc ++ tl, s.dom = d ∧ s.item = i := by
  intro keys
  induction keys with
  | nil =>
    intro seen acc _ _ _ hacc
    refine ⟨[], fun vs _ => by simp [zipObs, slots], by simpa using hacc, by simp, by simp⟩
  | cons k keys ih =>
    obtain ⟨n, items⟩ := k
    intro seen acc hnd hseen hk hacc
    obtain ⟨hnk, hnd⟩ := List.nodup_cons.mp hnd
    obtain ⟨id, r, hr, hl⟩ := hk n items (by simp)
    have hri := h.rels n id r hr
    obtain ⟨tl1, h1, h2, h2', h3⟩ := slotsOne_spec h.store h.alpha r.doms items acc hl hri.doms hacc
    obtain ⟨tl2, h4, h5, h5', h6⟩ := ih ((n, items) :: seen) (acc ++ tl1) hnd (by
        intro k' hk'
        simp only [List.mem_cons, not_or]
        exact ⟨fun he => hnk (he ▸ hk'), hseen k' (by simp [hk'])⟩)
      (fun n' items' hm => hk n' items' (by simp [hm])) h2
    refine ⟨tl1 ++ tl2, ?_, by simpa using h5, ?_, ?_⟩
    · intro vs hvs
      cases vs with
      | nil => simp at hvs
      | cons v vs =>
        have hns : (n, items) ∉ seen := hseen (n, items) (by simp)
        have := h4 vs (by simpa using hvs)
        simp only [zipObs, List.zipWith_cons_cons, slots, bind, Except.bind, assertR, hns, decide_false, Bool.not_false, if_true,
          FMap.atKey_of_find hr, hl, decide_true, h1]
        simp only [zipObs] at this
        rw [this]
        simp
    · intro s hs
      rcases List.mem_append.mp hs with hs | hs
      · exact ⟨n, items, id, r, by simp, hr, h2' s hs⟩
      · obtain ⟨n', items', id', r', a1, a2⟩ := h5' s hs
        exact ⟨n', items', id', r', by simp [a1], a2⟩
    · intro n' items' id' r' hm hr' d i hz
      rcases List.mem_cons.mp hm with he | hm
      · cases he
        rw [hr] at hr'
        cases hr'
        obtain ⟨s, hs, hs'⟩ := h3 d i hz
        exact ⟨s, by simp only [← List.append_assoc]; exact List.mem_append_left _ hs, hs'⟩
      · obtain ⟨s, hs, hs'⟩ := h6 n' items' id' r' hm hr' d i hz
        exact ⟨s, by simpa using hs, hs'⟩

/-- the index ranges of the slots -/
def ranges (ss : List Slot) : List (List Int) := ss.map (fun s => (List.range s.choices.length).map (fun (k : Nat) => (k : Int)))

theorem mem_ranges : ∀ (ss : List Slot) (ix : List Int), ix ∈ cartesian (ranges ss) →
    ix.length = ss.length ∧ ∀ (j : Nat) (s : Slot), ss[j]? = some s → ∃ k : Nat, ix[j]? = some (k : Int) ∧ k < s.choices.length := by
  intro ss
  induction ss with
  | nil => intro ix hx; simp [ranges, cartesian] at hx; subst hx; simp
  | cons s ss ih =>
    intro ix hx
    simp only [ranges, List.map_cons, cartesian, List.mem_flatMap, List.mem_map, List.mem_range] at hx
    obtain ⟨_, ⟨k, hk, rfl⟩, y, hy, rfl⟩ := hx
    obtain ⟨h1, h2⟩ := ih y hy
    refine ⟨by simp [h1], ?_⟩
    intro j s' hs'
    cases j with
    | zero => simp at hs'; subst hs'; exact ⟨k, by simp, hk⟩
    | succ j => simpa using h2 j s' (by simpa using hs')

theorem tupleTables_ok {ss : List Slot} {ix : List Int} (hx : ix ∈ cartesian (ranges ss)) : ∀ (ds : List String) (is : Items),
    is.length = ds.length → (∀ d i, (d, i) ∈ ds.zip is → ∃ s ∈ ss, s.dom = d ∧ s.item = i) →
    ∃ z, tupleTables ss ix ds is = .ok z := by
  obtain ⟨hlen, hix⟩ := mem_ranges ss ix hx
  intro ds
  induction ds with
  | nil => intro is _ _; exact ⟨[], by simp [tupleTables]⟩
  | cons d ds ih =>
    intro is hl hs
    cases is with
    | nil => simp at hl
    | cons i is =>
      obtain ⟨z, hz⟩ := ih is (by simpa using hl) (fun d' i' hm => hs d' i' (by simp [hm]))
      obtain ⟨s, hm, h1, h2⟩ := hs d i (by simp)
      have hloc : ss.findIdx (fun s => decide (s.dom = d ∧ s.item = i)) < ss.length :=
        List.findIdx_lt_length_of_exists ⟨s, hm, by simp [h1, h2]⟩
      have hg := List.getElem?_eq_getElem hloc
      obtain ⟨k, hk1, hk2⟩ := hix _ _ hg
      refine ⟨(ss[ss.findIdx (fun s => decide (s.dom = d ∧ s.item = i))].choices[k]).1 :: z, ?_⟩
      · simp only [tupleTables, atR, hg, hk1, bind, Except.bind, Int.toNat_natCast, List.getElem?_eq_getElem hk2, hz]

theorem sum_flatMap {α β : Type _} (l : List α) (f : α → List β) (g : β → ℝ) :
    ((l.flatMap f).map g).sum = (l.map (fun a => ((f a).map g).sum)).sum := by
  induction l with
  | nil => simp
  | cons a l ih => simp [ih]

/-- the weights of all combinations -/
theorem weights_spec : ∀ (ss : List Slot), ∃ W : List Int → ℝ, (∀ ix ∈ cartesian (ranges ss), weightOf ss ix = .ok (W ix)) ∧
    ((cartesian (ranges ss)).map (fun ix => Real.exp (W ix))).sum = (ss.map (fun s => massOf s.choices)).prod := by
  intro ss
  induction ss with
  | nil => exact ⟨fun _ => 0, by simp [ranges, cartesian, weightOf], by simp [ranges, cartesian]⟩
  | cons s ss ih =>
    obtain ⟨W, h1, h2⟩ := ih
    refine ⟨fun ix => match ix with | [] => 0 | k :: ks => (s.choices.getD k.toNat (0, 0)).2 + W ks, ?_, ?_⟩
    · intro ix hx
      simp only [ranges, List.map_cons, cartesian, List.mem_flatMap, List.mem_map, List.mem_range] at hx
      obtain ⟨_, ⟨k, hk, rfl⟩, y, hy, rfl⟩ := hx
      simp only [weightOf, bind, Except.bind, atR, Int.toNat_natCast, List.getElem?_eq_getElem hk, h1 y hy, List.getD_eq_getElem?_getD,
        Option.getD_some]
    · simp only [ranges, List.map_cons, cartesian, List.prod_cons]
      rw [sum_flatMap]
      simp only [List.map_map, Function.comp_def, Int.toNat_natCast, Real.exp_add, List.sum_map_mul_left]
      rw [show (List.map (fun s => List.map (fun (x : Nat) => (x : Int)) (List.range s.choices.length)) ss) = ranges ss from rfl, h2,
        List.sum_map_mul_right]
      congr 1
      unfold massOf
      congr 1
      apply List.ext_getElem (by simp)
      intro j hj1 hj2
      simp only [List.getElem_map, List.getElem_range, List.getD_eq_getElem?_getD]
      rw [List.getElem?_eq_getElem (by simpa using hj2)]
      rfl

/-- the values of a relation are scored by every cluster, without changing the relation -/
def Scored (r : Rel F) (vals : List V) : Prop :=
  ∀ z, ∃ g : V → ℝ, (∀ v ∈ vals, ∀ t, ∃ t', r.clusterOrPriorLogp z v t = .ok (g v, r, t')) ∧ (vals.map (fun v => Real.exp (g v))).sum = 1

theorem combLogp_spec {I : IRM F} {ss : List Slot} {ix : List Int} {vals : String → List V} (hx : ix ∈ cartesian (ranges ss)) :
    ∀ (keys : List (String × Items)),
    (∀ n items, (n, items) ∈ keys → ∃ id r, I.rels.find? n = some (id, r) ∧ items.length = r.doms.length ∧ Scored r (vals n) ∧
      ∀ d i, (d, i) ∈ r.doms.zip items → ∃ s ∈ ss, s.dom = d ∧ s.item = i) →
    ∃ H : List V → ℝ, (∀ vs ∈ cartesian (keys.map (fun k => vals k.1)), ∀ t, ∃ t', combLogp ss ix (zipObs keys vs) I t = .ok (H vs, I, t')) ∧
      ((cartesian (keys.map (fun k => vals k.1))).map (fun vs => Real.exp (H vs))).sum = 1 := by
  intro keys
  induction keys with
  | nil => intro _; exact ⟨fun _ => 0, by simp [cartesian, zipObs, combLogp], by simp [cartesian]⟩
  | cons k keys ih =>
    obtain ⟨n, items⟩ := k
    intro hk
    obtain ⟨H, h1, h2⟩ := ih (fun n' items' hm => hk n' items' (by simp [hm]))
    obtain ⟨id, r, hr, hl, hsc, hcov⟩ := hk n items (by simp)
    obtain ⟨z, hz⟩ := tupleTables_ok hx r.doms items hl hcov
    obtain ⟨g, hg1, hg2⟩ := hsc z
    refine ⟨fun vs => match vs with | [] => 0 | v :: vs => g v + H vs, ?_, ?_⟩
    · intro vs hvs t
      simp only [List.map_cons, cartesian, List.mem_flatMap, List.mem_map] at hvs
      obtain ⟨v, hv, y, hy, rfl⟩ := hvs
      obtain ⟨t1, e1⟩ := hg1 v hv t
      obtain ⟨t2, e2⟩ := h1 y hy t1
      refine ⟨t2, ?_⟩
      have hset : ({ I with rels := I.rels.set n (id, r) } : IRM F) = I := by rw [FMap.set_of_find hr]
      simp only [zipObs] at e2
      simp only [zipObs, List.zipWith_cons_cons, combLogp, bind, Except.bind, FMap.atKey_of_find hr, hz, e1, hset, e2]
    · simp only [List.map_cons, cartesian]
      rw [sum_flatMap]
      simp only [List.map_map, Function.comp_def, Real.exp_add, List.sum_map_mul_left, h2, mul_one]
      exact hg2

theorem mem_cartesian_length {α : Type _} : ∀ (ls : List (List α)) (x : List α), x ∈ cartesian ls → x.length = ls.length := by
  intro ls
  induction ls with
  | nil => intro x hx; simp [cartesian] at hx; simp [hx]
  | cons l ls ih =>
    intro x hx
    simp only [cartesian, List.mem_flatMap, List.mem_map] at hx
    obtain ⟨a, _, y, hy, rfl⟩ := hx
    simp [ih y hy]

theorem logpLoop_spec {I : IRM F} {ss : List Slot} {obs : List (String × Items × V)} {W H : List Int → ℝ} :
    ∀ (l : List (List Int)), (∀ ix ∈ l, weightOf ss ix = .ok (W ix)) →
    (∀ ix ∈ l, ∀ t, ∃ t', combLogp ss ix obs I t = .ok (H ix, I, t')) →
    ∀ t, ∃ t', logpLoop ss obs l I t = .ok (l.map (fun ix => ((W ix + H ix : ℝ) : WithBot ℝ)), I, t') := by
  intro l
  induction l with
  | nil => intro _ _ t; exact ⟨t, rfl⟩
  | cons ix l ih =>
    intro hw hc t
    obtain ⟨t1, h1⟩ := hc ix (by simp) t
    obtain ⟨t2, h2⟩ := ih (fun i hi => hw i (by simp [hi])) (fun i hi => hc i (by simp [hi])) t1
    exact ⟨t2, by simp only [logpLoop, bind, Except.bind, hw ix (by simp), h1, h2, List.map_cons]⟩

theorem sum_comm_lists {α β : Type _} (l : List α) (m : List β) (f : α → β → ℝ) :
    (l.map (fun a => (m.map (fun b => f a b)).sum)).sum = (m.map (fun b => (l.map (fun a => f a b)).sum)).sum := by
  induction l with
  | nil => simp
  | cons a l ih => simp [ih, List.sum_map_add]

theorem logp_total {I : IRM F} (h : Inv L ar I) {vals : String → List V} {keys : List (String × Items)} (hne : keys ≠ []) (hnd : keys.Nodup)
    (hk : ∀ n items, (n, items) ∈ keys → ∃ id r, I.rels.find? n = some (id, r) ∧ items.length = r.doms.length ∧ Scored r (vals n)) :
    ∃ (ss : List Slot) (lp : List V → ℝ), ss ≠ [] ∧
      (∀ s ∈ ss, SlotOK I.doms s ∧ ∃ n items id r, (n, items) ∈ keys ∧ I.rels.find? n = some (id, r) ∧ (s.dom, s.item) ∈ r.doms.zip items) ∧
      (∀ vs ∈ cartesian (keys.map (fun k => vals k.1)), ∀ t, ∃ t', logp I (zipObs keys vs) t = .ok ((lp vs : WithBot ℝ), I, t')) ∧
      ((cartesian (keys.map (fun k => vals k.1))).map (fun vs => Real.exp (lp vs))).sum = (ss.map (fun s => massOf s.choices)).prod := by
  obtain ⟨ss, h1, h2, h2', h3⟩ := slots_spec h keys [] [] hnd (by simp) (fun n items hm => by
    obtain ⟨id, r, a1, a2, _⟩ := hk n items hm; exact ⟨id, r, a1, a2⟩) (by simp)
  simp only [List.nil_append] at h1 h2 h3
  -- there is a slot
  have hssne : ss ≠ [] := by
    obtain ⟨⟨n, items⟩, hm⟩ := List.exists_mem_of_ne_nil keys hne
    obtain ⟨id, r, a1, a2, _⟩ := hk n items hm
    have hrn := (h.rels n id r a1).ne
    obtain ⟨d, ds, hds⟩ := List.exists_cons_of_ne_nil hrn
    obtain ⟨i, is, his⟩ : ∃ i is, items = i :: is := by
      cases items with
      | nil => rw [hds] at a2; simp at a2
      | cons i is => exact ⟨i, is, rfl⟩
    obtain ⟨s, hs, _⟩ := h3 n items id r hm a1 d i (by rw [hds, his]; simp)
    exact List.ne_nil_of_mem hs
  have hchoices : ∀ s ∈ ss, s.choices ≠ [] := by
    intro s hs
    obtain ⟨b1, b2⟩ := h2 s hs
    obtain ⟨dom, hdom⟩ := FMap.contains_iff.mp b1
    obtain ⟨c, c1, c2, _⟩ := tableChoices_spec h.store hdom (h.alpha _ dom hdom) s.item
    rw [b2] at c1; cases c1; exact c2
  obtain ⟨W, hW1, hW2⟩ := weights_spec ss
  have hcomb : ∀ ix, ∃ H : List V → ℝ, ix ∈ cartesian (ranges ss) →
      (∀ vs ∈ cartesian (keys.map (fun k => vals k.1)), ∀ t, ∃ t', combLogp ss ix (zipObs keys vs) I t = .ok (H vs, I, t')) ∧
      ((cartesian (keys.map (fun k => vals k.1))).map (fun vs => Real.exp (H vs))).sum = 1 := by
    intro ix
    by_cases hx : ix ∈ cartesian (ranges ss)
    · obtain ⟨H, hH⟩ := combLogp_spec (I := I) (vals := vals) hx keys (fun n items hm => by
        obtain ⟨id, r, a1, a2, a3⟩ := hk n items hm
        exact ⟨id, r, a1, a2, a3, fun d i hz => h3 n items id r hm a1 d i hz⟩)
      exact ⟨H, fun _ => hH⟩
    · exact ⟨fun _ => 0, fun hx' => absurd hx' hx⟩
  choose H hH using hcomb
  have hcne : cartesian (ranges ss) ≠ [] := by
    have : ∀ ss : List Slot, (∀ s ∈ ss, s.choices ≠ []) → cartesian (ranges ss) ≠ [] := by
      intro ss
      induction ss with
      | nil => intro _; simp [ranges, cartesian]
      | cons s ss ih =>
        intro hs
        obtain ⟨x, hx⟩ := List.exists_mem_of_ne_nil _ (ih (fun s' hs' => hs s' (by simp [hs'])))
        have hpos := List.length_pos_iff.mpr (hs s (by simp))
        apply List.ne_nil_of_mem (a := ((0 : Nat) : Int) :: x)
        simp only [ranges, List.map_cons, cartesian, List.mem_flatMap, List.mem_map, List.mem_range]
        exact ⟨((0 : Nat) : Int), ⟨0, hpos, rfl⟩, x, hx, rfl⟩
    exact this ss hchoices
  have hval : ∀ vs, ∃ lp : ℝ, vs ∈ cartesian (keys.map (fun k => vals k.1)) →
      (∀ t, ∃ t', logp I (zipObs keys vs) t = .ok ((lp : WithBot ℝ), I, t')) ∧
      Real.exp lp = ((cartesian (ranges ss)).map (fun ix => Real.exp (W ix + H ix vs))).sum := by
    intro vs
    by_cases hvs : vs ∈ cartesian (keys.map (fun k => vals k.1))
    · have hlen : vs.length = keys.length := by rw [mem_cartesian_length _ _ hvs]; simp
      obtain ⟨x, hx1, hx2, hx3⟩ := C08_logsumexp (w := (cartesian (ranges ss)).map (fun ix => ((W ix + H ix vs : ℝ) : WithBot ℝ))) (by
        simpa using hcne)
      cases x with
      | bot =>
        exfalso
        obtain ⟨ix, hix⟩ := List.exists_mem_of_ne_nil _ hcne
        have := hx3.mp rfl _ (List.mem_map.mpr ⟨ix, hix, rfl⟩)
        exact WithBot.coe_ne_bot this
      | coe lp =>
        refine ⟨lp, fun _ => ⟨fun t => ?_, ?_⟩⟩
        · obtain ⟨t', ht'⟩ := logpLoop_spec (I := I) (obs := zipObs keys vs) (W := W) (H := fun ix => H ix vs) (cartesian (ranges ss)) hW1
            (fun ix hix => (hH ix hix).1 vs hvs) t
          refine ⟨t', ?_⟩
          have hprod : product (ranges ss) = .ok (cartesian (ranges ss)) := C07_product_eq (by simpa [ranges] using hssne)
          simp only [logp, bind, Except.bind, h1 vs hlen]
          rw [show List.map (fun s => List.map (fun (k : Nat) => (k : Int)) (List.range s.choices.length)) ss = ranges ss from rfl, hprod]
          simp only [ht', hx1]
        · have : expW (lp : WithBot ℝ) = Real.exp lp := rfl
          rw [this] at hx2
          rw [hx2, List.map_map]
          rfl
    · exact ⟨0, fun hvs' => absurd hvs' hvs⟩
  choose lp hlp using hval
  refine ⟨ss, lp, hssne, fun s hs => ⟨h2 s hs, h2' s hs⟩, fun vs hvs => (hlp vs hvs).1, ?_⟩
  have e1 : (cartesian (keys.map (fun k => vals k.1))).map (fun vs => Real.exp (lp vs)) =
      (cartesian (keys.map (fun k => vals k.1))).map (fun vs => ((cartesian (ranges ss)).map (fun ix => Real.exp (W ix + H ix vs))).sum) := by
    apply List.map_congr_left
    intro vs hvs
    exact (hlp vs hvs).2
  rw [e1, sum_comm_lists, ← hW2]
  congr 1
  apply List.map_congr_left
  intro ix hix
  simp only [Real.exp_add, List.sum_map_mul_left]
  rw [(hH ix hix).2, mul_one]

theorem scored_clean {c : F.C} {r : CleanRel (F.dist c).toDistOps} {σ : Doms} (h : Rel.Inv L ar σ (.clean c r)) {vals : List V}
    (hfresh : ∀ t t', ((F.dist c).fresh t).1 = ((F.dist c).fresh t').1) (hn : (F.dist c).toDistOps.Normalised (L.suppC c) vals) :
    Scored (.clean c r) vals := by
  intro z
  cases hz : r.clusters.find? z with
  | some s =>
    obtain ⟨f, h1, h2⟩ := hn _ s ((CleanRel.Inv.cl h z).2 s hz).2
    refine ⟨f, fun v hv t => ⟨t, ?_⟩, h2⟩
    have : ({ r with clusters := r.clusters.set z s } : CleanRel (F.dist c).toDistOps) = r := by rw [FMap.set_of_find hz]
    simp only [Rel.clusterOrPriorLogp, CleanRel.clusterOrPriorLogp, hz, h1 v hv, bind, Except.bind, this]
  | none =>
    obtain ⟨f, h1, h2⟩ := hn 0 ((F.dist c).fresh []).1 (holds_fresh [])
    refine ⟨f, fun v hv t => ⟨((F.dist c).fresh t).2, ?_⟩, h2⟩
    simp only [Rel.clusterOrPriorLogp, CleanRel.clusterOrPriorLogp, hz, CleanRel.priorLogp, bind, Except.bind, hfresh t [], h1 v hv]

/-- evaluation leaves the clusters alone -/
theorem clusterOrPriorLogp_same {σ : Doms} (hrt : ∀ c, (F.dist c).toDistOps.LogpPure (L.suppC c)) {r r' : Rel F} (h : r.Inv L ar σ)
    {b : Option (BaseView V)} {items z : Items} {v : V} (hv : r.Supports L b items v) {t t' : Tape} {x : ℝ}
    (hc : r.clusterOrPriorLogp z v t = .ok (x, r', t')) : r' = r := by
  cases r with
  | noisy e p r => simp [Rel.clusterOrPriorLogp, NoisyRel.clusterOrPriorLogp, bind, Except.bind] at hc
  | clean c r =>
    simp only [Rel.clusterOrPriorLogp, CleanRel.clusterOrPriorLogp] at hc
    cases hz : r.clusters.find? z with
    | some s =>
      obtain ⟨y, hy⟩ := hrt c _ s v ((CleanRel.Inv.cl h z).2 s hz).2 hv
      have : ({ r with clusters := r.clusters.set z s } : CleanRel (F.dist c).toDistOps) = r := by rw [FMap.set_of_find hz]
      simp only [hz, hy, bind, Except.bind, this] at hc
      cases hc; rfl
    | none =>
      simp only [hz, bind, Except.bind] at hc
      split at hc
      · cases hc
      · rename_i q hq
        split at hq
        · cases hq
        · cases hq; cases hc; rfl

theorem combLogp_same {ss : List Slot} {ix : List Int} {env : Env V} (hrt : ∀ c, (F.dist c).toDistOps.LogpPure (L.suppC c)) {I : IRM F}
    (h : Inv L ar I) : ∀ (obs : List (String × Items × V)) (t : Tape) (s : ℝ) (I' : IRM F) (t' : Tape),
    (∀ name items v, (name, items, v) ∈ obs → ∀ id r, I.rels.find? name = some (id, r) → r.Supports L (baseOf env r) items v) →
    combLogp ss ix obs I t = .ok (s, I', t') → I' = I := by
  intro obs
  induction obs with
  | nil => intro t s I' t' _ hc; cases hc; rfl
  | cons o obs ih =>
    obtain ⟨n, items, v⟩ := o
    intro t s I' t' hv hc
    obtain ⟨⟨id, r⟩, h1, h2⟩ := bind_ok.mp hc
    obtain ⟨z, h3, h4⟩ := bind_ok.mp h2
    obtain ⟨⟨lp, r', t1⟩, h5, h6⟩ := bind_ok.mp h4
    obtain ⟨⟨s2, I2, t2⟩, h7, h8⟩ := bind_ok.mp h6
    have hr := FMap.atKey_ok.mp h1
    have := clusterOrPriorLogp_same hrt (h.rels n id r hr) (hv n items v (by simp) id r hr) h5
    subst this
    rw [FMap.set_of_find hr] at h7
    cases h8
    exact ih t1 s2 _ _ (fun a b c hm => hv a b c (by simp [hm])) h7

theorem logpLoop_same {ss : List Slot} {env : Env V} (hrt : ∀ c, (F.dist c).toDistOps.LogpPure (L.suppC c)) {I : IRM F}
    (h : Inv L ar I) {obs : List (String × Items × V)}
    (hv : ∀ name items v, (name, items, v) ∈ obs → ∀ id r, I.rels.find? name = some (id, r) → r.Supports L (baseOf env r) items v) :
    ∀ (l : List (List Int)) (t : Tape) (lps : List (WithBot ℝ)) (I' : IRM F) (t' : Tape),
    logpLoop ss obs l I t = .ok (lps, I', t') → I' = I := by
  intro l
  induction l with
  | nil => intro t s I' t' hc; cases hc; rfl
  | cons ix l ih =>
    intro t s I' t' hc
    obtain ⟨w, h1, h2⟩ := bind_ok.mp hc
    obtain ⟨⟨s1, I1, t1⟩, h3, h4⟩ := bind_ok.mp h2
    obtain ⟨⟨l1, I2, t2⟩, h5, h6⟩ := bind_ok.mp h4
    have := combLogp_same hrt h obs t s1 I1 t1 hv h3
    subst this
    cases h6
    exact ih t1 _ _ _ h5

theorem logp_same {env : Env V} (hrt : ∀ c, (F.dist c).toDistOps.LogpPure (L.suppC c)) {I I' : IRM F} (h : Inv L ar I)
    {obs : List (String × Items × V)}
    (hv : ∀ name items v, (name, items, v) ∈ obs → ∀ id r, I.rels.find? name = some (id, r) → r.Supports L (baseOf env r) items v)
    {t t' : Tape} {lp : WithBot ℝ} (hc : logp I obs t = .ok (lp, I', t')) : I' = I := by
  obtain ⟨ss, _, h2⟩ := bind_ok.mp hc
  obtain ⟨pr, _, h4⟩ := bind_ok.mp h2
  obtain ⟨⟨lps, I1, t1⟩, h5, h6⟩ := bind_ok.mp h4
  obtain ⟨v, _, h8⟩ := bind_ok.mp h6
  cases h8
  exact logpLoop_same hrt h hv pr t _ _ _ h5

end IRM
end
end Verif
