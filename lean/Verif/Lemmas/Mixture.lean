import Verif.Lemmas.IRMLogp
import Verif.Spec.Mixture
/-! Helper lemmas: the joint predictive of an IRM is a mixture over cluster assignments. -/
namespace Verif
open Spec
noncomputable section
variable {V : Type} {F : Family V} {L : FamilyLaws F} {ar : Ptr → Option Nat}

theorem mixture_perm {cand : Ent → List (Int × ℝ)} {G : (Ent → Int) → ℝ} {U U' : List Ent} (h : U.Perm U') (hnd : U.Nodup) (a : Ent → Int) :
    mixture cand G U a = mixture cand G U' a := by
  induction h generalizing a with
  | nil => rfl
  | cons u _ ih =>
    simp only [mixture]
    congr 1
    apply List.map_congr_left
    intro c _
    rw [ih (List.nodup_cons.mp hnd).2]
  | swap u v l =>
    simp only [mixture, ← List.sum_map_mul_left]
    rw [IRM.sum_comm_lists]
    congr 1
    apply List.map_congr_left
    intro c _
    congr 1
    apply List.map_congr_left
    intro e _
    rw [Function.update_comm (by rintro rfl; simp at hnd)]
    ring
  | trans h1 _ ih1 ih2 => rw [ih1 hnd, ih2 (h1.nodup_iff.mp hnd)]

namespace IRM

/-- the entity of a slot -/
def Slot.key (s : Slot) : Ent := (s.dom, s.item)

theorem slotsOne_nodup {σ : Doms} : ∀ (ds : List String) (is : Items) (acc out : List Slot), slotsOne σ ds is acc = .ok out →
    (acc.map Slot.key).Nodup → (out.map Slot.key).Nodup := by
  intro ds
  induction ds with
  | nil => intro is acc out hc h; cases hc; exact h
  | cons d ds ih =>
    intro is acc out hc h
    cases is with
    | nil => cases hc
    | cons i is =>
      unfold slotsOne at hc
      split at hc
      · exact ih is acc out hc h
      · rename_i hn
        obtain ⟨c, _, h2⟩ := bind_ok.mp hc
        refine ih is _ out h2 ?_
        rw [List.map_append, List.nodup_append]
        refine ⟨h, by simp, ?_⟩
        intro x hx y hy he
        simp only [List.map_cons, List.map_nil, List.mem_singleton] at hy
        obtain ⟨s, hs, rfl⟩ := List.mem_map.mp hx
        apply hn
        simp only [List.any_eq_true, decide_eq_true_eq]
        rw [hy] at he
        simp only [Slot.key, Prod.mk.injEq] at he
        exact ⟨s, hs, he⟩

theorem slots_nodup {I : IRM F} : ∀ (obs : List (String × Items × V)) (seen : List (String × Items)) (acc out : List Slot),
    slots I obs seen acc = .ok out → (acc.map Slot.key).Nodup → (out.map Slot.key).Nodup := by
  intro obs
  induction obs with
  | nil => intro seen acc out hc h; cases hc; exact h
  | cons o obs ih =>
    obtain ⟨n, items, v⟩ := o
    intro seen acc out hc h
    obtain ⟨_, _, hc⟩ := bind_ok.mp hc
    obtain ⟨⟨_, r⟩, _, hc⟩ := bind_ok.mp hc
    obtain ⟨_, _, hc⟩ := bind_ok.mp hc
    obtain ⟨acc', h1, hc⟩ := bind_ok.mp hc
    exact ih _ _ _ hc (slotsOne_nodup _ _ _ _ h1 h)

/-- the assignment that a combination of choices stands for -/
def asg : List Slot → List Int → (Ent → Int) → Ent → Int
  | s :: ss, k :: ks, a => asg ss ks (Function.update a s.key (s.choices.getD k.toNat (0, 0)).1)
  | _, _, a => a

theorem asg_not_mem : ∀ (ss : List Slot) (ix : List Int) (a : Ent → Int) (u : Ent), u ∉ ss.map Slot.key → asg ss ix a u = a u := by
  intro ss
  induction ss with
  | nil => intro ix a u _; rfl
  | cons s ss ih =>
    intro ix a u hu
    cases ix with
    | nil => rfl
    | cons k ks =>
      simp only [List.map_cons, List.mem_cons, not_or] at hu
      rw [asg, ih ks _ u hu.2, Function.update_of_ne hu.1]

theorem asg_mem : ∀ (ss : List Slot) (ix : List Int) (a : Ent → Int) (d : String) (i : Int), (ss.map Slot.key).Nodup → ix ∈ cartesian (ranges ss) →
    (d, i) ∈ ss.map Slot.key → ∃ s k, ss[ss.findIdx (fun s => decide (s.dom = d ∧ s.item = i))]? = some s ∧
      ix[ss.findIdx (fun s => decide (s.dom = d ∧ s.item = i))]? = some k ∧ s.choices[k.toNat]? = some (s.choices.getD k.toNat (0, 0)) ∧
      asg ss ix a (d, i) = (s.choices.getD k.toNat (0, 0)).1 := by
  intro ss
  induction ss with
  | nil => intro ix a d i _ _ hm; simp at hm
  | cons s ss ih =>
    intro ix a d i hnd hx hm
    simp only [ranges, List.map_cons, cartesian, List.mem_flatMap, List.mem_map, List.mem_range] at hx
    obtain ⟨_, ⟨k, hk, rfl⟩, y, hy, rfl⟩ := hx
    rw [List.map_cons, List.nodup_cons] at hnd
    by_cases hs : s.dom = d ∧ s.item = i
    · have hkey : s.key = (d, i) := by rw [Slot.key, hs.1, hs.2]
      refine ⟨s, k, ?_, ?_, ?_, ?_⟩
      · simp [List.findIdx_cons, hs]
      · simp [List.findIdx_cons, hs]
      · rw [Int.toNat_natCast, List.getD_eq_getElem?_getD, List.getElem?_eq_getElem hk]; rfl
      · rw [asg, asg_not_mem ss y _ _ (by rw [← hkey]; exact hnd.1), hkey, Function.update_self]
    · have hm' : (d, i) ∈ ss.map Slot.key := by
        rcases List.mem_cons.mp hm with h | h
        · exact absurd (by simp only [Slot.key, Prod.mk.injEq] at h; exact ⟨h.1.symm, h.2.symm⟩) hs
        · exact h
      obtain ⟨s', k', h1, h2, h3, h4⟩ := ih y (Function.update a s.key (s.choices.getD (k : Int).toNat (0, 0)).1) d i hnd.2 hy hm'
      have hd : decide (s.dom = d ∧ s.item = i) = false := decide_eq_false hs
      refine ⟨s', k', ?_, ?_, h3, h4⟩
      · rw [List.findIdx_cons, hd]; exact h1
      · rw [List.findIdx_cons, hd]; exact h2

theorem tupleTables_asg {ss : List Slot} {ix : List Int} (hnd : (ss.map Slot.key).Nodup) (hx : ix ∈ cartesian (ranges ss)) (a : Ent → Int) :
    ∀ (ds : List String) (is : Items), is.length = ds.length → (∀ u ∈ ds.zip is, u ∈ ss.map Slot.key) →
    tupleTables ss ix ds is = .ok ((ds.zip is).map (asg ss ix a)) := by
  intro ds
  induction ds with
  | nil => intro is _ _; simp [tupleTables]
  | cons d ds ih =>
    intro is hl hm
    cases is with
    | nil => simp at hl
    | cons i is =>
      obtain ⟨s, k, h1, h2, h3, h4⟩ := asg_mem ss ix a d i hnd hx (hm (d, i) (by simp))
      have h5 := ih is (by simpa using hl) (fun u hu => hm u (by simp [hu]))
      simp only [tupleTables, atR, h1, h2, h3, h5, bind, Except.bind, List.zip_cons_cons, List.map_cons, h4]

/-- the log weight of a combination -/
def wt : List Slot → List Int → ℝ
  | s :: ss, k :: ks => (s.choices.getD k.toNat (0, 0)).2 + wt ss ks
  | _, _ => 0

theorem weightOf_wt : ∀ (ss : List Slot) (ix : List Int), ix ∈ cartesian (ranges ss) → weightOf ss ix = .ok (wt ss ix) := by
  intro ss
  induction ss with
  | nil => intro ix _; simp [weightOf, wt]
  | cons s ss ih =>
    intro ix hx
    simp only [ranges, List.map_cons, cartesian, List.mem_flatMap, List.mem_map, List.mem_range] at hx
    obtain ⟨_, ⟨k, hk, rfl⟩, y, hy, rfl⟩ := hx
    simp only [weightOf, bind, Except.bind, atR, Int.toNat_natCast, List.getElem?_eq_getElem hk, ih y hy, wt, List.getD_eq_getElem?_getD,
      Option.getD_some]

theorem choices_candidates {σ : Doms} (hσ : StoreWF σ) (ha : ∀ d dom, σ.find? d = some dom → 0 < dom.crp.alpha) {s : Slot} (hs : SlotOK σ s) :
    candidates σ s.key = s.choices.map (fun c => (c.1, Real.exp c.2)) := by
  obtain ⟨h1, h2⟩ := hs
  obtain ⟨dom, hd⟩ := FMap.contains_iff.mp h1
  have hw := hσ _ dom hd
  have hget : σ.get s.dom = .ok dom := by simp [Doms.get, hd]
  unfold CleanRel.tableChoices at h2
  simp only [hget, bind, Except.bind] at h2
  unfold candidates Slot.key
  simp only [hd]
  by_cases hi : dom.items.contains s.item = true
  · obtain ⟨z, hz⟩ := hw.mem.mp hi
    simp only [hi, if_true, Domain.getClusterAssignment_eq hw hz] at h2
    have hseat : dom.crp.seating s.item = some z := hz
    injection h2 with h2
    simp [hseat, ← h2]
  · have hseat : dom.crp.seating s.item = none := by
      cases hx : dom.crp.seating s.item with
      | none => rfl
      | some z => exact absurd (hw.mem.mpr ⟨z, hx⟩) hi
    simp only [hi, Bool.false_eq_true, if_false] at h2
    injection h2 with h2
    rw [hseat, ← h2]
    simp only [List.map_map]
    have hN0 : (0 : ℝ) ≤ dom.crp.N := by rw [hw.crp.count]; exact_mod_cast Nat.zero_le _
    have hNa : 0 < dom.crp.alpha + dom.crp.N := by have := ha _ dom hd; linarith
    apply List.map_congr_left
    rintro ⟨k, w⟩ he
    have hpos : 0 < w := by
      have hf := FMap.mem_entries.mp he
      by_cases hN : dom.crp.N = 0
      · have : dom.crp.tablesWeights = (∅ : FMap Int ℝ).set 0 1 := by simp [CRP.tablesWeights, hN]
        rw [this, FMap.find?_set] at hf
        split at hf
        · cases hf; exact one_pos
        · simp at hf
      · rw [CRP.find?_tablesWeights hw.crp hN] at hf
        split at hf
        · cases hf; exact ha _ dom hd
        · cases hs : dom.crp.tables.find? k with
          | none => rw [hs] at hf; cases hf
          | some s =>
            rw [hs] at hf
            cases hf
            exact Nat.cast_pos.mpr (CRP.size_pos hw.crp hs)
    simp only [Function.comp]
    rw [Real.exp_sub, Real.exp_log hpos, Real.exp_log hNa]

theorem sum_mixture {σ : Doms} (hσ : StoreWF σ) (ha : ∀ d dom, σ.find? d = some dom → 0 < dom.crp.alpha) (G : (Ent → Int) → ℝ) :
    ∀ (ss : List Slot), (∀ s ∈ ss, SlotOK σ s) → ∀ a,
    ((cartesian (ranges ss)).map (fun ix => Real.exp (wt ss ix) * G (asg ss ix a))).sum = mixture (candidates σ) G (ss.map Slot.key) a := by
  intro ss
  induction ss with
  | nil => intro _ a; simp [ranges, cartesian, mixture, wt, asg]
  | cons s ss ih =>
    intro hs a
    have ih' := ih (fun s' hs' => hs s' (by simp [hs']))
    simp only [ranges, List.map_cons, cartesian, mixture]
    rw [sum_flatMap, choices_candidates hσ ha (hs s (by simp))]
    simp only [List.map_map, Function.comp_def, wt, asg, Int.toNat_natCast, Real.exp_add, mul_assoc, List.sum_map_mul_left]
    have e : (List.range s.choices.length).map (fun (j : Nat) => s.choices.getD j (0, 0)) = s.choices := by
      apply List.ext_getElem (by simp)
      intro j hj1 hj2
      simp only [List.getElem_map, List.getElem_range, List.getD_eq_getElem?_getD]
      rw [List.getElem?_eq_getElem (by simpa using hj2)]
      rfl
    conv_rhs => rw [← e]
    rw [List.map_map]
    congr 1
    apply List.map_congr_left
    intro j _
    simp only [Function.comp]
    rw [← ih']
    rfl

theorem valueLogp_spec {I : IRM F} (h : Inv L ar I) (hrt : ∀ c, (F.dist c).toDistOps.LogpPure (L.suppC c)) {name : String} {id : Nat} {c : F.C}
    {r : CleanRel (F.dist c).toDistOps} (hr : I.rels.find? name = some (id, .clean c r)) {v : V} (hv : L.suppC c v)
    (hf : ∀ t t', ((F.dist c).fresh t).1 = ((F.dist c).fresh t').1) (z : Items) (t : Tape) :
    ∃ t', (Rel.clean c r : Rel F).clusterOrPriorLogp z v t = .ok (I.valueLogp name z v, .clean c r, t') := by
  have hi : CleanRel.Inv (L.suppC c) I.doms r := h.rels name id _ hr
  unfold valueLogp
  simp only [hr]
  cases hz : r.clusters.find? z with
  | some s =>
    obtain ⟨x, hx⟩ := hrt c _ s v ((CleanRel.Inv.cl hi z).2 s hz).2 hv
    have : ({ r with clusters := r.clusters.set z s } : CleanRel (F.dist c).toDistOps) = r := by rw [FMap.set_of_find hz]
    refine ⟨t, ?_⟩
    simp only [Rel.clusterOrPriorLogp, CleanRel.clusterOrPriorLogp, hz, hx, bind, Except.bind, this, Option.getD_some]
  | none =>
    obtain ⟨x, hx⟩ := hrt c 0 ((F.dist c).fresh []).1 v (holds_fresh []) hv
    refine ⟨((F.dist c).fresh t).2, ?_⟩
    simp only [Rel.clusterOrPriorLogp, CleanRel.clusterOrPriorLogp, hz, CleanRel.priorLogp, bind, Except.bind, hf t [], hx, Option.getD_none]

theorem combLogp_asg {I : IRM F} (h : Inv L ar I) (hrt : ∀ c, (F.dist c).toDistOps.LogpPure (L.suppC c)) {ss : List Slot} {ix : List Int}
    (hnd : (ss.map Slot.key).Nodup) (hx : ix ∈ cartesian (ranges ss)) (a : Ent → Int) : ∀ (obs : List (String × Items × V)),
    (∀ o ∈ obs, I.Predictable L.suppC o) → (∀ o ∈ obs, ∀ u ∈ I.entities o.1 o.2.1, u ∈ ss.map Slot.key) →
    ∀ t, ∃ t', combLogp ss ix obs I t =
      .ok ((obs.map (fun o => I.valueLogp o.1 ((I.entities o.1 o.2.1).map (asg ss ix a)) o.2.2)).sum, I, t') := by
  intro obs
  induction obs with
  | nil => intro _ _ t; exact ⟨t, rfl⟩
  | cons o obs ih =>
    obtain ⟨n, items, v⟩ := o
    intro hp hm t
    obtain ⟨id, c, r, hr, hl, hv, hf⟩ := hp (n, items, v) (by simp)
    dsimp only at hr hl hv
    have hent : I.entities n items = r.doms.zip items := by simp [entities, domsOf, hr, Rel.doms]
    have h1 := tupleTables_asg hnd hx a r.doms items hl (fun u hu => hm (n, items, v) (by simp) u (by rw [hent]; exact hu))
    obtain ⟨t1, h2⟩ := valueLogp_spec h hrt hr hv hf ((I.entities n items).map (asg ss ix a)) t
    obtain ⟨t2, h3⟩ := ih (fun o ho => hp o (by simp [ho])) (fun o ho => hm o (by simp [ho])) t1
    refine ⟨t2, ?_⟩
    have hset : ({ I with rels := I.rels.set n (id, .clean c r) } : IRM F) = I := by rw [FMap.set_of_find hr]
    rw [hent] at h2
    simp only [combLogp, bind, Except.bind, FMap.atKey_of_find hr, Rel.doms, h1, h2, hset, h3, List.map_cons, List.sum_cons, hent]

theorem zipObs_map (obs : List (String × Items × V)) : zipObs (obs.map (fun o => (o.1, o.2.1))) (obs.map (fun o => o.2.2)) = obs := by
  induction obs with
  | nil => rfl
  | cons o obs ih => simp only [zipObs, List.map_cons, List.zipWith_cons_cons, List.cons.injEq, true_and]; exact ih

/-- `logp` is the logarithm of the mixture -/
theorem logp_mixture {I : IRM F} (h : Inv L ar I) (hrt : ∀ c, (F.dist c).toDistOps.LogpPure (L.suppC c)) {obs : List (String × Items × V)}
    (hne : obs ≠ []) (hnd : (obs.map (fun o => (o.1, o.2.1))).Nodup) (hp : ∀ o ∈ obs, I.Predictable L.suppC o) {U : List Ent} (hU : U.Nodup)
    (hUm : ∀ u, u ∈ U ↔ ∃ o ∈ obs, u ∈ I.entities o.1 o.2.1) (a : Ent → Int) :
    ∃ lp : ℝ, (∀ t, ∃ t', logp I obs t = .ok ((lp : WithBot ℝ), I, t')) ∧
      Real.exp lp = mixture (candidates I.doms) (I.jointGiven obs) U a := by
  have hent : ∀ o ∈ obs, ∃ id r, I.rels.find? o.1 = some (id, r) ∧ o.2.1.length = r.doms.length ∧ I.entities o.1 o.2.1 = r.doms.zip o.2.1 := by
    intro o ho
    obtain ⟨id, c, r, hr, hl, _⟩ := hp o ho
    exact ⟨id, .clean c r, hr, hl, by simp [entities, domsOf, hr]⟩
  obtain ⟨ss, h1, h2, h2', h3⟩ := slots_spec h (obs.map (fun o => (o.1, o.2.1))) [] [] hnd (by simp) (fun n items hm => by
    obtain ⟨o, ho, he⟩ := List.mem_map.mp hm
    cases he
    obtain ⟨id, r, a1, a2, _⟩ := hent o ho
    exact ⟨id, r, a1, a2⟩) (by simp)
  simp only [List.nil_append] at h1 h2 h3
  have hslots : slots I obs [] [] = .ok ss := by
    have := h1 (obs.map (fun o => o.2.2)) (by simp)
    rwa [zipObs_map] at this
  have hssnd : (ss.map Slot.key).Nodup := slots_nodup _ _ _ _ hslots (by simp)
  have hkeys : ∀ u, u ∈ ss.map Slot.key ↔ ∃ o ∈ obs, u ∈ I.entities o.1 o.2.1 := by
    intro u
    constructor
    · intro hu
      obtain ⟨s, hs, rfl⟩ := List.mem_map.mp hu
      obtain ⟨n, items, id, r, b1, b2, b3⟩ := h2' s hs
      obtain ⟨o, ho, he⟩ := List.mem_map.mp b1
      cases he
      obtain ⟨id', r', c1, _, c2⟩ := hent o ho
      rw [b2] at c1; cases c1
      exact ⟨o, ho, by rw [c2]; exact b3⟩
    · rintro ⟨o, ho, hu⟩
      obtain ⟨id, r, c1, _, c2⟩ := hent o ho
      rw [c2] at hu
      obtain ⟨s, hs, e1, e2⟩ := h3 o.1 o.2.1 id r (List.mem_map.mpr ⟨o, ho, rfl⟩) c1 u.1 u.2 hu
      exact List.mem_map.mpr ⟨s, hs, by rw [Slot.key, e1, e2]⟩
  have hperm : (ss.map Slot.key).Perm U := (List.perm_ext_iff_of_nodup hssnd hU).mpr (fun u => (hkeys u).trans (hUm u).symm)
  have hssne : ss ≠ [] := by
    obtain ⟨o, ho⟩ := List.exists_mem_of_ne_nil obs hne
    obtain ⟨id, r, c1, c2, c3⟩ := hent o ho
    obtain ⟨d, ds, hds⟩ := List.exists_cons_of_ne_nil (h.rels o.1 id r c1).ne
    obtain ⟨i, is, his⟩ : ∃ i is, o.2.1 = i :: is := by
      cases hoi : o.2.1 with
      | nil => rw [hds, hoi] at c2; simp at c2
      | cons i is => exact ⟨i, is, rfl⟩
    have : (d, i) ∈ ss.map Slot.key := (hkeys (d, i)).mpr ⟨o, ho, by rw [c3, hds, his]; simp⟩
    rintro rfl
    simp at this
  have hchoices : ∀ s ∈ ss, s.choices ≠ [] := by
    intro s hs
    obtain ⟨b1, b2⟩ := h2 s hs
    obtain ⟨dom, hdom⟩ := FMap.contains_iff.mp b1
    obtain ⟨c, c1, c2, _⟩ := tableChoices_spec h.store hdom (h.alpha _ dom hdom) s.item
    rw [b2] at c1; cases c1; exact c2
  have hcne : cartesian (ranges ss) ≠ [] := by
    have : ∀ ss : List Slot, (∀ s ∈ ss, s.choices ≠ []) → cartesian (ranges ss) ≠ [] := by
      intro ss
      induction ss with
      | nil => intro _; simp [ranges, cartesian]
      | cons s ss ih =>
        intro hs
        obtain ⟨x, hx⟩ := List.exists_mem_of_ne_nil _ (ih (fun s' hs' => hs s' (by simp [hs'])))
        have hpos := List.length_pos_iff.mpr (hs s (by simp))
        apply List.ne_nil_of_mem (a := ((0 : Nat) : Int) :: x)
        simp only [ranges, List.map_cons, cartesian, List.mem_flatMap, List.mem_map, List.mem_range]
        exact ⟨((0 : Nat) : Int), ⟨0, hpos, rfl⟩, x, hx, rfl⟩
    exact this ss hchoices
  obtain ⟨S, hS⟩ : ∃ S : List Int → ℝ, S = fun ix => (obs.map (fun o => I.valueLogp o.1 ((I.entities o.1 o.2.1).map (asg ss ix a)) o.2.2)).sum := ⟨_, rfl⟩
  have hexpS : ∀ ix, Real.exp (S ix) = I.jointGiven obs (asg ss ix a) := by
    intro ix
    rw [hS, jointGiven, Real.exp_list_sum, List.map_map]
    rfl
  obtain ⟨x, hx1, hx2, hx3⟩ := C08_logsumexp (w := (cartesian (ranges ss)).map (fun ix => ((wt ss ix + S ix : ℝ) : WithBot ℝ))) (by
    simpa using hcne)
  cases x with
  | bot =>
    exfalso
    obtain ⟨ix, hix⟩ := List.exists_mem_of_ne_nil _ hcne
    have := hx3.mp rfl _ (List.mem_map.mpr ⟨ix, hix, rfl⟩)
    exact WithBot.coe_ne_bot this
  | coe lp =>
    refine ⟨lp, fun t => ?_, ?_⟩
    · obtain ⟨t', ht'⟩ := logpLoop_spec (I := I) (obs := obs) (W := wt ss) (H := S) (cartesian (ranges ss)) (weightOf_wt ss)
        (fun ix hix t => by
          rw [hS]
          exact combLogp_asg h hrt hssnd hix a obs hp (fun o ho u hu => (hkeys u).mpr ⟨o, ho, hu⟩) t) t
      refine ⟨t', ?_⟩
      have hprod : product (ranges ss) = .ok (cartesian (ranges ss)) := C07_product_eq (by simpa [ranges] using hssne)
      simp only [logp, bind, Except.bind, hslots]
      rw [show List.map (fun s => List.map (fun (k : Nat) => (k : Int)) (List.range s.choices.length)) ss = ranges ss from rfl, hprod]
      simp only [ht', hx1]
    · have e1 : expW (lp : WithBot ℝ) = Real.exp lp := rfl
      rw [e1] at hx2
      rw [hx2, ← mixture_perm hperm hssnd, ← sum_mixture h.store h.alpha _ ss h2 a, List.map_map]
      congr 1
      apply List.map_congr_left
      intro ix _
      simp only [Function.comp]
      rw [← hexpS ix, ← Real.exp_add]
      rfl

end IRM
end
end Verif
