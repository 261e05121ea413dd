import Verif.Lemmas.IRM
import Verif.Lemmas.Reach
/-! Helper lemmas: sweeps over an IRM, adding and removing relations, and the states an IRM can reach. -/
namespace Verif
open Spec
noncomputable section
variable {V : Type} {F : Family V}
namespace IRM
variable {L : FamilyLaws F} {ar : Ptr → Option Nat}

theorem SameData.seated {I I' : IRM F} (h : Inv L ar I) (h' : Inv L ar I') (hs : SameData I I') {d : String} {i : Int} :
    (∃ z, seatOf I'.doms d i = some z) ↔ ∃ z, seatOf I.doms d i = some z := by
  rcases hs.doms d with ⟨h1, h2⟩ | ⟨dom, dom', h1, h2, _, h4⟩
  · simp [seatOf, h1, h2]
  · rw [← h'.items_iff h2, ← h.items_iff h1, h4]

theorem SameData.observed {I I' : IRM F} (hs : SameData I I') {d : String} {i : Int} : I'.Observed d i ↔ I.Observed d i := by
  constructor
  · rintro ⟨n, id, r, k, h1, h2, h3⟩
    rcases hs.rels n with ⟨_, h5⟩ | ⟨id', r0, r', h4, h5, h6⟩
    · rw [h1] at h5; cases h5
    · rw [h1] at h5; cases h5
      exact ⟨n, id, r0, k, h4, by rw [← h6.data]; exact h2, by rw [← h6.doms]; exact h3⟩
  · rintro ⟨n, id, r, k, h1, h2, h3⟩
    rcases hs.rels n with ⟨h5, _⟩ | ⟨id', r0, r', h4, h5, h6⟩
    · rw [h1] at h5; cases h5
    · rw [h1] at h4; cases h4
      exact ⟨n, id, r', k, h5, by rw [h6.data]; exact h2, by rw [h6.doms]; exact h3⟩

theorem SameData.itemsExact {I I' : IRM F} (hs : SameData I I') (he : I.ItemsExact) : I'.ItemsExact := by
  intro d dom' hd i
  rcases hs.doms d with ⟨_, h2⟩ | ⟨dom, dom2, h1, h2, _, h4⟩
  · rw [hd] at h2; cases h2
  · rw [hd] at h2; cases h2
    rw [h4, he d dom h1 i, hs.observed]

theorem Inv.exact {I : IRM F} (h : Inv L ar I) : I.Exact L where
  rels name id r hr := (h.rels name id r hr).exact
  seats _ _ hd _ := h.items_iff hd
  tables d dom hd i z := by
    rw [show dom.crp.seating i = dom.crp.assignments.find? i from rfl, (h.store d dom hd).crp.mem]
    simp only [FMap.contains_iff_mem]

/-! ### sweeps -/

theorem transitionItems_inv {d : String} : ∀ (l : List Int) (I I' : IRM F) (t t' : Tape), Inv L ar I →
    transitionItems d l I t = .ok (I', t') → Inv L ar I' ∧ SameData I I' := by
  intro l
  induction l with
  | nil => intro I I' t t' h hc; cases hc; exact ⟨h, .refl I⟩
  | cons i l ih =>
    intro I I' t t' h hc
    obtain ⟨⟨I1, t1⟩, h1, hc⟩ := bind_ok.mp hc
    obtain ⟨h2, h3, _⟩ := transitionItem_inv h h1
    obtain ⟨h4, h5⟩ := ih I1 I' t1 t' h2 hc
    exact ⟨h4, h3.trans h5⟩

theorem transitionDomains_inv : ∀ (l : List String) (I I' : IRM F) (t t' : Tape), Inv L ar I →
    transitionDomains l I t = .ok (I', t') → Inv L ar I' ∧ SameData I I' := by
  intro l
  induction l with
  | nil => intro I I' t t' h hc; cases hc; exact ⟨h, .refl I⟩
  | cons d l ih =>
    intro I I' t t' h hc
    obtain ⟨dom, _, hc⟩ := bind_ok.mp hc
    obtain ⟨⟨I1, t1⟩, h1, hc⟩ := bind_ok.mp hc
    obtain ⟨h2, h3⟩ := transitionItems_inv _ _ _ _ _ h h1
    obtain ⟨h4, h5⟩ := ih I1 I' t1 t' h2 hc
    exact ⟨h4, h3.trans h5⟩

theorem transitionItems_ok {d : String} : ∀ (l : List Int) (I : IRM F) (t : Tape), Inv L ar I → I.ScoreLaw L →
    (∀ i ∈ l, ∃ z, seatOf I.doms d i = some z) →
    ∃ I' t', transitionItems d l I t = .ok (I', t') ∧ Inv L ar I' ∧ SameData I I' := by
  intro l
  induction l with
  | nil => exact fun I t h _ _ => ⟨I, t, rfl, h, .refl I⟩
  | cons i l ih =>
    intro I t h hS hl
    obtain ⟨z, hz⟩ := hl i (by simp)
    obtain ⟨dom, h1, h2⟩ := seatOf_some hz
    obtain ⟨I1, t1, z', w, h3, _, _, h4, h5, _⟩ := transitionItem_ok h hS h1 h2 t
    obtain ⟨I2, t2, h6, h7, h8⟩ := ih I1 t1 h4 (h5.scored hS) (fun j hj => (h5.seated h h4).mpr (hl j (by simp [hj])))
    exact ⟨I2, t2, by simp only [transitionItems, bind, Except.bind, h3, h6], h7, h5.trans h8⟩

theorem transitionDomains_ok : ∀ (l : List String) (I : IRM F) (t : Tape), Inv L ar I → I.ScoreLaw L →
    (∀ d ∈ l, I.doms.contains d = true) →
    ∃ I' t', transitionDomains l I t = .ok (I', t') ∧ Inv L ar I' ∧ SameData I I' := by
  intro l
  induction l with
  | nil => exact fun I t h _ _ => ⟨I, t, rfl, h, .refl I⟩
  | cons d l ih =>
    intro I t h hS hl
    obtain ⟨dom, hdom⟩ := FMap.contains_iff.mp (hl d (by simp))
    obtain ⟨I1, t1, h3, h4, h5⟩ := transitionItems_ok (d := d) (shuffle dom.items.keys t).1 I (shuffle dom.items.keys t).2 h hS (by
      intro i hi
      rw [(shuffle_perm ..).mem_iff, ← FMap.contains_iff_mem] at hi
      exact (h.items_iff hdom).mp hi)
    obtain ⟨I2, t2, h6, h7, h8⟩ := ih I1 t1 h4 (h5.scored hS) (fun j hj => (h5.contains j).trans (hl j (by simp [hj])))
    exact ⟨I2, t2, by simp only [transitionDomains, bind, Except.bind, FMap.atKey_of_find hdom, h3, h6], h7, h5.trans h8⟩

theorem transitionAll_ok {I : IRM F} (h : Inv L ar I) (hS : I.ScoreLaw L) (t : Tape) :
    ∃ I' t', transitionAll I t = .ok (I', t') ∧ Inv L ar I' ∧ SameData I I' :=
  transitionDomains_ok (shuffle I.doms.keys t).1 I (shuffle I.doms.keys t).2 h hS (fun d hd => by
    rw [(shuffle_perm ..).mem_iff] at hd
    exact FMap.contains_iff_mem.mpr hd)

theorem hparamsSweep_spec {n : Nat} : ∀ (l : List String) (I : IRM F) (t : Tape), Inv L ar I →
    (∀ r ∈ l, I.rels.contains r = true) →
    ∃ I' t', hparamsSweep n l I t = .ok (I', t') ∧ Inv L ar I' ∧ SameData I I' ∧ I'.doms = I.doms := by
  intro l
  induction l with
  | nil => exact fun I t h _ => ⟨I, t, rfl, h, .refl I, rfl⟩
  | cons r l ih =>
    intro I t h hl
    obtain ⟨⟨id, rel⟩, hr⟩ := FMap.contains_iff.mp (hl r (by simp))
    obtain ⟨h1, h2⟩ := (h.rels r id rel hr).hparams n t
    obtain ⟨I2, t2, h3, h4, h5, h6⟩ := ih { I with rels := I.rels.set r (id, (rel.transitionClusterHparams n t).1) }
      (rel.transitionClusterHparams n t).2 (h.setRel hr h2.shape h1) (by
        intro m hm
        dsimp only
        rw [FMap.contains_iff]
        rw [FMap.find?_set]
        split
        · exact ⟨_, rfl⟩
        · exact FMap.contains_iff.mp (hl m (by simp [hm])))
    refine ⟨I2, t2, ?_, h4, (SameData.setRel hr h2).trans h5, h6⟩
    simp only [hparamsSweep, bind, Except.bind, FMap.atKey_of_find hr, h3]

theorem hparamsSweep_pre {n : Nat} : ∀ (l : List String) (I : IRM F) (t : Tape) (x : IRM F × Tape),
    hparamsSweep n l I t = .ok x → ∀ r ∈ l, I.rels.contains r = true := by
  intro l
  induction l with
  | nil => intro I t x _ r hr; simp at hr
  | cons r l ih =>
    intro I t x hc m hm
    obtain ⟨⟨id, rel⟩, h1, h2⟩ := bind_ok.mp hc
    have hr := FMap.atKey_ok.mp h1
    rcases List.mem_cons.mp hm with rfl | hm
    · exact FMap.contains_iff.mpr ⟨_, hr⟩
    · have := ih _ _ _ h2 m hm
      dsimp only at this
      rw [FMap.contains_iff, FMap.find?_set] at this
      split at this
      · rename_i he; subst he; exact FMap.contains_iff.mpr ⟨_, hr⟩
      · exact FMap.contains_iff.mpr this

theorem alphaStep_inv {I : IRM F} (h : Inv L ar I) {d : String} {dom : Domain} (hd : I.doms.find? d = some dom) (t : Tape) :
    Inv L ar { I with doms := I.doms.set d { dom with crp := (dom.crp.transitionAlpha t).1 } } ∧
    SameData I { I with doms := I.doms.set d { dom with crp := (dom.crp.transitionAlpha t).1 } } ∧
    ∀ d' i, seatOf (I.doms.set d { dom with crp := (dom.crp.transitionAlpha t).1 }) d' i = seatOf I.doms d' i := by
  obtain ⟨h1, h2⟩ := (h.store d dom hd).transitionAlpha t
  have hseat : ∀ d' i, seatOf (I.doms.set d { dom with crp := (dom.crp.transitionAlpha t).1 }) d' i = seatOf I.doms d' i := by
    intro d' i
    rw [seatOf_set]
    split
    · rename_i he; subst he; rw [seatOf_eq hd, h2]
    · rfl
  have hc : ∀ d', (I.doms.set d { dom with crp := (dom.crp.transitionAlpha t).1 }).contains d' = I.doms.contains d' := by
    intro d'
    simp only [FMap.contains, FMap.find?_set]
    split
    · rename_i he; subst he; simp [hd]
    · rfl
  refine ⟨h.setStore (h.store.set h1) ?_ hc (fun d' i _ => hseat d' i), ⟨rfl, rfl, rfl, (SameData.refl I).rels, ?_⟩, hseat⟩
  · intro d' dom' hd'
    rw [FMap.find?_set] at hd'
    split at hd'
    · cases hd'
      exact CRP.transitionAlpha_pos (h.alpha d dom hd) t
    · exact h.alpha d' dom' hd'
  · intro d'
    dsimp only
    rw [FMap.find?_set]
    split
    · rename_i he; subst he; exact .inr ⟨dom, _, hd, rfl, rfl, rfl⟩
    · exact (SameData.refl I).doms d'

theorem alphaSweep_spec : ∀ (l : List String) (I : IRM F) (t : Tape), Inv L ar I →
    (∀ d ∈ l, I.doms.contains d = true) →
    ∃ I' t', alphaSweep l I t = .ok (I', t') ∧ Inv L ar I' ∧ SameData I I' ∧ I'.rels = I.rels ∧
      ∀ d i, seatOf I'.doms d i = seatOf I.doms d i := by
  intro l
  induction l with
  | nil => exact fun I t h _ => ⟨I, t, rfl, h, .refl I, rfl, fun _ _ => rfl⟩
  | cons d l ih =>
    intro I t h hl
    obtain ⟨dom, hd⟩ := FMap.contains_iff.mp (hl d (by simp))
    obtain ⟨h1, h2, h2'⟩ := alphaStep_inv h hd t
    obtain ⟨I2, t2, h3, h4, h5, h6, h7⟩ := ih _ (dom.crp.transitionAlpha t).2 h1 (fun m hm => (h2.contains m).trans (hl m (by simp [hm])))
    refine ⟨I2, t2, ?_, h4, h2.trans h5, h6, fun d i => (h7 d i).trans (h2' d i)⟩
    simp only [alphaSweep, bind, Except.bind, FMap.atKey_of_find hd, h3]

theorem alphaSweep_pre : ∀ (l : List String) (I : IRM F) (t : Tape) (x : IRM F × Tape),
    alphaSweep l I t = .ok x → ∀ r ∈ l, I.doms.contains r = true := by
  intro l
  induction l with
  | nil => intro I t x _ r hr; simp at hr
  | cons r l ih =>
    intro I t x hc m hm
    obtain ⟨dom, h1, h2⟩ := bind_ok.mp hc
    have hr := FMap.atKey_ok.mp h1
    rcases List.mem_cons.mp hm with rfl | hm
    · exact FMap.contains_iff.mpr ⟨_, hr⟩
    · have := ih _ _ _ h2 m hm
      dsimp only at this
      rw [FMap.contains_iff, FMap.find?_set] at this
      split at this
      · rename_i he; subst he; exact FMap.contains_iff.mpr ⟨_, hr⟩
      · exact FMap.contains_iff.mpr this

theorem singleStep_inv {I I' : IRM F} (h : Inv L ar I) {n : Nat} {t t' : Tape} (hc : singleStep I n false t = .ok (I', t')) :
    Inv L ar I' ∧ SameData I I' := by
  obtain ⟨⟨I1, t1⟩, h4, hc⟩ := bind_ok.mp hc
  cases h4
  obtain ⟨⟨I2, t2⟩, h1, hc⟩ := bind_ok.mp hc
  obtain ⟨h2, h3⟩ := transitionDomains_inv _ _ _ _ _ h h1
  obtain ⟨⟨I3, t3⟩, h4, hc⟩ := bind_ok.mp hc
  obtain ⟨I3', t3', h5, h6, h7, _⟩ := hparamsSweep_spec _ _ _ h2 (hparamsSweep_pre _ _ _ _ h4)
  replace h5 := h4.symm.trans h5
  cases h5
  obtain ⟨I4', t4', h8, h9, h10, _⟩ := alphaSweep_spec _ _ _ h6 (alphaSweep_pre _ _ _ _ hc)
  replace h8 := hc.symm.trans h8
  cases h8
  exact ⟨h9, h3.trans (h7.trans h10)⟩

theorem singleStep_ok {I : IRM F} (h : Inv L ar I) (hS : I.ScoreLaw L) (n : Nat) (t : Tape) :
    ∃ I' t', singleStep I n false t = .ok (I', t') ∧ Inv L ar I' ∧ SameData I I' := by
  obtain ⟨I1, t1, h1, h2, h3⟩ := transitionAll_ok h hS t
  obtain ⟨I2, t2, h4, h5, h6, _⟩ := hparamsSweep_spec (n := n) (shuffle I1.rels.keys t1).1 I1 (shuffle I1.rels.keys t1).2 h2 (fun d hd => by
    rw [(shuffle_perm ..).mem_iff] at hd
    exact FMap.contains_iff_mem.mpr hd)
  obtain ⟨I3, t3, h7, h8, h9, _⟩ := alphaSweep_spec (shuffle I2.doms.keys t2).1 I2 (shuffle I2.doms.keys t2).2 h5 (fun d hd => by
    rw [(shuffle_perm ..).mem_iff] at hd
    exact FMap.contains_iff_mem.mpr hd)
  refine ⟨I3, t3, ?_, h8, h3.trans (h6.trans h9)⟩
  simp only [singleStep, Bool.false_eq_true, if_false, bind, Except.bind, h1, h4, h7]

/-! ### predictive probabilities -/

theorem combLogp_inv {ss : List Slot} {ix : List Int} {env : Env V} : ∀ (obs : List (String × Items × V)) (I : IRM F) (t : Tape)
    (s : ℝ) (I' : IRM F) (t' : Tape), Inv L ar I →
    (∀ name items v, (name, items, v) ∈ obs → ∀ id r, I.rels.find? name = some (id, r) → r.Supports L (baseOf env r) items v) →
    combLogp ss ix obs I t = .ok (s, I', t') → Inv L ar I' ∧ SameData I I' ∧ I'.doms = I.doms := by
  intro obs
  induction obs with
  | nil => intro I t s I' t' h _ hc; cases hc; exact ⟨h, .refl I, rfl⟩
  | cons o obs ih =>
    obtain ⟨name, items, v⟩ := o
    intro I t s I' t' h hv hc
    obtain ⟨⟨id, rel⟩, h1, h2⟩ := bind_ok.mp hc
    obtain ⟨z, h3, h4⟩ := bind_ok.mp h2
    obtain ⟨⟨lp, rel', t1⟩, h5, h6⟩ := bind_ok.mp h4
    obtain ⟨⟨s1, I1, t2⟩, h7, h8⟩ := bind_ok.mp h6
    cases h8
    have hr := FMap.atKey_ok.mp h1
    obtain ⟨h9, h10⟩ := (h.rels name id rel hr).clusterOrPrior (hv name items v (by simp) id rel hr) h5
    obtain ⟨h11, h12, h13⟩ := ih _ _ _ _ _ (h.setRel hr h10.shape h9) (by
      intro n it w hm id' r' hr'
      dsimp only at hr'
      rw [FMap.find?_set] at hr'
      split at hr'
      · rename_i he
        subst he
        cases hr'
        have := hv n it w (by simp [hm]) id rel hr
        cases rel with
        | clean c q =>
          cases rel' with
          | clean c' q' =>
            have hk := h10.kind
            simp only [Rel.kind, Sum.inl.injEq] at hk
            subst hk
            exact this
          | noisy e p q' => have := h10.kind; simp [Rel.kind] at this
        | noisy e p q =>
          cases rel' with
          | clean c' q' => have := h10.kind; simp [Rel.kind] at this
          | noisy e' p' q' =>
            have hk := h10.kind
            have hp := h10.base
            simp only [Rel.kind, Sum.inr.injEq] at hk
            simp only [Rel.base?, Option.some.injEq] at hp
            subst hk hp
            exact this
      · exact hv n it w (by simp [hm]) id' r' hr') h7
    exact ⟨h11, (SameData.setRel hr h10).trans h12, h13⟩

theorem SameData.supports {I I' : IRM F} (hs : SameData I I') {env : Env V} {name : String} {items : Items} {v : V}
    (hv : ∀ id r, I.rels.find? name = some (id, r) → r.Supports L (baseOf env r) items v) :
    ∀ id r, I'.rels.find? name = some (id, r) → r.Supports L (baseOf env r) items v := by
  intro id r hr
  rcases hs.rels name with ⟨_, h2⟩ | ⟨id', r0, r', h1, h2, h3⟩
  · rw [hr] at h2; cases h2
  · rw [hr] at h2
    cases h2
    have := hv id r0 h1
    cases r0 with
    | clean c q =>
      cases r with
      | clean c' q' =>
        have hk := h3.kind
        simp only [Rel.kind, Sum.inl.injEq] at hk
        subst hk
        exact this
      | noisy e p q' => have := h3.kind; simp [Rel.kind] at this
    | noisy e p q =>
      cases r with
      | clean c' q' => have := h3.kind; simp [Rel.kind] at this
      | noisy e' p' q' =>
        have hk := h3.kind
        have hp := h3.base
        simp only [Rel.kind, Sum.inr.injEq] at hk
        simp only [Rel.base?, Option.some.injEq] at hp
        subst hk hp
        exact this

theorem logpLoop_inv {ss : List Slot} {env : Env V} {obs : List (String × Items × V)} : ∀ (l : List (List Int)) (I : IRM F) (t : Tape)
    (lps : List (WithBot ℝ)) (I' : IRM F) (t' : Tape), Inv L ar I →
    (∀ name items v, (name, items, v) ∈ obs → ∀ id r, I.rels.find? name = some (id, r) → r.Supports L (baseOf env r) items v) →
    logpLoop ss obs l I t = .ok (lps, I', t') → Inv L ar I' ∧ SameData I I' ∧ I'.doms = I.doms := by
  intro l
  induction l with
  | nil => intro I t s I' t' h _ hc; cases hc; exact ⟨h, .refl I, rfl⟩
  | cons ix l ih =>
    intro I t s I' t' h hv hc
    obtain ⟨w, _, h2⟩ := bind_ok.mp hc
    obtain ⟨⟨s1, I1, t1⟩, h3, h4⟩ := bind_ok.mp h2
    obtain ⟨⟨lps, I2, t2⟩, h5, h6⟩ := bind_ok.mp h4
    cases h6
    obtain ⟨a1, a2, a3⟩ := combLogp_inv _ _ _ _ _ _ h hv h3
    obtain ⟨b1, b2, b3⟩ := ih _ _ _ _ _ a1 (fun n it v hm => a2.supports (hv n it v hm)) h5
    exact ⟨b1, a2.trans b2, b3.trans a3⟩

theorem logp_inv {env : Env V} {I : IRM F} {obs : List (String × Items × V)} {t : Tape} {lp : WithBot ℝ} {I' : IRM F} {t' : Tape}
    (h : Inv L ar I)
    (hv : ∀ name items v, (name, items, v) ∈ obs → ∀ id r, I.rels.find? name = some (id, r) → r.Supports L (baseOf env r) items v)
    (hc : logp I obs t = .ok (lp, I', t')) : Inv L ar I' ∧ SameData I I' ∧ I'.doms = I.doms := by
  obtain ⟨ss, _, h2⟩ := bind_ok.mp hc
  obtain ⟨pr, _, h4⟩ := bind_ok.mp h2
  obtain ⟨⟨lps, I1, t1⟩, h5, h6⟩ := bind_ok.mp h4
  obtain ⟨x, _, h8⟩ := bind_ok.mp h6
  cases h8
  exact logpLoop_inv _ _ _ _ _ _ h hv h5

/-! ### adding relations -/

theorem addDomains_ok {name : String} : ∀ (ds : List String) (I : IRM F), (∀ d, I.domToRels.contains d = I.doms.contains d) →
    ∃ σ' m', addDomains name ds I = .ok { I with doms := σ', domToRels := m' } ∧
      (∀ d, σ'.find? d = if d ∈ ds ∧ I.doms.find? d = none then some { name := d } else I.doms.find? d) ∧
      ∀ d, m'.find? d = if d ∈ ds then some (FSet.insert ((I.domToRels.find? d).getD ∅) name) else I.domToRels.find? d := by
  intro ds
  induction ds with
  | nil => exact fun I _ => ⟨I.doms, I.domToRels, rfl, fun d => by simp, fun d => by simp⟩
  | cons d ds ih =>
    intro I hI
    have hins : ∀ (m : FMap String (FSet String)) (s : FSet String) (d' : String),
        (if d' ∈ ds then some (FSet.insert (((m.set d (FSet.insert s name)).find? d').getD ∅) name)
          else (m.set d (FSet.insert s name)).find? d') =
        if d' = d then some (FSet.insert s name) else if d' ∈ ds then some (FSet.insert ((m.find? d').getD ∅) name) else m.find? d' := by
      intro m s d'
      rw [FMap.find?_set]
      by_cases hd' : d' = d
      · subst hd'
        simp only [if_true, Option.getD_some, FSet.insert, FMap.set_set, ite_self]
      · simp [hd']
    cases hc : I.doms.contains d with
    | true =>
      obtain ⟨s, hs⟩ := FMap.contains_iff.mp ((hI d).trans hc)
      obtain ⟨dom, hdom⟩ := FMap.contains_iff.mp hc
      obtain ⟨σ', m', h1, h2, h3⟩ := ih { I with domToRels := I.domToRels.set d (FSet.insert s name) } (by
        intro d'
        rw [← hI d']
        simp only [FMap.contains, FMap.find?_set]
        split
        · rename_i he; subst he; simp [hs]
        · rfl)
      refine ⟨σ', m', ?_, ?_, ?_⟩
      · simp only [addDomains, hc, if_true, bind, Except.bind, FMap.atKey_of_find hs, h1]
      · intro d'
        rw [h2]
        dsimp only
        by_cases hd' : d' = d
        · subst hd'; simp [hdom]
        · simp [hd']
      · intro d'
        rw [h3]
        dsimp only
        rw [hins]
        by_cases hd' : d' = d
        · subst hd'; simp [hs]
        · simp [hd']
    | false =>
      have hc2 : I.domToRels.contains d = false := (hI d).trans hc
      have hn : I.doms.find? d = none := FMap.contains_false.mp hc
      have hn2 : I.domToRels.find? d = none := FMap.contains_false.mp hc2
      obtain ⟨σ', m', h1, h2, h3⟩ := ih { I with
          doms := I.doms.set d { name := d }, domToRels := (I.domToRels.set d ∅).set d (FSet.insert ∅ name) } (by
        intro d'
        have := hI d'
        simp only [FMap.contains, FMap.find?_set] at this ⊢
        split
        · rfl
        · exact this)
      refine ⟨σ', m', ?_, ?_, ?_⟩
      · simp only [addDomains, hc, Bool.false_eq_true, if_false, assertR, hc2, Bool.not_false, if_true, bind, Except.bind]
        rw [FMap.atKey_of_find (FMap.find?_set_self ..)]
        exact h1
      · intro d'
        rw [h2]
        dsimp only
        rw [FMap.find?_set]
        by_cases hd' : d' = d
        · subst hd'; simp [hn]
        · simp [hd']
      · intro d'
        rw [h3]
        dsimp only
        rw [hins]
        by_cases hd' : d' = d
        · subst hd'; simp [hn2]
        · simp [hd', FMap.find?_set]

/-- adding an empty relation object keeps the invariant -/
theorem Inv.addRel {ar' : Ptr → Option Nat} {I : IRM F} (h : Inv L ar I) {name : String} (hf : I.rels.find? name = none)
    {ds : List String} {σ' : Doms} {m' : FMap String (FSet String)}
    (hσ : ∀ d, σ'.find? d = if d ∈ ds ∧ I.doms.find? d = none then some { name := d } else I.doms.find? d)
    (hm : ∀ d, m'.find? d = if d ∈ ds then some (FSet.insert ((I.domToRels.find? d).getD ∅) name) else I.domToRels.find? d)
    {id : Nat} {rel : Rel F} {spec : RelSpec F} {b : FMap String (List String)} (hrd : rel.doms = ds) (hri : rel.Inv L ar' σ') (hsp : spec.Matches rel)
    (har : ∀ n id q p, I.rels.find? n = some (id, q) → q.base? = some p → ar' p = ar p) :
    Inv L ar' { schema := I.schema.set name spec, doms := σ', rels := I.rels.set name (id, rel), domToRels := m', baseToNoisy := b } := by
  have hseat : ∀ d i, seatOf σ' d i = seatOf I.doms d i := by
    intro d i
    by_cases hc : d ∈ ds ∧ I.doms.find? d = none
    · have h1 := hσ d
      rw [if_pos hc] at h1
      rw [seatOf_eq h1]
      unfold seatOf
      rw [hc.2]
      rfl
    · have h1 := hσ d
      rw [if_neg hc] at h1
      unfold seatOf
      rw [h1]
  have hcon : ∀ d, I.doms.contains d = true → σ'.contains d = true := by
    intro d hd
    obtain ⟨dom, hdom⟩ := FMap.contains_iff.mp hd
    exact FMap.contains_iff.mpr ⟨dom, by rw [hσ, hdom, if_neg]; simp⟩
  have hnew : ∀ d, ({ name := d } : Domain).WF := by
    intro d
    refine ⟨CRP.WF.init 1, fun i => ?_⟩
    simp [FMap.mem_keys]
  constructor
  · intro d dom hd
    dsimp only at hd
    rw [hσ] at hd
    split at hd
    · cases hd; exact hnew d
    · exact h.store d dom hd
  · intro d dom hd
    dsimp only at hd
    rw [hσ] at hd
    split at hd
    · cases hd; exact one_pos
    · exact h.alpha d dom hd
  · intro d
    have := h.names d
    simp only [FMap.contains, hσ, hm] at this ⊢
    by_cases hd : d ∈ ds
    · simp only [hd, true_and, if_true, Option.isSome_some]
      split
      · rfl
      · rename_i h2; exact (Option.isSome_iff_ne_none.mpr h2).symm
    · simp only [hd, false_and, if_false]; exact this
  · intro d s hd n
    dsimp only at hd ⊢
    rw [hm] at hd
    by_cases hn : n = name
    · subst hn
      simp only [FMap.find?_set_self, Option.some.injEq, Prod.mk.injEq]
      split at hd
      · rename_i hmem
        cases hd
        simp only [FSet.mem_insert, true_or, true_iff]
        exact ⟨id, rel, ⟨rfl, rfl⟩, by rw [hrd]; exact hmem⟩
      · rename_i hmem
        rw [h.index d s hd n]
        constructor
        · rintro ⟨_, _, h1, _⟩; rw [hf] at h1; cases h1
        · rintro ⟨_, _, ⟨rfl, rfl⟩, h2⟩; rw [hrd] at h2; exact absurd h2 hmem
    · rw [FMap.find?_set_ne _ hn]
      split at hd
      · cases hd
        simp only [FSet.mem_insert, hn, false_or]
        cases hs : I.domToRels.find? d with
        | none =>
          simp only [Option.getD_none]
          constructor
          · intro h1; simp [FMap.keys, EmptyCollection.emptyCollection, FMap.empty] at h1
          · rintro ⟨id', q, h1, h2⟩
            obtain ⟨s, h3, _⟩ := h.listed h1 h2
            rw [hs] at h3; cases h3
        | some s => exact h.index d s hs n
      · exact h.index d s hd n
  · intro d s hd
    dsimp only at hd
    rw [hm] at hd
    split at hd
    · cases hd; exact ⟨name, by simp [FSet.mem_insert]⟩
    · exact h.used d s hd
  · intro n
    dsimp only
    rw [FMap.find?_set, FMap.find?_set]
    split
    · exact .inr ⟨spec, id, rel, rfl, rfl, hsp⟩
    · exact h.schema n
  · intro n id' q hq
    dsimp only at hq ⊢
    rw [FMap.find?_set] at hq
    split at hq
    · cases hq; exact hri
    · have hi := h.rels n id' q hq
      exact (hi.reseat (fun d hd => hcon d (hi.doms d hd)) (fun k _ d i _ => hseat d i)).arity (fun p hp => har n id' q p hq hp)

/-- what adding a relation does -/
structure Added (id : Nat) (name : String) (spec : RelSpec F) (rel : Rel F) (I I' : IRM F) : Prop where
  fresh : I.rels.find? name = none
  schema : I'.schema = I.schema.set name spec
  rels : I'.rels = I.rels.set name (id, rel)
  doms : ∀ d, I'.doms.find? d = if d ∈ spec.doms ∧ I.doms.find? d = none then some { name := d } else I.doms.find? d
  domToRels : ∀ d, I'.domToRels.find? d =
    if d ∈ spec.doms then some (FSet.insert ((I.domToRels.find? d).getD ∅) name) else I.domToRels.find? d
  rdoms : rel.doms = spec.doms
  data : rel.data = ∅
  pairs : rel.pairs = ∅
  matched : spec.Matches rel

theorem Added.contains {id : Nat} {name : String} {spec : RelSpec F} {rel : Rel F} {I I' : IRM F} (h : Added id name spec rel I I') :
    ∀ d ∈ rel.doms, I'.doms.contains d = true := by
  intro d hd
  rw [FMap.contains_iff, h.doms]
  rw [h.rdoms] at hd
  cases hf : I.doms.find? d with
  | none => exact ⟨_, by rw [if_pos ⟨hd, rfl⟩]⟩
  | some x => exact ⟨x, by simp⟩

theorem Added.seat {id : Nat} {name : String} {spec : RelSpec F} {rel : Rel F} {I I' : IRM F} (h : Added id name spec rel I I') :
    ∀ d i, seatOf I'.doms d i = seatOf I.doms d i := by
  intro d i
  have h1 := h.doms d
  by_cases hc : d ∈ spec.doms ∧ I.doms.find? d = none
  · rw [if_pos hc] at h1
    rw [seatOf_eq h1]
    unfold seatOf
    rw [hc.2]
    rfl
  · rw [if_neg hc] at h1
    unfold seatOf
    rw [h1]

theorem Added.inv {ar' : Ptr → Option Nat} {id : Nat} {name : String} {spec : RelSpec F} {rel : Rel F} {I I' : IRM F}
    (hA : Added id name spec rel I I') (h : Inv L ar I) (hri : rel.Inv L ar' I'.doms)
    (har : ∀ n id q p, I.rels.find? n = some (id, q) → q.base? = some p → ar' p = ar p) : Inv L ar' I' := by
  have := h.addRel (b := I'.baseToNoisy) (id := id) hA.fresh hA.doms hA.domToRels hA.rdoms hri hA.matched har
  rw [← hA.schema, ← hA.rels] at this
  exact this

theorem _root_.Verif.Rel.fresh_clean {c : F.C} {ds : List String} {r : CleanRel (F.dist c).toDistOps} {σ : Doms}
    (hd : ∀ d ∈ ds, σ.contains d = true) (h : CleanRel.mk' (F.dist c).toDistOps ds = .ok r) :
    Rel.Inv L ar σ (.clean c r) ∧ r.doms = ds ∧ r.data = ∅ := by
  refine ⟨CleanRel.inv_fresh hd h, ?_⟩
  obtain ⟨_, rfl⟩ := CleanRel.mk'_ok h
  exact ⟨rfl, rfl⟩

theorem _root_.Verif.CleanRel.mk'_total {D : DistOps V} {ds : List String} (h : ds ≠ []) : ∃ r, CleanRel.mk' D ds = .ok r := by
  cases ds with
  | nil => exact absurd rfl h
  | cons d ds => exact ⟨_, rfl⟩

theorem _root_.Verif.NoisyRel.mk'_total {D : DistOps (V × V)} {ds : List String} (h : ds ≠ []) : ∃ r, NoisyRel.mk' D ds = .ok r := by
  cases ds with
  | nil => exact absurd rfl h
  | cons d ds => exact ⟨_, rfl⟩

theorem Inv.notSchema {I : IRM F} (h : Inv L ar I) {name : String} : I.schema.contains name = I.rels.contains name := by
  simp only [FMap.contains]
  rcases h.schema name with ⟨h1, h2⟩ | ⟨spec, id, r, h1, h2, _⟩ <;> simp [h1, h2]

theorem addClean_ok {I : IRM F} (h : Inv L ar I) {name : String} (hf : I.rels.find? name = none) (id : Nat) (c : F.C)
    {ds : List String} (hd : ds ≠ []) (o : Bool) :
    ∃ I' rel, addClean id I name c ds o = .ok I' ∧ Added id name (.clean c ds o) rel I I' ∧ I'.baseToNoisy = I.baseToNoisy ∧
      ∀ ar', rel.Inv L ar' I'.doms := by
  have hr : I.rels.contains name = false := FMap.contains_false.mpr hf
  have hs : I.schema.contains name = false := h.notSchema.trans hr
  obtain ⟨σ', m', h1, h2, h3⟩ := addDomains_ok (name := name) ds I h.names
  obtain ⟨r, h4⟩ := CleanRel.mk'_total (D := (F.dist c).toDistOps) hd
  have h5 : r.doms = ds ∧ r.data = ∅ := by
    obtain ⟨_, rfl⟩ := CleanRel.mk'_ok h4
    exact ⟨rfl, rfl⟩
  have hA : Added id name (.clean c ds o) (.clean c r) I { I with
      doms := σ', domToRels := m', rels := I.rels.set name (id, .clean c r), schema := I.schema.set name (.clean c ds o) } :=
    ⟨hf, rfl, rfl, h2, h3, h5.1, h5.2, rfl, ⟨rfl, h5.1, rfl⟩⟩
  refine ⟨_, _, ?_, hA, rfl, ?_⟩
  · simp only [addClean, hs, hr, Bool.not_false, assertR, if_true, bind, Except.bind, h1, h4]
  · intro ar'
    exact (Rel.fresh_clean (fun d hd => hA.contains d (by rw [hA.rdoms]; exact hd)) h4).1

theorem addWithBase_ok {I : IRM F} (h : Inv L ar I) {name : String} (hf : I.rels.find? name = none) (id : Nat) (e : F.E)
    {ds : List String} (hd : ds ≠ []) (base : String) (o : Bool) {p : Ptr} (hp : p.name = base) :
    ∃ I' rel, addWithBase id I name e ds base o p = .ok I' ∧ Added id name (.noisy e ds base o) rel I I' ∧ rel.base? = some p ∧
      I'.baseToNoisy = I.baseToNoisy.set base ((I.baseToNoisy.find? base).getD [] ++ [name]) ∧
      ∀ ar' n, ar' p = some n → n ≤ ds.length → rel.Inv L ar' I'.doms := by
  have hr : I.rels.contains name = false := FMap.contains_false.mpr hf
  have hs : I.schema.contains name = false := h.notSchema.trans hr
  obtain ⟨σ', m', h1, h2, h3⟩ := addDomains_ok (name := name) ds I h.names
  obtain ⟨r, h4⟩ := NoisyRel.mk'_total (D := (F.emis e).toDistOps) hd
  have h5 : r.doms = ds ∧ r.data = ∅ ∧ r.emission.data = ∅ := by
    obtain ⟨em, h6, h7⟩ := bind_ok.mp h4
    obtain ⟨_, rfl⟩ := CleanRel.mk'_ok h6
    cases h7
    exact ⟨rfl, rfl, rfl⟩
  have hA : Added id name (.noisy e ds base o) (.noisy e p r) I { I with
      doms := σ', domToRels := m', rels := I.rels.set name (id, .noisy e p r), schema := I.schema.set name (.noisy e ds base o),
      baseToNoisy := I.baseToNoisy.set base ((I.baseToNoisy.find? base).getD [] ++ [name]) } :=
    ⟨hf, rfl, rfl, h2, h3, h5.1, h5.2.1, h5.2.2, ⟨rfl, h5.1, by simp [Rel.base?, RelSpec.base?, hp]⟩⟩
  refine ⟨_, _, ?_, hA, rfl, rfl, ?_⟩
  · simp only [addWithBase, hs, hr, Bool.not_false, assertR, if_true, bind, Except.bind, h1, h4]
  · intro ar' n hn hle
    obtain ⟨a1, a2, _⟩ := NoisyRel.core_fresh (supp := L.suppE e) (fun d hd => hA.contains d (by rw [hA.rdoms]; exact hd)) hle h4
    exact ⟨a1, n, hn, a2⟩

theorem addNoisy_eq {I : IRM F} (h : Inv L ar I) {name : String} (id : Nat) (e : F.E)
    {ds : List String} (base : String) (o : Bool) {bid : Nat} {b : Rel F} (hb : I.rels.find? base = some (bid, b)) :
    addNoisy id I name e ds base o = addWithBase id I name e ds base o { table := none, name := base, id := bid } := by
  unfold addNoisy addWithBase
  obtain ⟨σ', m', h1, -, -⟩ := addDomains_ok (name := name) ds I h.names
  have hc : I.rels.contains base = true := FMap.contains_iff.mpr ⟨_, hb⟩
  simp only [h1, bind, Except.bind, hc, FMap.atKey_of_find hb]
  simp

/-- a pointer that shows a relation still shows it when another relation is added -/
theorem Added.env {id : Nat} {name : String} {spec : RelSpec F} {rel : Rel F} {I I' : IRM F} (h : Added id name spec rel I I')
    {p : Ptr} {b : BaseView V} (hp : I.env p = some b) : I'.env p = some b := by
  unfold IRM.env at hp ⊢
  by_cases he : p.name = name
  · rw [he, h.fresh] at hp; simp at hp
  · rw [h.rels, FMap.find?_set_ne _ he]; exact hp

theorem Inv.pointer {I : IRM F} {env : Env V} (h : Inv L (arOf env) I) {name : String} {id : Nat} {r : Rel F} (hr : I.rels.find? name = some (id, r))
    {p : Ptr} (hp : r.base? = some p) : ∃ b, env p = some b := by
  have := h.rels name id r hr
  cases r with
  | clean c q => cases hp
  | noisy e q' q =>
    cases hp
    obtain ⟨_, n, hn, _⟩ := this
    unfold arOf at hn
    cases he : env p with
    | none => rw [he] at hn; cases hn
    | some b => exact ⟨b, rfl⟩

theorem Added.arity {id : Nat} {name : String} {spec : RelSpec F} {rel : Rel F} {I I' : IRM F} (hA : Added id name spec rel I I')
    (h : Inv L (arOf I.env) I) : ∀ n id q p, I.rels.find? n = some (id, q) → q.base? = some p → arOf I'.env p = arOf I.env p := by
  intro n id q p hq hp
  obtain ⟨b, hb⟩ := h.pointer hq hp
  simp [arOf, hb, hA.env hb]

theorem addRelation_clean {I : IRM F} (h : Inv L (arOf I.env) I) {name : String} (hf : I.rels.find? name = none) (id : Nat) (c : F.C)
    {ds : List String} (hd : ds ≠ []) (o : Bool) :
    ∃ I' rel, addRelation id I name (.clean c ds o) = .ok I' ∧ Added id name (.clean c ds o) rel I I' ∧ Inv L (arOf I'.env) I' := by
  obtain ⟨I', rel, h1, h2, _, h3⟩ := addClean_ok h hf id c hd o
  exact ⟨I', rel, h1, h2, h2.inv h (h3 _) (h2.arity h)⟩

theorem addRelation_noisy {I : IRM F} (h : Inv L (arOf I.env) I) {name : String} (hf : I.rels.find? name = none) (id : Nat) (e : F.E)
    {ds : List String} (hd : ds ≠ []) (base : String) (o : Bool) {bid : Nat} {b : Rel F} (hb : I.rels.find? base = some (bid, b))
    (hl : b.doms.length ≤ ds.length) :
    ∃ I' rel, addRelation id I name (.noisy e ds base o) = .ok I' ∧ Added id name (.noisy e ds base o) rel I I' ∧
      Inv L (arOf I'.env) I' := by
  obtain ⟨I', rel, h1, h2, _, _, h3⟩ := addWithBase_ok h hf id e hd base o (p := { table := none, name := base, id := bid }) rfl
  refine ⟨I', rel, by simp only [addRelation, addNoisy_eq h id e base o hb, h1], h2, h2.inv h (h3 _ b.doms.length ?_ hl) (h2.arity h)⟩
  have : I.env { table := none, name := base, id := bid } = some b.view := by simp [IRM.env, hb]
  simp [arOf, h2.env this, Rel.view]

theorem addRelation_pre {I I' : IRM F} (h : Inv L ar I) {id : Nat} {name : String} {spec : RelSpec F} (hc : addRelation id I name spec = .ok I') :
    I.rels.find? name = none ∧ spec.doms ≠ [] ∧ ∀ b, spec.base? = some b → ∃ bid br, I.rels.find? b = some (bid, br) := by
  cases spec with
  | clean c ds o =>
    obtain ⟨_, h1, h2⟩ := bind_ok.mp hc
    obtain ⟨_, h3, h4⟩ := bind_ok.mp h2
    obtain ⟨I1, _, h6⟩ := bind_ok.mp h4
    obtain ⟨r, h7, _⟩ := bind_ok.mp h6
    refine ⟨?_, (CleanRel.mk'_ok h7).1, fun b hb => by cases hb⟩
    have := assertR_ok.mp h3
    exact FMap.contains_false.mp (by simpa using this)
  | noisy e ds base o =>
    obtain ⟨_, h1, h2⟩ := bind_ok.mp hc
    obtain ⟨_, h3, h4⟩ := bind_ok.mp h2
    obtain ⟨I1, h5, h6⟩ := bind_ok.mp h4
    obtain ⟨σ', m', h5', -, -⟩ := addDomains_ok (name := name) ds I h.names
    rw [h5'] at h5
    cases h5
    dsimp only at h6
    split at h6
    · obtain ⟨_, _, h8⟩ := bind_ok.mp h6
      cases h8
    · rename_i hb
      obtain ⟨⟨bid, br⟩, h7, h8⟩ := bind_ok.mp h6
      obtain ⟨r, h9, _⟩ := bind_ok.mp h8
      obtain ⟨em, h10, _⟩ := bind_ok.mp h9
      refine ⟨?_, (CleanRel.mk'_ok h10).1, fun b hb => ?_⟩
      · have := assertR_ok.mp h3
        exact FMap.contains_false.mp (by simpa using this)
      · cases hb
        exact ⟨bid, br, FMap.atKey_ok.mp h7⟩

theorem Added.observed {id : Nat} {name : String} {spec : RelSpec F} {rel : Rel F} {I I' : IRM F} (hA : Added id name spec rel I I')
    {d : String} {i : Int} : I'.Observed d i ↔ I.Observed d i := by
  unfold Observed
  rw [hA.rels]
  constructor
  · rintro ⟨n, id', q, k, h1, h2, h3⟩
    rw [FMap.find?_set] at h1
    split at h1
    · cases h1; rw [hA.data] at h2; simp [FMap.contains] at h2
    · exact ⟨n, id', q, k, h1, h2, h3⟩
  · rintro ⟨n, id', q, k, h1, h2, h3⟩
    refine ⟨n, id', q, k, ?_, h2, h3⟩
    rw [FMap.find?_set_ne _ (fun he => ?_)]
    · exact h1
    · rw [he, hA.fresh] at h1; cases h1

/-! ### removing relations -/

theorem dropDomains_ok {name : String} : ∀ (ds : List String) (I : IRM F), ds.Nodup →
    (∀ d ∈ ds, I.domToRels.contains d = true ∧ I.doms.contains d = true) →
    ∃ σ' m', dropDomains name ds I = .ok { I with doms := σ', domToRels := m' } ∧
      (∀ d, d ∉ ds → σ'.find? d = I.doms.find? d ∧ m'.find? d = I.domToRels.find? d) ∧
      ∀ d ∈ ds, ∀ s, I.domToRels.find? d = some s →
        if (s.erase name).size = 0 then σ'.find? d = none ∧ m'.find? d = none
        else σ'.find? d = I.doms.find? d ∧ m'.find? d = some (s.erase name) := by
  intro ds
  induction ds with
  | nil => exact fun I _ _ => ⟨I.doms, I.domToRels, rfl, fun _ _ => ⟨rfl, rfl⟩, fun d hd => by simp at hd⟩
  | cons d ds ih =>
    intro I hnd hc
    obtain ⟨hnd1, hnd2⟩ := List.nodup_cons.mp hnd
    obtain ⟨c1, c2⟩ := hc d (by simp)
    obtain ⟨s, hs⟩ := FMap.contains_iff.mp c1
    obtain ⟨dom, hdom⟩ := FMap.contains_iff.mp c2
    by_cases hz : (s.erase name).size = 0
    · obtain ⟨σ', m', h1, h2, h3⟩ := ih { I with domToRels := I.domToRels.erase d, doms := I.doms.erase d } hnd2 (by
        intro d' hd'
        have hne : d' ≠ d := fun he => hnd1 (he ▸ hd')
        simp only [FMap.contains, FMap.find?_erase_ne _ hne]
        exact hc d' (by simp [hd']))
      refine ⟨σ', m', ?_, ?_, ?_⟩
      · simp only [dropDomains, bind, Except.bind, FMap.atKey_of_find hs, hz, if_true, FMap.atKey_of_find hdom, h1]
      · intro d' hd'
        simp only [List.mem_cons, not_or] at hd'
        have := h2 d' hd'.2
        dsimp only at this
        rw [FMap.find?_erase_ne _ hd'.1, FMap.find?_erase_ne _ hd'.1] at this
        exact this
      · intro d' hd' s' hs'
        by_cases hne : d' = d
        · subst hne
          rw [hs] at hs'
          cases hs'
          rw [if_pos hz]
          have := h2 d' hnd1
          dsimp only at this
          rw [FMap.find?_erase_self, FMap.find?_erase_self] at this
          exact this
        · have hd2 : d' ∈ ds := (List.mem_cons.mp hd').resolve_left hne
          have := h3 d' hd2 s' (by dsimp only; rw [FMap.find?_erase_ne _ hne]; exact hs')
          dsimp only at this
          rw [FMap.find?_erase_ne _ hne] at this
          exact this
    · obtain ⟨σ', m', h1, h2, h3⟩ := ih { I with domToRels := I.domToRels.set d (s.erase name) } hnd2 (by
        intro d' hd'
        have hne : d' ≠ d := fun he => hnd1 (he ▸ hd')
        simp only [FMap.contains, FMap.find?_set_ne _ hne]
        exact hc d' (by simp [hd']))
      refine ⟨σ', m', ?_, ?_, ?_⟩
      · simp only [dropDomains, bind, Except.bind, FMap.atKey_of_find hs, hz, if_false, h1]
      · intro d' hd'
        simp only [List.mem_cons, not_or] at hd'
        have := h2 d' hd'.2
        dsimp only at this
        rw [FMap.find?_set_ne _ hd'.1] at this
        exact this
      · intro d' hd' s' hs'
        by_cases hne : d' = d
        · subst hne
          rw [hs] at hs'
          cases hs'
          rw [if_neg hz]
          have := h2 d' hnd1
          dsimp only at this
          rw [FMap.find?_set_self] at this
          exact this
        · have hd2 : d' ∈ ds := (List.mem_cons.mp hd').resolve_left hne
          exact h3 d' hd2 s' (by dsimp only; rw [FMap.find?_set_ne _ hne]; exact hs')

/-- what removing a relation does -/
structure Removed (name : String) (I I' : IRM F) : Prop where
  schema : I'.schema = I.schema.erase name
  rels : I'.rels = I.rels.erase name
  baseToNoisy : I'.baseToNoisy = I.baseToNoisy
  doms : ∀ d, (∃ n id r, n ≠ name ∧ I.rels.find? n = some (id, r) ∧ d ∈ r.doms) → I'.doms.find? d = I.doms.find? d
  gone : ∀ d, (∀ n id r, n ≠ name → I.rels.find? n = some (id, r) → d ∉ r.doms) → I'.doms.find? d = none

theorem removeRelation_ok {ar' : Ptr → Option Nat} {I : IRM F} (h : Inv L ar I) {name : String} {id : Nat} {r : Rel F}
    (hr : I.rels.find? name = some (id, r))
    (har : ∀ n id q p, n ≠ name → I.rels.find? n = some (id, q) → q.base? = some p → ar' p = ar p) :
    ∃ I', removeRelation I name = .ok I' ∧ Removed name I I' ∧ Inv L ar' I' := by
  have hri := h.rels name id r hr
  obtain ⟨σ', m', h1, h2, h3⟩ := dropDomains_ok (name := name) r.doms.dedup I r.doms.nodup_dedup (by
    intro d hd
    rw [List.mem_dedup] at hd
    have := hri.doms d hd
    exact ⟨(h.names d).trans this, this⟩)
  simp only [List.mem_dedup] at h2 h3
  -- the sets without `name`
  have hmem : ∀ d s, I.domToRels.find? d = some s → ∀ n, n ∈ (s.erase name).keys ↔
      n ≠ name ∧ ∃ id q, I.rels.find? n = some (id, q) ∧ d ∈ q.doms := by
    intro d s hs n
    rw [FMap.keys_erase_mem, h.index d s hs n]
  have hz : ∀ d s, I.domToRels.find? d = some s → ((s.erase name).size = 0 ↔
      ∀ n id q, n ≠ name → I.rels.find? n = some (id, q) → d ∉ q.doms) := by
    intro d s hs
    constructor
    · intro hz n id q hn hq hd
      have := (hmem d s hs n).mpr ⟨hn, id, q, hq, hd⟩
      rw [FMap.eq_empty_of_size hz] at this
      simp [FMap.keys, EmptyCollection.emptyCollection, FMap.empty] at this
    · intro hall
      have : (s.erase name).keys = [] := by
        rw [List.eq_nil_iff_forall_not_mem]
        intro n hn
        obtain ⟨a, id, q, b, c⟩ := (hmem d s hs n).mp hn
        exact hall n id q a b c
      have h4 : (s.erase name).keys.length = 0 := by rw [this]; rfl
      simpa [FMap.keys, FMap.size] using h4
  -- for every domain: kept or gone
  have hcase : ∀ d, (∃ n id q, n ≠ name ∧ I.rels.find? n = some (id, q) ∧ d ∈ q.doms) →
      σ'.find? d = I.doms.find? d ∧ ∃ s, I.domToRels.find? d = some s ∧ ∃ s', m'.find? d = some s' ∧
        ∀ n, n ∈ s'.keys ↔ n ≠ name ∧ ∃ id q, I.rels.find? n = some (id, q) ∧ d ∈ q.doms := by
    rintro d ⟨n, id', q, hn, hq, hd⟩
    obtain ⟨s, hs, _⟩ := h.listed hq hd
    by_cases hdr : d ∈ r.doms
    · have := h3 d hdr s hs
      rw [if_neg (fun hz' => (hz d s hs).mp hz' n id' q hn hq hd)] at this
      exact ⟨this.1, s, hs, _, this.2, hmem d s hs⟩
    · obtain ⟨a, b⟩ := h2 d hdr
      refine ⟨a, s, hs, s, by rw [b, hs], fun m => ?_⟩
      rw [h.index d s hs m]
      constructor
      · rintro ⟨i', q', x, y⟩
        refine ⟨fun he => ?_, i', q', x, y⟩
        subst he; rw [hr] at x; cases x; exact hdr y
      · exact fun x => x.2
  have hgone : ∀ d, (∀ n id q, n ≠ name → I.rels.find? n = some (id, q) → d ∉ q.doms) → σ'.find? d = none ∧ m'.find? d = none := by
    intro d hall
    by_cases hdr : d ∈ r.doms
    · obtain ⟨s, hs, _⟩ := h.listed hr hdr
      have := h3 d hdr s hs
      rw [if_pos ((hz d s hs).mpr hall)] at this
      exact this
    · obtain ⟨a, b⟩ := h2 d hdr
      cases hs : I.domToRels.find? d with
      | none =>
        have : I.doms.contains d = false := by rw [← h.names d]; exact FMap.contains_false.mpr hs
        exact ⟨a.trans (FMap.contains_false.mp this), b.trans hs⟩
      | some s =>
        exfalso
        obtain ⟨n, hn⟩ := h.used d s hs
        obtain ⟨id', q, h5, h6⟩ := (h.index d s hs n).mp hn
        refine hall n id' q (fun he => ?_) h5 h6
        subst he; rw [hr] at h5; cases h5; exact hdr h6
  refine ⟨{ I with doms := σ', domToRels := m', rels := I.rels.erase name, schema := I.schema.erase name }, ?_, ?_, ?_⟩
  · simp only [removeRelation, bind, Except.bind, FMap.atKey_of_find hr, h1]
  · exact ⟨rfl, rfl, rfl, fun d hd => (hcase d hd).1, fun d hd => (hgone d hd).1⟩
  · have hsub : ∀ d dom, σ'.find? d = some dom → I.doms.find? d = some dom := by
      intro d dom hd
      by_cases hex : ∃ n id q, n ≠ name ∧ I.rels.find? n = some (id, q) ∧ d ∈ q.doms
      · rw [← (hcase d hex).1]; exact hd
      · have := (hgone d (fun n id q a b c => hex ⟨n, id, q, a, b, c⟩)).1
        rw [hd] at this; cases this
    constructor
    · exact fun d dom hd => h.store d dom (hsub d dom hd)
    · exact fun d dom hd => h.alpha d dom (hsub d dom hd)
    · intro d
      dsimp only
      by_cases hex : ∃ n id q, n ≠ name ∧ I.rels.find? n = some (id, q) ∧ d ∈ q.doms
      · obtain ⟨a, s, hs, s', hs', _⟩ := hcase d hex
        have := h.names d
        simp only [FMap.contains, a, hs', hs] at this ⊢
        exact this
      · obtain ⟨a, b⟩ := hgone d (fun n id q a b c => hex ⟨n, id, q, a, b, c⟩)
        simp [FMap.contains, a, b]
    · intro d s hd n
      dsimp only at hd ⊢
      by_cases hex : ∃ n id q, n ≠ name ∧ I.rels.find? n = some (id, q) ∧ d ∈ q.doms
      · obtain ⟨a, s0, hs, s', hs', hm⟩ := hcase d hex
        rw [hd] at hs'
        cases hs'
        rw [hm n]
        rw [FMap.find?_erase]
        by_cases hn : n = name
        · simp [hn]
        · simp [hn]
      · have := (hgone d (fun n id q a b c => hex ⟨n, id, q, a, b, c⟩)).2
        rw [hd] at this; cases this
    · intro d s hd
      dsimp only at hd
      by_cases hex : ∃ n id q, n ≠ name ∧ I.rels.find? n = some (id, q) ∧ d ∈ q.doms
      · obtain ⟨a, s0, hs, s', hs', hm⟩ := hcase d hex
        rw [hd] at hs'
        cases hs'
        obtain ⟨n, id', q, x, y, z⟩ := hex
        exact ⟨n, (hm n).mpr ⟨x, id', q, y, z⟩⟩
      · have := (hgone d (fun n id q a b c => hex ⟨n, id, q, a, b, c⟩)).2
        rw [hd] at this; cases this
    · intro n
      dsimp only
      rw [FMap.find?_erase, FMap.find?_erase]
      split
      · exact .inl ⟨rfl, rfl⟩
      · exact h.schema n
    · intro n id' q hq
      dsimp only at hq ⊢
      rw [FMap.find?_erase] at hq
      split at hq
      · cases hq
      · rename_i hn
        have hi := h.rels n id' q hq
        have hd : ∀ d ∈ q.doms, σ'.find? d = I.doms.find? d := fun d hd => (hcase d ⟨n, id', q, hn, hq, hd⟩).1
        refine (hi.reseat (fun d hdm => ?_) (fun k _ d i hu => ?_)).arity (fun p hp => har n id' q p hn hq hp)
        · have := hi.doms d hdm
          rw [FMap.contains_iff] at this ⊢
          rw [hd d hdm]
          exact this
        · unfold seatOf
          rw [hd d (List.of_mem_zip hu).1]

theorem removeRelation_pre {I I' : IRM F} {name : String} (hc : removeRelation I name = .ok I') :
    ∃ id r, I.rels.find? name = some (id, r) := by
  obtain ⟨⟨id, r⟩, h1, _⟩ := bind_ok.mp hc
  exact ⟨id, r, FMap.atKey_ok.mp h1⟩

/-! ### reachable states -/

theorem inv_empty : Inv L ar ({} : IRM F) where
  store d dom hd := by simp at hd
  alpha d dom hd := by simp at hd
  names d := rfl
  index d s hd := by simp at hd
  used d s hd := by simp at hd
  schema n := .inl ⟨by simp, by simp⟩
  rels n id r hr := by simp at hr

theorem Removed.arity {I I' : IRM F} {name : String} (hR : Removed name I I')
    (hb : ∀ name' id r p, I.rels.find? name' = some (id, r) → r.base? = some p → p.name ≠ name) :
    ∀ n id q p, n ≠ name → I.rels.find? n = some (id, q) → q.base? = some p → arOf I'.env p = arOf I.env p := by
  intro n id q p _ hq hp
  unfold arOf IRM.env
  rw [hR.rels, FMap.find?_erase_ne _ (hb n id q p hq hp)]

theorem _root_.Verif.HIRM.tupleSeat_uses {σ : Doms} : ∀ {ds : List String} {k : Items} {z : Items} {d : String} {i : Int}, tupleSeat σ ds k = some z → Uses ds d i k →
    ∃ c, seatOf σ d i = some c := by
  intro ds
  induction ds with
  | nil => intro k z d i _ hu; simp [Uses] at hu
  | cons e ds ih =>
    intro k z d i hz hu
    cases k with
    | nil => simp [Uses] at hu
    | cons j k =>
      obtain ⟨c, h1, h2⟩ := Option.bind_eq_some_iff.mp hz
      obtain ⟨z', h3, _⟩ := Option.map_eq_some_iff.mp h2
      simp only [Uses, List.zip_cons_cons, List.mem_cons, Prod.mk.injEq] at hu
      rcases hu with ⟨rfl, rfl⟩ | hu
      · exact ⟨c, h1⟩
      · exact ih h3 hu

/-- an entity joins a cluster of a domain, as `from_txt` does it -/
theorem Inv.seat {ar : Ptr → Option Nat} {I : IRM F} (h : Inv L ar I) {d : String} {dom dom' : Domain} {i table : Int} {t t' : Tape}
    (hd : I.doms.find? d = some dom) (hc : dom.incorporate i t table = .ok (dom', t')) : Inv L ar { I with doms := I.doms.set d dom' } := by
  have hw := h.store d dom hd
  cases hi : dom.items.contains i with
  | true => rw [Domain.incorporate_same hi hc, FMap.set_of_find hd]; exact h
  | false =>
    rw [Domain.incorporate_new hw hi] at hc
    cases hc
    have hf := hw.not_mem.mp hi
    refine h.setStore (h.store.set (hw.incState hi _)) ?_ ?_ ?_
    · intro d' dom' h'
      rw [FMap.find?_set] at h'
      split at h'
      · cases h'; exact h.alpha d dom hd
      · exact h.alpha _ _ h'
    · intro d'
      simp only [FMap.contains, FMap.find?_set]
      split
      · rename_i e; subst e; simp [hd]
      · rfl
    · intro d' j hj
      obtain ⟨n, id, q, k, hq, hk, hu⟩ := hj
      rw [seatOf_set]
      split
      · rename_i e
        subst e
        obtain ⟨z, hz⟩ := (h.rels n id q hq).seated hk
        obtain ⟨c, hc⟩ := HIRM.tupleSeat_uses hz hu
        rw [seatOf_eq hd] at hc ⊢
        simp only [Domain.incState, CRP.incState]
        rw [FMap.find?_set_ne]
        rintro rfl
        rw [hf] at hc; cases hc
      · rfl

theorem Reach.inv {rm st : Prop} {n : Nat} {I : IRM F} (h : Reach L rm st n I) : Inv L (arOf I.env) I := by
  induction h with
  | empty => exact inv_empty
  | @add n I I' name spec _ ha hc ih =>
    obtain ⟨h1, h2, h3⟩ := addRelation_pre ih hc
    cases spec with
    | clean c ds o =>
      obtain ⟨I2, rel, h4, _, h5⟩ := addRelation_clean ih h1 n c (ds := ds) h2 o
      rw [hc] at h4; cases h4; exact h5
    | noisy e ds base o =>
      obtain ⟨bid, b, hb⟩ := h3 base rfl
      obtain ⟨I2, rel, h4, _, h5⟩ := addRelation_noisy ih h1 n e (ds := ds) h2 base o hb (ha e ds base o rfl bid b hb)
      rw [hc] at h4; cases h4; exact h5
  | @remove n I I' name hrm _ hb hc ih =>
    obtain ⟨id, r, hr⟩ := removeRelation_pre hc
    have hex : ∃ I2, removeRelation I name = .ok I2 ∧ Removed name I I2 ∧ Inv L (arOf I.env) I2 :=
      removeRelation_ok ih hr (fun _ _ _ _ _ _ _ => rfl)
    obtain ⟨I2, h1, h2, _⟩ := hex
    obtain ⟨I3, h4, _, h6⟩ := removeRelation_ok (ar' := arOf I2.env) ih hr (h2.arity hb)
    rw [hc] at h1 h4
    cases h1; cases h4; exact h6
  | seat _ _ hd hc ih => exact ih.seat hd hc
  | @incorporate n I I' name items v t t' _ hv hc ih =>
    obtain ⟨id, r, hr, hl, hn, hb⟩ := incorporate_pre ih hc
    obtain ⟨σ', r', t2, h1, h2, h3, _⟩ := incorporate_ok ih hr (hv id r hr) hl hn hb t
    rw [hc] at h1
    cases h1
    rwa [SameShape.env (I := I) (fun m => ?_)]
    dsimp only
    rw [FMap.find?_set]
    split
    · rename_i he; subst he; exact .inr ⟨id, r, r', hr, rfl, h3⟩
    · exact (SameData.refl I).shape m
  | @unincorporate n I I' name items _ hc ih =>
    obtain ⟨id, r, hr, hk⟩ := unincorporate_pre hc
    obtain ⟨σ', r', h1, h2, h3, _⟩ := unincorporate_ok ih hr hk
    rw [hc] at h1
    cases h1
    rwa [SameShape.env (I := I) (fun m => ?_)]
    dsimp only
    rw [FMap.find?_set]
    split
    · rename_i he; subst he; exact .inr ⟨id, r, r', hr, rfl, h3⟩
    · exact (SameData.refl I).shape m
  | @item n I I' d i t t' _ hc ih =>
    obtain ⟨h4, h5, _⟩ := transitionItem_inv ih hc
    rw [h5.shape.env]; exact h4
  | @hparams n k I I' rs t t' _ hc ih =>
    obtain ⟨I2, t2, h1, h2, h3, _⟩ := hparamsSweep_spec rs I t ih (hparamsSweep_pre rs I t _ hc)
    rw [hc] at h1; cases h1
    rw [h3.shape.env]; exact h2
  | @alpha n I I' rs t t' _ hc ih =>
    obtain ⟨I2, t2, h1, h2, h3, _⟩ := alphaSweep_spec rs I t ih (alphaSweep_pre rs I t _ hc)
    rw [hc] at h1; cases h1
    rw [h3.shape.env]; exact h2
  | @logp n I I' obs lp t t' _ hv hc ih =>
    obtain ⟨h1, h2, _⟩ := logp_inv (env := I.env) ih hv hc
    rw [h2.shape.env]; exact h1

theorem itemsExact_incorporate {env : Env V} {I I' : IRM F} (h : Inv L (arOf env) I) (he : I.ItemsExact) {name : String} {items : Items} {v : V} {t t' : Tape}
    (hv : ∀ id r, I.rels.find? name = some (id, r) → r.Supports L (baseOf env r) items v)
    (hc : incorporate env I name items v t = .ok (I', t')) : I'.ItemsExact := by
  obtain ⟨id, r, hr, hl, hn, hb⟩ := incorporate_pre h hc
  obtain ⟨σ', r', t2, h1, h2, h3, h4, h5, _⟩ := incorporate_ok h hr (hv id r hr) hl hn hb t
  rw [hc] at h1
  cases h1
  rw [h2.itemsExact_iff]
  rw [h.itemsExact_iff] at he
  intro d hd i
  dsimp only at hd ⊢
  rw [h5.doms] at hd
  rw [observed_incorporate hr h3.doms h4, ← he d hd i]
  rw [h5.mem d i]
  simp [hd]

theorem itemsExact_unincorporate {env : Env V} {I I' : IRM F} (h : Inv L (arOf env) I) (he : I.ItemsExact) {name : String} {items : Items}
    (hc : unincorporate env I name items = .ok I') : I'.ItemsExact := by
  obtain ⟨id, r, hr, hk⟩ := unincorporate_pre hc
  obtain ⟨σ', r', h1, h2, h3, h4, _, h5⟩ := unincorporate_ok h hr hk
  rw [hc] at h1
  cases h1
  rw [h2.itemsExact_iff]
  rw [h.itemsExact_iff] at he
  intro d hd i
  dsimp only at hd ⊢
  rw [h5.doms] at hd
  obtain ⟨o1, o2⟩ := observed_unincorporate (σ' := σ') hr h3.doms h4 (d := d) (i := i)
  constructor
  · rintro ⟨z, hz⟩
    by_contra hno
    by_cases hu : Uses r.doms d i items
    · rw [h5.gone d i ⟨hu, hno⟩] at hz; cases hz
    · rw [h5.seat d i (fun x => hu x.1)] at hz
      exact hno (o2 ((he d hd i).mp ⟨z, hz⟩) hu)
  · exact fun ho => (h2.observed_seat ho).2

theorem Reach.itemsExact {n : Nat} {I : IRM F} (h : Reach L False False n I) : I.ItemsExact := by
  induction h with
  | empty => intro d dom hd; simp at hd
  | @add n I I' name spec h ha hc ih =>
    have hi := h.inv
    have h' := Reach.inv (h.add ha hc)
    obtain ⟨h1, h2, h3⟩ := addRelation_pre hi hc
    have hA : ∃ rel, Added n name spec rel I I' := by
      cases spec with
      | clean c ds o =>
        obtain ⟨I2, rel, h4, h5, _⟩ := addRelation_clean hi h1 n c (ds := ds) h2 o
        rw [hc] at h4; cases h4; exact ⟨rel, h5⟩
      | noisy e ds base o =>
        obtain ⟨bid, b, hb⟩ := h3 base rfl
        obtain ⟨I2, rel, h4, h5, _⟩ := addRelation_noisy hi h1 n e (ds := ds) h2 base o hb (ha e ds base o rfl bid b hb)
        rw [hc] at h4; cases h4; exact ⟨rel, h5⟩
    obtain ⟨rel, hA⟩ := hA
    rw [h'.itemsExact_iff]
    rw [hi.itemsExact_iff] at ih
    intro d hd i
    rw [hA.seat, hA.observed]
    cases hdo : I.doms.contains d with
    | true => exact ih d hdo i
    | false =>
      constructor
      · rintro ⟨z, hz⟩
        obtain ⟨dom, h5, _⟩ := seatOf_some hz
        rw [FMap.contains_false] at hdo
        rw [hdo] at h5; cases h5
      · intro ho
        have := (hi.observed_seat ho).1
        rw [hdo] at this; cases this
  | remove hrm => exact hrm.elim
  | seat hst => exact hst.elim
  | incorporate h hv hc ih => exact itemsExact_incorporate h.inv ih hv hc
  | unincorporate h hc ih => exact itemsExact_unincorporate h.inv ih hc
  | @item n I I' d i t t' h hc ih =>
    obtain ⟨_, h5, _⟩ := transitionItem_inv h.inv hc
    exact h5.itemsExact ih
  | @hparams n k I I' rs t t' h hc ih =>
    obtain ⟨I2, t2, h1, h2, h3, _⟩ := hparamsSweep_spec rs I t h.inv (hparamsSweep_pre rs I t _ hc)
    rw [hc] at h1; cases h1
    exact h3.itemsExact ih
  | @alpha n I I' rs t t' h hc ih =>
    obtain ⟨I2, t2, h1, h2, h3, _⟩ := alphaSweep_spec rs I t h.inv (alphaSweep_pre rs I t _ hc)
    rw [hc] at h1; cases h1
    exact h3.itemsExact ih
  | @logp n I I' obs lp t t' h hv hc ih =>
    exact (logp_inv (env := I.env) h.inv hv hc).2.1.itemsExact ih

end IRM
end
end Verif
