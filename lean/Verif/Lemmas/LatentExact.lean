import Verif.Lemmas.LatentValue
/-! Helper lemmas about latent value transitions with distributions whose state is a function of their data. -/
namespace Verif
noncomputable section
variable {V : Type}

/-- every cluster represents the data `m` gives for it -/
def Reps {D : DistOps V} {supp : V → Prop} (L : Lawful D supp) (hy : Items → L.H) (m : Items → Multiset V) (cl : FMap Items D.S) : Prop :=
  ∀ z c, cl.find? z = some c → L.Rep (hy z) (m z) c

/-- the values of the listed tuples that are placed at `z` -/
def cont (place : Items → Option Items) (g : Items → V) : List Items → Items → Multiset V
  | [], _ => 0
  | i :: l, z => (if place i = some z then {g i} else 0) + cont place g l z

theorem cont_cons (place : Items → Option Items) (g : Items → V) (i : Items) (l : List Items) (z : Items) :
    cont place g (i :: l) z = (if place i = some z then {g i} else 0) + cont place g l z := rfl

theorem Reps.ext {D : DistOps V} {supp : V → Prop} {L : Lawful D supp} (E : L.Exact) {hy : Items → L.H} {m : Items → Multiset V}
    {cl cl' : FMap Items D.S} (h : Reps L hy m cl) (h' : Reps L hy m cl') (hk : ∀ z, cl.contains z = cl'.contains z) : cl = cl' := by
  apply FMap.ext
  intro z
  have hz := hk z
  unfold FMap.contains at hz
  cases h1 : cl.find? z with
  | none =>
    rw [h1] at hz
    cases h2 : cl'.find? z with
    | none => rfl
    | some c => rw [h2] at hz; cases hz
  | some c =>
    rw [h1] at hz
    cases h2 : cl'.find? z with
    | none => rw [h2] at hz; cases hz
    | some c' => rw [E _ _ _ _ (h z c h1) (h' z c' h2)]

theorem ClInv.reps {D : DistOps V} {supp : V → Prop} (L : Lawful D supp) {place : Items → Option Items} {data : FMap Items V}
    {cl : FMap Items D.S} (h : ClInv D supp place data cl) : ∃ hy, Reps L hy (contents place data) cl := by
  have : ∀ z, ∃ hh, ∀ c, cl.find? z = some c → L.Rep hh (contents place data z) c := by
    intro z
    cases hc : cl.find? z with
    | none => obtain ⟨hh, _⟩ := L.fresh []; exact ⟨hh, nofun⟩
    | some c =>
      obtain ⟨hh, hr⟩ := L.holds ((h z).2 c hc).2
      exact ⟨hh, fun c' h' => by cases h'; exact hr⟩
  exact ⟨fun z => (this z).choose, fun z => (this z).choose_spec⟩

theorem contents_cont {place : Items → Option Items} {data : FMap Items V} {g : Items → V} {l : List Items} (hn : l.Nodup)
    (hg : ∀ i ∈ l, data.find? i = some (g i)) : ∃ rest : Items → Multiset V, ∀ z, contents place data z = cont place g l z + rest z := by
  induction l generalizing data with
  | nil => exact ⟨contents place data, fun z => by simp [cont]⟩
  | cons i l ih =>
    obtain ⟨hi, hn⟩ := List.nodup_cons.mp hn
    obtain ⟨rest, hr⟩ := ih (data := data.erase i) hn (fun j hj => by
      rw [FMap.find?_erase_ne _ (by rintro rfl; exact hi hj)]; exact hg j (List.mem_cons_of_mem _ hj))
    refine ⟨rest, fun z => ?_⟩
    rw [contents_erase (hg i List.mem_cons_self), hr]
    rw [cont_cons]
    split
    · rw [add_assoc, Multiset.singleton_add]
    · rw [add_assoc, zero_add]

namespace CleanRel
variable {D : DistOps V} {supp : V → Prop}

theorem uninc_reps (L : Lawful D supp) {σ : Doms} (hσ : StoreWF σ) {r : CleanRel D} {hy : Items → L.H} {m m' : Items → Multiset V}
    {i z : Items} {v : V} (hr : Reps L hy m r.clusters) (hd : r.data.find? i = some v) (hz : tupleSeat σ r.doms i = some z)
    (hc : r.clusters.contains z = true) (hm : ∀ z', m z' = (if tupleSeat σ r.doms i = some z' then {v} else 0) + m' z') :
    ∃ cl, unincorporateFromCluster σ r i = .ok { r with clusters := cl } ∧ Reps L hy m' cl ∧
      ∀ z, cl.contains z = r.clusters.contains z := by
  obtain ⟨c, hcc⟩ := FMap.contains_iff.mp hc
  have h1 := hr z c hcc
  rw [hm, if_pos hz, Multiset.singleton_add] at h1
  obtain ⟨c', hc', hr'⟩ := L.dec h1
  refine ⟨r.clusters.set z c', ?_, ?_, ?_⟩
  · have hdt : r.data.contains i = true := FMap.contains_iff.mpr ⟨_, hd⟩
    simp [unincorporateFromCluster, bind, Except.bind, clusterOf_eq hσ hz, assertR, hc, getValue, hdt, FMap.atKey_of_find hd,
      FMap.atKey_of_find hcc, hc']
  · intro z' c2 h2
    by_cases hzz : z' = z
    · subst hzz; rw [FMap.find?_set_self] at h2; cases h2; exact hr'
    · rw [FMap.find?_set_ne _ hzz] at h2
      have := hr z' c2 h2
      rwa [hm, if_neg (by rw [hz]; intro h'; cases h'; exact hzz rfl), zero_add] at this
  · intro z'
    unfold FMap.contains
    by_cases hzz : z' = z
    · subst hzz; rw [FMap.find?_set_self, hcc]; rfl
    · rw [FMap.find?_set_ne _ hzz]

theorem inc_reps (L : Lawful D supp) {σ : Doms} (hσ : StoreWF σ) {r : CleanRel D} {hy : Items → L.H} {m m' : Items → Multiset V}
    {i z : Items} {v : V} (hr : Reps L hy m' r.clusters) (hv : supp v) (hz : tupleSeat σ r.doms i = some z)
    (hc : r.clusters.contains z = true) (hm : ∀ z', m z' = (if tupleSeat σ r.doms i = some z' then {v} else 0) + m' z') :
    ∃ cl, incorporateToCluster σ r i v = .ok { r with clusters := cl } ∧ Reps L hy m cl ∧
      ∀ z, cl.contains z = r.clusters.contains z := by
  obtain ⟨c, hcc⟩ := FMap.contains_iff.mp hc
  obtain ⟨c', hc', hr'⟩ := L.inc (hr z c hcc) hv
  refine ⟨r.clusters.set z c', ?_, ?_, ?_⟩
  · simp [incorporateToCluster, bind, Except.bind, clusterOf_eq hσ hz, assertR, hc, FMap.atKey_of_find hcc, hc']
  · intro z' c2 h2
    rw [hm]
    by_cases hzz : z' = z
    · subst hzz; rw [FMap.find?_set_self] at h2; cases h2
      rw [if_pos hz, Multiset.singleton_add]; exact hr'
    · rw [FMap.find?_set_ne _ hzz] at h2
      rw [if_neg (by rw [hz]; intro h'; cases h'; exact hzz rfl), zero_add]
      exact hr z' c2 h2
  · intro z'
    unfold FMap.contains
    by_cases hzz : z' = z
    · subst hzz; rw [FMap.find?_set_self, hcc]; rfl
    · rw [FMap.find?_set_ne _ hzz]

/-- taking one observation out of its cluster and putting it back -/
theorem uninc_inc {L : Lawful D supp} (X : L.Exact) {σ : Doms} (hσ : StoreWF σ) {r r' : CleanRel D} (h : Inv supp σ r) {i : Items}
    {v : V} (hd : r.data.find? i = some v) (hu : unincorporateFromCluster σ r i = .ok r') :
    incorporateToCluster σ r' i v = .ok r := by
  obtain ⟨hy, hr⟩ := h.cl.reps L
  obtain ⟨hs, z, hz⟩ := h.seated i v hd
  obtain ⟨rest, hrest⟩ := contents_cont (place := tupleSeat σ r.doms) (data := r.data) (g := fun _ => v) (l := [i]) (by simp)
    (by simpa using hd)
  obtain ⟨c, hc, _⟩ := h.cl.find hd hz
  have hc : r.clusters.contains z = true := FMap.contains_iff.mpr ⟨c, hc⟩
  have hm : ∀ z', contents (tupleSeat σ r.doms) r.data z' = (if tupleSeat σ r.doms i = some z' then {v} else 0) + rest z' := by
    intro z'; rw [hrest]; simp [cont]
  obtain ⟨cl, h1, h2, h3⟩ := uninc_reps L hσ hr hd hz hc hm
  rw [h1] at hu
  injection hu with hu
  subst hu
  obtain ⟨cl', h4, h5, h6⟩ := inc_reps L hσ (r := { r with clusters := cl }) h2 hs hz (by dsimp only; rw [h3]; exact hc) hm
  rw [h4]
  dsimp only
  rw [h5.ext X hr (fun z => (h6 z).trans (h3 z))]

end CleanRel

namespace Latent
variable {F : Family V}

/-- the clusters of `r` hold the data `m`, and it agrees with `r0` on everything but the clusters and the map -/
structure Mid {E : DistOps (V × V)} {supp : V × V → Prop} (L : Lawful E supp) (hy : Items → L.H) (m : Items → Multiset (V × V))
    (r0 r : NoisyRel E) : Prop where
  eq : r = { r0 with emission := { r0.emission with clusters := r.emission.clusters } }
  reps : Reps L hy m r.emission.clusters
  keys : ∀ z, r.emission.clusters.contains z = r0.emission.clusters.contains z

theorem takeOut_mid {E : EmisOps V} {supp : V × V → Prop} (L : Lawful E.toDistOps supp) {σ : Doms} (hσ : StoreWF σ)
    {hy : Items → L.H} {rest : Items → Multiset (V × V)} {g : Items → V × V} {r0 : NoisyRel E.toDistOps} {l : List Items}
    (hl : ∀ i ∈ l, r0.emission.data.find? i = some (g i) ∧
      ∃ z, tupleSeat σ r0.emission.doms i = some z ∧ r0.emission.clusters.contains z = true) :
    ∀ {r r' : NoisyRel E.toDistOps} {obs : List (Items × V)},
      Mid L hy (fun z => cont (tupleSeat σ r0.emission.doms) g l z + rest z) r0 r → takeOutLoop σ l r = .ok (obs, r') → Mid L hy rest r0 r' := by
  induction l with
  | nil =>
    intro r r' obs hm h
    simp only [takeOutLoop] at h
    injection h with h
    injection h with h1 h2
    subst h2
    exact ⟨hm.eq, fun z c hc => by have := hm.reps z c hc; simpa [cont] using this, hm.keys⟩
  | cons i l ih =>
    intro r r' obs hm h
    obtain ⟨hg, z, hz, hc⟩ := hl i List.mem_cons_self
    have e1 : r.emission.doms = r0.emission.doms := by rw [hm.eq]
    have e2 : r.emission.data = r0.emission.data := by rw [hm.eq]
    obtain ⟨cl, h1, h2, h3⟩ := CleanRel.uninc_reps L hσ hm.reps (by rw [e2]; exact hg) (by rw [e1]; exact hz)
      (by rw [hm.keys]; exact hc) (m' := fun z => cont (tupleSeat σ r0.emission.doms) g l z + rest z)
      (fun z' => by rw [e1]; rw [cont_cons, add_assoc])
    simp only [takeOutLoop, bind, Except.bind, NoisyRel.unincorporateFromCluster, h1] at h
    split at h
    · cases h
    · split at h
      · cases h
      · rename_i q hq
        injection h with h
        injection h with h4 h5
        subst h5
        refine ih (fun j hj => hl j (List.mem_cons_of_mem _ hj)) (r := { r with emission := { r.emission with clusters := cl } })
          ⟨?_, h2, fun z => (h3 z).trans (hm.keys z)⟩ hq
        conv_lhs => rw [hm.eq]

theorem putBack_mid {E : EmisOps V} {supp : V × V → Prop} (L : Lawful E.toDistOps supp) {σ : Doms} (hσ : StoreWF σ) {b : BaseView V}
    {hy : Items → L.H} {g : Items → V × V} {r0 : NoisyRel E.toDistOps} {obs : List (Items × V)}
    (hl : ∀ o ∈ obs, supp (g o.1) ∧ (g o.1).2 = o.2 ∧ NoisyRel.baseValue b o.1 = .ok (g o.1).1 ∧
      ∃ z, tupleSeat σ r0.emission.doms o.1 = some z ∧ r0.emission.clusters.contains z = true) :
    ∀ {rest : Items → Multiset (V × V)} {r : NoisyRel E.toDistOps}, Mid L hy rest r0 r → ∃ r', putBackLoop σ b obs r = .ok r' ∧
      Mid L hy (fun z => cont (tupleSeat σ r0.emission.doms) g (obs.map Prod.fst) z + rest z) r0 r' := by
  induction obs with
  | nil =>
    intro rest r hm
    exact ⟨r, rfl, hm.eq, fun z c hc => by have := hm.reps z c hc; simpa [cont] using this, hm.keys⟩
  | cons o l ih =>
    intro rest r hm
    obtain ⟨hs, hg, hb, z, hz, hc⟩ := hl o List.mem_cons_self
    have e1 : r.emission.doms = r0.emission.doms := by rw [hm.eq]
    obtain ⟨cl, h1, h2, h3⟩ := CleanRel.inc_reps L hσ hm.reps hs (by rw [e1]; exact hz)
      (by rw [hm.keys]; exact hc) (fun z' => rfl)
    obtain ⟨r', h4, h5⟩ := ih (fun j hj => hl j (List.mem_cons_of_mem _ hj)) (r := { r with emission := { r.emission with clusters := cl } })
          ⟨by conv_lhs => rw [hm.eq], h2, fun z => (h3 z).trans (hm.keys z)⟩
    refine ⟨r', ?_, h5.eq, fun z c hc => ?_, h5.keys⟩
    · have hgo : ((g o.1).1, o.2) = g o.1 := by rw [← hg]
      simp only [putBackLoop, bind, Except.bind, NoisyRel.incorporateToCluster, hb, hgo, h1]
      exact h4
    · have := h5.reps z c hc
      rw [e1] at this
      rw [List.map_cons]
      rwa [cont_cons, add_comm (ite _ _ _), add_assoc]

/-- the stored pairs consist of the base value and the value; the base has every base tuple -/
structure PairsOk {E : DistOps (V × V)} (b : BaseView V) (r : NoisyRel E) : Prop where
  arity : b.arity ≤ r.emission.doms.length
  data : ∀ k, r.data.find? k = (r.emission.data.find? k).map Prod.snd
  base : ∀ k p, r.emission.data.find? k = some p → b.data.find? (k.take b.arity) = some p.1

theorem takeOut_putBack {E : EmisOps V} {supp : V × V → Prop} {L : Lawful E.toDistOps supp} (X : L.Exact) {σ : Doms} (hσ : StoreWF σ)
    {b : BaseView V} {r r1 : NoisyRel E.toDistOps} (hC : E.toDistOps.Counted) (hi : CleanRel.Inv supp σ r.emission) (hp : PairsOk b r)
    {l : List Items} (hn : l.Nodup)
    {obs : List (Items × V)} (h : takeOutLoop σ l r = .ok (obs, r1)) : putBackLoop σ b obs r1 = .ok r := by
  obtain ⟨h1, h2, h3, _⟩ := takeOut_shift hC h
  cases obs with
  | nil =>
    cases l with
    | cons i l => simp at h1
    | nil =>
      simp only [takeOutLoop] at h
      injection h with h
      injection h with h4 h5
      rw [← h5]
      rfl
  | cons o os =>
    have hin : ∀ i ∈ l, ∃ p, r.emission.data.find? i = some p := by
      intro i hil
      rw [← h1] at hil
      obtain ⟨o', ho', rfl⟩ := List.mem_map.mp hil
      have := h3 o' ho'
      rw [hp.data] at this
      cases hq : r.emission.data.find? o'.1 with
      | none => rw [hq] at this; cases this
      | some p => exact ⟨p, rfl⟩
    obtain ⟨p0, _⟩ := hin o.1 (by rw [← h1]; simp)
    let g : Items → V × V := fun i => (r.emission.data.find? i).getD p0
    have hg : ∀ i ∈ l, r.emission.data.find? i = some (g i) := by
      intro i hil
      obtain ⟨p, hq⟩ := hin i hil
      simp [g, hq]
    have hs : ∀ i ∈ l, supp (g i) ∧ ∃ z, tupleSeat σ r.emission.doms i = some z ∧ r.emission.clusters.contains z = true := by
      intro i hil
      obtain ⟨a1, z, hz⟩ := hi.seated i _ (hg i hil)
      obtain ⟨c, hc, _⟩ := hi.cl.find (hg i hil) hz
      exact ⟨a1, z, hz, FMap.contains_iff.mpr ⟨c, hc⟩⟩
    obtain ⟨hy, hr⟩ := hi.cl.reps L
    obtain ⟨rest, hrest⟩ := contents_cont (place := tupleSeat σ r.emission.doms) hn hg
    have m0 : Mid L hy (fun z => cont (tupleSeat σ r.emission.doms) g l z + rest z) r r :=
      ⟨rfl, fun z c hc => by rw [← hrest]; exact hr z c hc, fun _ => rfl⟩
    have m1 := takeOut_mid L hσ (fun i hil => ⟨hg i hil, (hs i hil).2⟩) m0 h
    have hobs : ∀ o' ∈ o :: os, o'.1 ∈ l := fun o' ho' => by rw [← h1]; exact List.mem_map_of_mem ho'
    obtain ⟨r', e1, m2⟩ := putBack_mid L hσ (b := b) (g := g) (obs := o :: os) (r0 := r) (fun o' ho' => by
      have hil := hobs o' ho'
      have h3' := h3 o' ho'
      rw [hp.data, hg _ hil] at h3'
      have hlen : o'.1.length = r.emission.doms.length := hi.length (hg _ hil)
      refine ⟨(hs _ hil).1, by simpa using h3', NoisyRel.baseValue_eq (by rw [hlen]; exact hp.arity) (hp.base _ _ (hg _ hil)), (hs _ hil).2⟩) m1
    rw [e1]
    have hcl : r'.emission.clusters = r.emission.clusters := by
      refine Reps.ext X m2.reps ?_ m2.keys
      intro z c hc
      rw [h1]
      exact m0.reps z c hc
    rw [m2.eq, hcl]

theorem PairsOk.of_inv {E : DistOps (V × V)} {supp : V × V → Prop} {σ : Doms} {b : BaseView V} {r : NoisyRel E}
    (h : NoisyRel.Inv supp σ b r) : PairsOk b r :=
  ⟨by rw [h.link.doms]; exact h.link.arity, h.link.data, h.link.base⟩

theorem storeAll_ready (hF : F.Counted) (L : FamilyLaws F) (X : ∀ e, (L.emis e).Exact) {b : BaseView V} {bi : Items}
    {ps : List (LatentNoisy F)} {qs : List (LatentObs F)} {t t' : Tape} (hp : ∀ p ∈ ps, StoreWF p.σ ∧ NoisyRel.Inv (L.suppE p.e) p.σ b p.r)
    (h : storeAll bi ps t = .ok (qs, t')) :
    ∃ fs, putBackAll b qs = .ok fs ∧ takeAgainAll fs = .ok qs ∧ fs.map (·.toLatentNoisy) = ps.map (LatentNoisy.touch bi) := by
  induction ps generalizing qs t t' with
  | nil =>
    simp only [storeAll] at h
    injection h with h
    injection h with h1 h2
    subst h1
    exact ⟨[], rfl, rfl, rfl⟩
  | cons p ps ih =>
    simp only [storeAll, bind, Except.bind] at h
    split at h
    · cases h
    · rename_i x hx
      split at h
      · cases h
      · rename_i y hy
        injection h with h
        injection h with h1 h2
        subst h1
        obtain ⟨fs, a1, a2, a3⟩ := ih (fun p' hp' => hp p' (List.mem_cons_of_mem _ hp')) hy
        unfold storeOne at hx
        simp only [bind, Except.bind] at hx
        split at hx
        · cases hx
        · rename_i w hw
          injection hx with hx
          subst hx
          obtain ⟨w1, w2⟩ := w
          obtain ⟨hσ, hi⟩ := hp p List.mem_cons_self
          have hpo := PairsOk.of_inv hi
          have hn : (shuffle ((p.r.baseToNoisy.find? bi).getD ∅).keys t).1.Nodup :=
            (shuffle_perm _ _).nodup_iff.mpr (FMap.nodupKeys _)
          have rt := takeOut_putBack (X p.e) hσ (hF.emis p.e) (r := { p.r with baseToNoisy := p.r.baseToNoisy.set bi ((p.r.baseToNoisy.find? bi).getD ∅) })
            hi.em ⟨hpo.arity, hpo.data, hpo.base⟩ hn hw
          have ta := (takeOut_shift (hF.emis p.e) hw).2.2.2
          refine ⟨{ LatentNoisy.touch bi p with obs := w1 } :: fs, ?_, ?_, ?_⟩
          · simp only [putBackAll, bind, Except.bind, rt, a1]
            rfl
          · simp only [takeAgainAll, bind, Except.bind, a2]
            have ta' : takeAgainLoop (LatentNoisy.touch bi p).σ w1 (LatentNoisy.touch bi p).r = .ok w2 := ta
            rw [ta']
            rfl
          · simp [a3]

theorem scoreLoop_scores (hF : F.Counted) {bi : Items} {bl : ℝ} {vs : List V} {base base' : LatentBase F}
    {qs qs' fs : List (LatentObs F)} {ss : List ℝ} {b : BaseView V} (hb : base.rel.view = b) (h1 : putBackAll b qs = .ok fs)
    (h2 : takeAgainAll fs = .ok qs) (h : scoreLoop bi bl vs base qs = .ok (ss, base', qs')) :
    ss = List.replicate vs.length (scoreAll fs - bl) ∧ qs' = qs := by
  induction vs generalizing base ss with
  | nil =>
    simp only [scoreLoop] at h
    injection h with h
    injection h with h1 h2
    injection h2 with h2 h3
    subst h1 h2 h3
    exact ⟨rfl, rfl⟩
  | cons v vs ih =>
    simp only [scoreLoop, bind, Except.bind] at h
    split at h
    · cases h
    · rename_i rel hrel
      obtain ⟨a1, a2, _⟩ := Rel.inc_effect hF hrel
      have hv : rel.view = b := by rw [← hb]; unfold Rel.view; rw [a1, a2]
      rw [hv, h1] at h
      simp only [h2] at h
      split at h
      · cases h
      · rename_i rel2 hrel2
        obtain ⟨c1, c2, _⟩ := Rel.uninc_effect hF hrel2
        split at h
        · cases h
        · rename_i x hx
          obtain ⟨ss1, base1, qs1⟩ := x
          injection h with h
          injection h with h3 h4
          injection h4 with h4 h5
          subst h3 h4 h5
          obtain ⟨e1, e2⟩ := ih (by dsimp only; rw [← hv]; unfold Rel.view; rw [c1, c2]) hx
          exact ⟨by rw [e1]; rfl, e2⟩

theorem scoreLoop_same {bi : Items} {bl : ℝ} {vs : List V} {base base' : LatentBase F}
    {qs qs' : List (LatentObs F)} {ss : List ℝ} {rel : Rel F} (hv : ∀ v ∈ vs, base.rel.incorporateToCluster base.σ base.own bi v = .ok rel)
    (hu : rel.unincorporateFromCluster base.σ bi = .ok base.rel) (h : scoreLoop bi bl vs base qs = .ok (ss, base', qs')) : base' = base := by
  induction vs generalizing qs ss with
  | nil =>
    simp only [scoreLoop] at h
    injection h with h
    injection h with h1 h2
    injection h2 with h2 h3
    exact h2.symm
  | cons v vs ih =>
    simp only [scoreLoop, bind, Except.bind, hv v List.mem_cons_self, hu] at h
    split at h
    · cases h
    · split at h
      · cases h
      · split at h
        · cases h
        · rename_i x hx
          obtain ⟨ss1, base1, qs1⟩ := x
          injection h with h
          injection h with h3 h4
          injection h4 with h4 h5
          subst h3 h4 h5
          exact ih (fun v hv' => hv v (List.mem_cons_of_mem _ hv')) hx

end Latent
end
end Verif
