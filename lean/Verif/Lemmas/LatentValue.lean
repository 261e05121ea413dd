import Verif.Spec.LatentValue
import Verif.Lemmas.NoisyRelation
/-! Helper lemmas about latent value transitions. -/
namespace Verif
noncomputable section
variable {V : Type}

/-- the cluster tuple, as the code computes it -/
def zOf (σ : Doms) (doms : List String) (items : Items) : Res Items :=
  if items.length ≠ doms.length then .error .exit else CleanRel.assignLoop σ doms items

open Classical in
/-- how many of the listed tuples are in cluster `z` -/
def hits (σ : Doms) (doms : List String) : List Items → Items → ℝ
  | [], _ => 0
  | i :: l, z => (if zOf σ doms i = .ok z then 1 else 0) + hits σ doms l z

theorem hits_one {σ : Doms} {doms : List String} {i z z' : Items} (h : zOf σ doms i = .ok z) :
    hits σ doms [i] z' = if z' = z then 1 else 0 := by
  unfold hits hits
  rw [h, add_zero]
  by_cases hz : z' = z
  · subst hz; rw [if_pos rfl, if_pos rfl]
  · rw [if_neg hz, if_neg (by intro h'; injection h' with h'; exact hz h'.symm)]

theorem hits_cons (σ : Doms) (doms : List String) (i : Items) (l : List Items) (z : Items) :
    hits σ doms (i :: l) z = hits σ doms [i] z + hits σ doms l z := by
  conv_lhs => unfold hits
  conv_rhs => rw [show hits σ doms [i] z = _ from by unfold hits hits; rw [add_zero]]

namespace CleanRel
variable {D : DistOps V}

theorem uninc_effect (hD : D.Counted) {σ : Doms} {r r' : CleanRel D} {items : Items} (h : unincorporateFromCluster σ r items = .ok r') :
    r'.doms = r.doms ∧ r'.data = r.data ∧ r'.dataR = r.dataR ∧ r.data.contains items = true ∧
      ∀ z, r'.count z = (r.count z).map (· - hits σ r.doms [items] z) := by
  unfold unincorporateFromCluster at h
  simp only [bind, Except.bind] at h
  split at h
  · cases h
  · rename_i z hz
    split at h
    · cases h
    · split at h
      · cases h
      · rename_i v hv
        split at h
        · cases h
        · rename_i c hc
          split at h
          · cases h
          · rename_i c' hc'
            injection h with h
            subst h
            refine ⟨rfl, rfl, rfl, ?_, ?_⟩
            · unfold getValue at hv
              simp only [bind, Except.bind] at hv
              cases hk : r.data.contains items with
              | true => rfl
              | false => rw [hk] at hv; cases hv
            · intro z'
              have hzz : zOf σ r.doms items = .ok z := hz
              rw [hits_one hzz]
              unfold count
              dsimp only
              by_cases hzz : z' = z
              · subst hzz
                rw [FMap.find?_set_self, FMap.atKey_ok.mp hc, if_pos rfl]
                simp [hD.dec hc']
              · rw [FMap.find?_set_ne _ hzz, if_neg hzz]
                cases r.clusters.find? z' <;> simp

theorem inc_effect (hD : D.Counted) {σ : Doms} {r r' : CleanRel D} {items : Items} {v : V}
    (h : incorporateToCluster σ r items v = .ok r') : r'.doms = r.doms ∧ r'.data = r.data ∧ r'.dataR = r.dataR ∧
      ∀ z, r'.count z = (r.count z).map (· + hits σ r.doms [items] z) := by
  unfold incorporateToCluster at h
  simp only [bind, Except.bind] at h
  split at h
  · cases h
  · rename_i z hz
    split at h
    · cases h
    · split at h
      · cases h
      · rename_i c hc
        split at h
        · cases h
        · rename_i c' hc'
          injection h with h
          subst h
          refine ⟨rfl, rfl, rfl, ?_⟩
          intro z'
          have hzz : zOf σ r.doms items = .ok z := hz
          rw [hits_one hzz]
          unfold count
          dsimp only
          by_cases hzz : z' = z
          · subst hzz
            rw [FMap.find?_set_self, FMap.atKey_ok.mp hc, if_pos rfl]
            simp [hD.inc hc']
          · rw [FMap.find?_set_ne _ hzz, if_neg hzz]
            cases r.clusters.find? z' <;> simp

theorem update_effect (hD : D.Counted) {σ : Doms} {r r' : CleanRel D} {items : Items} {v : V} (h : updateValue σ r items v = .ok r') :
    r'.doms = r.doms ∧ r'.data = r.data.set items v ∧ r'.count = r.count := by
  unfold updateValue at h
  simp only [bind, Except.bind] at h
  split at h
  · cases h
  · rename_i r1 h1
    split at h
    · cases h
    · rename_i r2 h2
      split at h
      · cases h
      · injection h with h
        subst h
        obtain ⟨a1, a2, _, _, a4⟩ := uninc_effect hD h1
        obtain ⟨b1, b2, _, b4⟩ := inc_effect hD h2
        refine ⟨b1.trans a1, by dsimp only; rw [b2, a2], ?_⟩
        funext z
        show r2.count z = _
        rw [b4, a4, a1]
        cases r.count z <;> simp

end CleanRel

namespace NoisyRel
variable {E : DistOps (V × V)}

theorem uninc_effect (hE : E.Counted) {σ : Doms} {r r' : NoisyRel E} {items : Items} (h : unincorporateFromCluster σ r items = .ok r') :
    r'.doms = r.doms ∧ r'.data = r.data ∧ r'.baseToNoisy = r.baseToNoisy ∧ r'.emission.doms = r.emission.doms ∧
      r'.emission.data = r.emission.data ∧ r.emission.data.contains items = true ∧
      ∀ z, r'.emission.count z = (r.emission.count z).map (· - hits σ r.emission.doms [items] z) := by
  unfold unincorporateFromCluster at h
  simp only [bind, Except.bind] at h
  split at h
  · cases h
  · rename_i em hem
    injection h with h
    subst h
    obtain ⟨a1, a2, _, a3, a4⟩ := CleanRel.uninc_effect hE hem
    exact ⟨rfl, rfl, rfl, a1, a2, a3, a4⟩

theorem inc_effect (hE : E.Counted) {σ : Doms} {b : BaseView V} {r r' : NoisyRel E} {items : Items} {v : V}
    (h : incorporateToCluster σ b r items v = .ok r') :
    r'.doms = r.doms ∧ r'.data = r.data ∧ r'.baseToNoisy = r.baseToNoisy ∧ r'.emission.doms = r.emission.doms ∧
      r'.emission.data = r.emission.data ∧
      ∀ z, r'.emission.count z = (r.emission.count z).map (· + hits σ r.emission.doms [items] z) := by
  unfold incorporateToCluster at h
  simp only [bind, Except.bind] at h
  split at h
  · cases h
  · split at h
    · cases h
    · rename_i em hem
      injection h with h
      subst h
      obtain ⟨a1, a2, _, a4⟩ := CleanRel.inc_effect hE hem
      exact ⟨rfl, rfl, rfl, a1, a2, a4⟩

end NoisyRel

namespace Rel
variable {F : Family V}

/-- all distributions and emissions of the family count their data -/
structure _root_.Verif.Family.Counted (F : Family V) : Prop where
  dist : ∀ c, (F.dist c).toDistOps.Counted
  emis : ∀ e, (F.emis e).toDistOps.Counted

/-- the domains by which a relation finds its clusters -/
def cdoms : Rel F → List String
  | .clean _ r => r.doms
  | .noisy _ _ r => r.emission.doms

theorem uninc_effect (hF : F.Counted) {σ : Doms} {r r' : Rel F} {items : Items} (h : unincorporateFromCluster σ r items = .ok r') :
    r'.doms = r.doms ∧ r'.data = r.data ∧ r'.cdoms = r.cdoms ∧
      ∀ z, r'.count z = (r.count z).map (· - hits σ r.cdoms [items] z) := by
  cases r with
  | clean c r =>
    simp only [unincorporateFromCluster, bind, Except.bind] at h
    split at h
    · cases h
    · rename_i r1 h1
      injection h with h
      subst h
      obtain ⟨a1, a2, _, a3, a4⟩ := CleanRel.uninc_effect (hF.dist c) h1
      exact ⟨a1, a2, a1, a4⟩
  | noisy e p r =>
    simp only [unincorporateFromCluster, bind, Except.bind] at h
    split at h
    · cases h
    · rename_i r1 h1
      injection h with h
      subst h
      obtain ⟨a1, a2, _, a3, a4, a5, a6⟩ := NoisyRel.uninc_effect (hF.emis e) h1
      exact ⟨a1, a2, a3, a6⟩

theorem inc_effect (hF : F.Counted) {σ : Doms} {b : Option (BaseView V)} {r r' : Rel F} {items : Items} {v : V}
    (h : incorporateToCluster σ b r items v = .ok r') : r'.doms = r.doms ∧ r'.data = r.data ∧ r'.cdoms = r.cdoms ∧
      ∀ z, r'.count z = (r.count z).map (· + hits σ r.cdoms [items] z) := by
  cases r with
  | clean c r =>
    simp only [incorporateToCluster, bind, Except.bind] at h
    split at h
    · cases h
    · rename_i r1 h1
      injection h with h
      subst h
      obtain ⟨a1, a2, _, a4⟩ := CleanRel.inc_effect (hF.dist c) h1
      exact ⟨a1, a2, a1, a4⟩
  | noisy e p r =>
    simp only [incorporateToCluster, bind, Except.bind] at h
    split at h
    · cases h
    · split at h
      · cases h
      · rename_i r1 h1
        injection h with h
        subst h
        obtain ⟨a1, a2, _, a3, a4, a6⟩ := NoisyRel.inc_effect (hF.emis e) h1
        exact ⟨a1, a2, a3, a6⟩

theorem update_effect (hF : F.Counted) {σ : Doms} {b : Option (BaseView V)} {r r' : Rel F} {items : Items} {v : V}
    (h : updateValue σ b r items v = .ok r') : r'.doms = r.doms ∧ r'.data = r.data.set items v ∧ r'.count = r.count := by
  cases r with
  | clean c r =>
    simp only [updateValue, bind, Except.bind] at h
    split at h
    · cases h
    · rename_i r1 h1
      injection h with h
      subst h
      exact CleanRel.update_effect (hF.dist c) h1
  | noisy e p r =>
    simp only [updateValue, bind, Except.bind] at h
    split at h
    · cases h
    · split at h
      · cases h
      · rename_i r1 h1
        injection h with h
        subst h
        unfold NoisyRel.updateValue at h1
        simp only [bind, Except.bind] at h1
        split at h1
        · cases h1
        · split at h1
          · cases h1
          · split at h1
            · cases h1
            · rename_i em hem
              injection h1 with h1
              subst h1
              obtain ⟨a1, a2, a3⟩ := CleanRel.update_effect (hF.emis e) hem
              exact ⟨rfl, rfl, a3⟩

end Rel

namespace Latent
variable {F : Family V}

/-- the same relation up to cluster statistics, with `δ z` observations fewer in cluster `z` -/
structure Shift {E : DistOps (V × V)} (δ : Items → ℝ) (r r' : NoisyRel E) : Prop where
  doms : r'.doms = r.doms
  data : r'.data = r.data
  map : r'.baseToNoisy = r.baseToNoisy
  edoms : r'.emission.doms = r.emission.doms
  pairs : r'.emission.data = r.emission.data
  counts : ∀ z, r'.emission.count z = (r.emission.count z).map (· - δ z)

theorem Shift.refl {E : DistOps (V × V)} (r : NoisyRel E) : Shift (fun _ => 0) r r :=
  ⟨rfl, rfl, rfl, rfl, rfl, fun z => by cases r.emission.count z <;> simp⟩

theorem Shift.trans {E : DistOps (V × V)} {δ δ' : Items → ℝ} {r r' r'' : NoisyRel E} (h : Shift δ r r') (h' : Shift δ' r' r'') :
    Shift (fun z => δ z + δ' z) r r'' :=
  ⟨h'.doms.trans h.doms, h'.data.trans h.data, h'.map.trans h.map, h'.edoms.trans h.edoms, h'.pairs.trans h.pairs, fun z => by
    rw [h'.counts, h.counts]
    cases r.emission.count z with
    | none => rfl
    | some c => simp; ring⟩

theorem Shift.congr {E : DistOps (V × V)} {δ δ' : Items → ℝ} {r r' : NoisyRel E} (h : Shift δ r r') (e : ∀ z, δ z = δ' z) :
    Shift δ' r r' :=
  ⟨h.doms, h.data, h.map, h.edoms, h.pairs, fun z => by rw [h.counts, e]⟩

theorem takeOut_shift {E : EmisOps V} (hE : E.toDistOps.Counted) {σ : Doms} {l : List Items} {r r' : NoisyRel E.toDistOps} {obs : List (Items × V)}
    (h : takeOutLoop σ l r = .ok (obs, r')) : obs.map Prod.fst = l ∧ Shift (hits σ r.emission.doms l) r r' ∧
      (∀ o ∈ obs, r.data.find? o.1 = some o.2) ∧ takeAgainLoop σ obs r = .ok r' := by
  induction l generalizing r obs with
  | nil =>
    simp only [takeOutLoop] at h
    injection h with h
    injection h with h1 h2
    subst h1 h2
    exact ⟨rfl, (Shift.refl r).congr (fun z => by simp [hits]), by simp, rfl⟩
  | cons i l ih =>
    simp only [takeOutLoop, bind, Except.bind] at h
    split at h
    · cases h
    · rename_i v hv
      split at h
      · cases h
      · rename_i r1 h1
        split at h
        · cases h
        · rename_i q hq
          obtain ⟨obs1, r2⟩ := q
          injection h with h
          injection h with h2 h3
          subst h2 h3
          obtain ⟨a1, a2, a3, a4, a5, a6, a7⟩ := NoisyRel.uninc_effect hE h1
          obtain ⟨b1, b2, b3, b4⟩ := ih hq
          refine ⟨by simp [b1], ?_, ?_, ?_⟩
          · have := (show Shift (hits σ r.emission.doms [i]) r r1 from ⟨a1, a2, a3, a4, a5, a7⟩).trans b2
            refine this.congr (fun z => ?_)
            rw [hits_cons σ r.emission.doms i l, a4]
          · intro o ho
            rcases List.mem_cons.mp ho with rfl | ho
            · unfold NoisyRel.getValue at hv
              simp only [bind, Except.bind] at hv
              split at hv
              · cases hv
              · exact FMap.atKey_ok.mp hv
            · rw [← a2]; exact b3 o ho
          · simp only [takeAgainLoop, bind, Except.bind, h1, b4]

theorem takeAgain_shift {E : EmisOps V} (hE : E.toDistOps.Counted) {σ : Doms} {obs : List (Items × V)} {r r' : NoisyRel E.toDistOps}
    (h : takeAgainLoop σ obs r = .ok r') : Shift (hits σ r.emission.doms (obs.map Prod.fst)) r r' := by
  induction obs generalizing r with
  | nil =>
    simp only [takeAgainLoop] at h
    injection h with h
    subst h
    exact (Shift.refl r).congr (fun z => by simp [hits])
  | cons i l ih =>
    simp only [takeAgainLoop, bind, Except.bind] at h
    split at h
    · cases h
    · rename_i r1 h1
      obtain ⟨a1, a2, a3, a4, a5, a6, a7⟩ := NoisyRel.uninc_effect hE h1
      have b2 := ih h
      have := (show Shift (hits σ r.emission.doms [i.1]) r r1 from ⟨a1, a2, a3, a4, a5, a7⟩).trans b2
      refine this.congr (fun z => ?_)
      rw [List.map_cons, hits_cons σ r.emission.doms i.1 (l.map Prod.fst), a4]

theorem putBack_shift {E : EmisOps V} (hE : E.toDistOps.Counted) {σ : Doms} {b : BaseView V} {obs : List (Items × V)}
    {r r' : NoisyRel E.toDistOps} (h : putBackLoop σ b obs r = .ok r') : Shift (fun z => - hits σ r.emission.doms (obs.map Prod.fst) z) r r' := by
  induction obs generalizing r with
  | nil =>
    simp only [putBackLoop] at h
    injection h with h
    subst h
    exact (Shift.refl r).congr (fun z => by simp [hits])
  | cons i l ih =>
    simp only [putBackLoop, bind, Except.bind] at h
    split at h
    · cases h
    · rename_i r1 h1
      obtain ⟨a1, a2, a3, a4, a5, a7⟩ := NoisyRel.inc_effect hE h1
      have b2 := ih h
      have := (show Shift (fun z => - hits σ r.emission.doms [i.1] z) r r1 from ⟨a1, a2, a3, a4, a5, fun z => by rw [a7]; simp⟩).trans b2
      refine this.congr (fun z => ?_)
      rw [List.map_cons, hits_cons σ r.emission.doms i.1 (l.map Prod.fst), a4]
      ring

/-- the participant is the same up to statistics; its observations are stored, and its clusters have `k` times its stored
observations fewer than those of `p` -/
structure Loaded (k : ℝ) (p : LatentNoisy F) (q : LatentObs F) : Prop where
  name : q.name = p.name
  σ : q.σ = p.σ
  e : q.e = p.e
  doms : q.r.doms = p.r.doms
  data : q.r.data = p.r.data
  edoms : q.r.emission.doms = p.r.emission.doms
  pairs : q.r.emission.data = p.r.emission.data
  counts : ∀ z, q.r.emission.count z = (p.r.emission.count z).map (· - k * hits p.σ p.r.emission.doms (q.obs.map Prod.fst) z)

theorem storeAll_loaded (hF : F.Counted) {bi : Items} {ps : List (LatentNoisy F)} {qs : List (LatentObs F)} {t t' : Tape}
    (h : storeAll bi ps t = .ok (qs, t')) : List.Forall₂ (Loaded 1) ps qs := by
  induction ps generalizing qs t t' with
  | nil =>
    simp only [storeAll] at h
    injection h with h
    injection h with h1 h2
    subst h1
    exact .nil
  | cons p ps ih =>
    simp only [storeAll, bind, Except.bind] at h
    split at h
    · cases h
    · rename_i x hx
      split at h
      · cases h
      · rename_i y hy
        injection h with h
        injection h with h1 h2
        subst h1
        refine .cons ?_ (ih hy)
        unfold storeOne at hx
        simp only [bind, Except.bind] at hx
        split at hx
        · cases hx
        · rename_i w hw
          injection hx with hx
          subst hx
          obtain ⟨a1, a2, a3⟩ := takeOut_shift (hF.emis p.e) hw
          refine ⟨rfl, rfl, rfl, a2.doms, a2.data, a2.edoms, a2.pairs, ?_⟩
          intro z
          dsimp only
          rw [a1, one_mul]
          exact a2.counts z

theorem putBackAll_loaded (hF : F.Counted) {k : ℝ} {b : BaseView V} {ps : List (LatentNoisy F)} {qs qs' : List (LatentObs F)}
    (h : putBackAll b qs = .ok qs') (hl : List.Forall₂ (Loaded k) ps qs) : List.Forall₂ (Loaded (k - 1)) ps qs' := by
  induction hl generalizing qs' with
  | nil =>
    simp only [putBackAll] at h
    injection h with h
    subst h
    exact .nil
  | @cons p _ _ _ h1 _ ih =>
    simp only [putBackAll, bind, Except.bind] at h
    split at h
    · cases h
    · rename_i r hr
      split at h
      · cases h
      · rename_i qs2 hq
        injection h with h
        subst h
        refine .cons ?_ (ih hq)
        have s := putBack_shift (hF.emis _) hr
        refine ⟨h1.name, h1.σ, h1.e, s.doms.trans h1.doms, s.data.trans h1.data, s.edoms.trans h1.edoms, s.pairs.trans h1.pairs, ?_⟩
        intro z
        dsimp only
        rw [s.counts, h1.counts, h1.edoms, h1.σ]
        cases p.r.emission.count z with
        | none => rfl
        | some c => simp; ring

theorem takeAgainAll_loaded (hF : F.Counted) {k : ℝ} {ps : List (LatentNoisy F)} {qs qs' : List (LatentObs F)}
    (h : takeAgainAll qs = .ok qs') (hl : List.Forall₂ (Loaded k) ps qs) : List.Forall₂ (Loaded (k + 1)) ps qs' := by
  induction hl generalizing qs' with
  | nil =>
    simp only [takeAgainAll] at h
    injection h with h
    subst h
    exact .nil
  | @cons p _ _ _ h1 _ ih =>
    simp only [takeAgainAll, bind, Except.bind] at h
    split at h
    · cases h
    · rename_i r hr
      split at h
      · cases h
      · rename_i qs2 hq
        injection h with h
        subst h
        refine .cons ?_ (ih hq)
        have s := takeAgain_shift (hF.emis _) hr
        refine ⟨h1.name, h1.σ, h1.e, s.doms.trans h1.doms, s.data.trans h1.data, s.edoms.trans h1.edoms, s.pairs.trans h1.pairs, ?_⟩
        intro z
        dsimp only
        rw [s.counts, h1.counts, h1.edoms, h1.σ]
        cases p.r.emission.count z with
        | none => rfl
        | some c => simp; ring

/-- the base relation is the same up to statistics, with `k` observations fewer in the cluster of `bi` -/
structure BaseShift (k : ℝ) (bi : Items) (b b' : LatentBase F) : Prop where
  σ : b'.σ = b.σ
  own : b'.own = b.own
  doms : b'.rel.doms = b.rel.doms
  cdoms : b'.rel.cdoms = b.rel.cdoms
  data : b'.rel.data = b.rel.data
  counts : ∀ z, b'.rel.count z = (b.rel.count z).map (· - k * hits b.σ b.rel.cdoms [bi] z)

theorem BaseShift.uninc (hF : F.Counted) {k : ℝ} {bi : Items} {b b' : LatentBase F} (h : BaseShift k bi b b') {rel : Rel F}
    (hr : b'.rel.unincorporateFromCluster b'.σ bi = .ok rel) : BaseShift (k + 1) bi b { b' with rel := rel } := by
  obtain ⟨a1, a2, a3, a4⟩ := Rel.uninc_effect hF hr
  refine ⟨h.σ, h.own, a1.trans h.doms, a3.trans h.cdoms, a2.trans h.data, fun z => ?_⟩
  dsimp only
  rw [a4, h.counts, h.σ, h.cdoms]
  cases b.rel.count z with
  | none => rfl
  | some c => simp; ring

theorem BaseShift.inc (hF : F.Counted) {k : ℝ} {bi : Items} {b b' : LatentBase F} (h : BaseShift k bi b b') {rel : Rel F} {v : V}
    (hr : b'.rel.incorporateToCluster b'.σ b'.own bi v = .ok rel) : BaseShift (k - 1) bi b { b' with rel := rel } := by
  obtain ⟨a1, a2, a3, a4⟩ := Rel.inc_effect hF hr
  refine ⟨h.σ, h.own, a1.trans h.doms, a3.trans h.cdoms, a2.trans h.data, fun z => ?_⟩
  dsimp only
  rw [a4, h.counts, h.σ, h.cdoms]
  cases b.rel.count z with
  | none => rfl
  | some c => simp; ring

theorem scoreLoop_effect (hF : F.Counted) {bi : Items} {bl : ℝ} {vs : List V} {b0 base base' : LatentBase F} {ps : List (LatentNoisy F)}
    {qs qs' : List (LatentObs F)} {ss : List ℝ} {k j : ℝ} (h : scoreLoop bi bl vs base qs = .ok (ss, base', qs'))
    (hb : BaseShift k bi b0 base) (hl : List.Forall₂ (Loaded j) ps qs) :
    BaseShift k bi b0 base' ∧ List.Forall₂ (Loaded j) ps qs' ∧ ss.length = vs.length := by
  induction vs generalizing base qs ss with
  | nil =>
    simp only [scoreLoop] at h
    injection h with h
    injection h with h1 h2
    injection h2 with h2 h3
    subst h1 h2 h3
    exact ⟨hb, hl, rfl⟩
  | cons v vs ih =>
    simp only [scoreLoop, bind, Except.bind] at h
    split at h
    · cases h
    · rename_i rel hrel
      split at h
      · cases h
      · rename_i q1 hq1
        split at h
        · cases h
        · rename_i q2 hq2
          split at h
          · cases h
          · rename_i rel2 hrel2
            split at h
            · cases h
            · rename_i x hx
              obtain ⟨ss1, base1, qs1⟩ := x
              injection h with h
              injection h with h1 h2
              injection h2 with h2 h3
              subst h1 h2 h3
              have b1 := hb.inc hF hrel
              have b2 := b1.uninc hF (rel := rel2) hrel2
              rw [sub_add_cancel] at b2
              have l1 := putBackAll_loaded hF hq1 hl
              have l2 := takeAgainAll_loaded hF hq2 l1
              rw [sub_add_cancel] at l2
              obtain ⟨c1, c2, c3⟩ := ih hx b2 l2
              exact ⟨c1, c2, by simp [c3]⟩

end Latent
end
end Verif
