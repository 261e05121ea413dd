import Verif.Lemmas.LatentExact
import Verif.Lemmas.Counted
import Verif.Lemmas.Reach
import Verif.Props.Predictive
import Verif.Props.NoisyRelation
/-!
C25: `transition_latent_value` (transition_latent_value.hh).

The full property — afterwards every cluster's statistics are those of its stored data — is false of the code
(`C25_statistics_drift`): the value that is taken out again after a candidate has been scored is the old one, not the
candidate.  What holds is stated here: the stored values are right, every cluster has the right number of observations
(`C25_latent_partial`), and if every candidate is the old value nothing changes (`C25_unchanged`).  Moreover the scores do
not depend on the candidates (`C25_scores_ignore_candidate`).
-/
namespace Verif
noncomputable section
namespace Latent
variable {V : Type} {F : Family V}

/-- C25 (partial): whenever the transition returns, the base relation stores the chosen candidate for the tuple and is otherwise
unchanged, its clusters hold as many observations as before, and the same is true of every noisy relation; each candidate
has one score.  Missing: that the statistics of the clusters are those of the stored values, which is false. -/
theorem C25_latent_partial (hF : F.Counted) {bi : Items} {base : LatentBase F} {noisy : List (LatentNoisy F)} {o : Outcome F}
    {t t' : Tape} (h : transition bi base noisy t = .ok (o, t')) :
    o.chosen ∈ o.cands ∧ o.scores.length = o.cands.length ∧
    o.base.σ = base.σ ∧ o.base.rel.doms = base.rel.doms ∧ o.base.rel.data = base.rel.data.set bi o.chosen ∧
    o.base.rel.count = base.rel.count ∧ List.Forall₂ LatentNoisy.SameData noisy o.noisy := by
  unfold transition at h
  simp only [bind, Except.bind] at h
  split at h
  · cases h
  · rename_i rel hrel
    split at h
    · cases h
    · rename_i x hx
      obtain ⟨ps, t1⟩ := x
      dsimp only at h
      split at h
      · cases h
      · rename_i y hy
        obtain ⟨cands, t2⟩ := y
        dsimp only at h
        split at h
        · cases h
        · rename_i w hw
          obtain ⟨scores, base1, ps1⟩ := w
          dsimp only at h
          split at h
          · cases h
          · rename_i q hq
            obtain ⟨v, base2, ps2, t3⟩ := q
            injection h with h
            injection h with h1 h2
            subst h1
            dsimp only
            have b0 : BaseShift 0 bi base base :=
              ⟨rfl, rfl, rfl, rfl, rfl, fun z => by cases base.rel.count z <;> simp⟩
            have b1 := b0.uninc hF hrel
            have l1 := storeAll_loaded hF hx
            obtain ⟨b2, l2, e⟩ := scoreLoop_effect hF hw b1 l1
            unfold choose at hq
            simp only [bind, Except.bind] at hq
            split at hq
            · cases hq
            · rename_i v' hv
              split at hq
              · cases hq
              · rename_i rel2 hrel2
                split at hq
                · cases hq
                · rename_i rel3 hrel3
                  split at hq
                  · cases hq
                  · rename_i ps3 hps3
                    injection hq with hq
                    injection hq with q1 q2
                    injection q2 with q2 q3
                    injection q3 with q3 q4
                    subst q1 q2 q3
                    have b3 := b2.inc hF hrel2
                    obtain ⟨u1, u2, u3⟩ := Rel.update_effect hF hrel3
                    have l3 := putBackAll_loaded hF hps3 l2
                    have hmem : v' ∈ cands := by
                      unfold idxR at hv
                      split at hv
                      · rename_i hv'; injection hv with hv; subst hv; exact List.mem_of_getElem? hv'
                      · cases hv
                    refine ⟨hmem, e, b2.σ, u1.trans b3.doms, ?_, ?_, ?_⟩
                    · rw [u2, b3.data]
                    · rw [u3]
                      funext z
                      rw [b3.counts]
                      cases base.rel.count z <;> simp
                    · rw [List.forall₂_map_right_iff]
                      refine l3.imp (fun p q hpq => ?_)
                      refine ⟨hpq.name, hpq.σ, hpq.e, hpq.doms, hpq.data, hpq.pairs, ?_⟩
                      funext z
                      rw [hpq.counts]
                      cases p.r.emission.count z <;> simp

/-- the condition of `C25_latent_partial` holds of every distribution and every emission of the repository -/
theorem C25_counted : BetaBernoulli.ops.Counted ∧ Normal.ops.Counted ∧ (∀ k, (DirichletCategorical.ops k).Counted) ∧
    (∀ ss, (StringCat.ops ss).Counted) ∧ (∀ n lo hi, (Bigram.ops n lo hi).Counted) ∧ (∀ b z p, (Skellam.ops b z p).Counted) ∧
    BitFlip.ops.toDistOps.Counted ∧ (∀ z, (GaussianEmission z).ops.toDistOps.Counted) ∧
    (∀ k, (CategoricalEmission k).ops.toDistOps.Counted) ∧ SimpleStringEmission.ops.toDistOps.Counted ∧
    BigramStringEmission.ops.toDistOps.Counted ∧
    ∀ (V : Type) [DecidableEq V] (W : WEmis V) (f : Bool), (Sometimes W f).ops.toDistOps.Counted :=
  ⟨BetaBernoulli.counted, Normal.counted, DirichletCategorical.counted, StringCat.counted, Bigram.counted, Skellam.counted,
    WEmis.Counted.ops BitFlip.counted, fun z => WEmis.Counted.ops (GaussianEmission.counted z),
    fun k => WEmis.Counted.ops (CategoricalEmission.counted k), WEmis.Counted.ops SimpleStringEmission.counted,
    WEmis.Counted.ops BigramStringEmission.counted, fun _ _ W f => WEmis.Counted.ops (Sometimes.counted W f)⟩

/-- C25: what the transition computes does not depend on the candidates: when the emissions' states are functions of
their data, all candidates get the same score, because the noisy relations read the base value that is still stored, and not the
candidate.  That score is the score of the noisy relations before the transition, minus their score once the noisy observations of the
base tuple have been taken out (`storeAll`). -/
theorem C25_scores_ignore_candidate (hF : F.Counted) (L : FamilyLaws F) (X : ∀ e, (L.emis e).Exact) {bi : Items} {base : LatentBase F}
    {noisy : List (LatentNoisy F)} {o : Outcome F} {t t' : Tape}
    (hn : ∀ p ∈ noisy, NoisyRel.Reach (L.suppE p.e) p.σ base.rel.view p.r) (h : transition bi base noisy t = .ok (o, t')) :
    ∃ ps t1, storeAll bi noisy t = .ok (ps, t1) ∧ o.scores = List.replicate o.cands.length
      ((noisy.map (fun p => p.r.logpScore)).sum - (ps.map (fun p => p.r.logpScore)).sum) := by
  unfold transition at h
  simp only [bind, Except.bind] at h
  split at h
  · cases h
  · rename_i rel hrel
    split at h
    · cases h
    · rename_i x hx
      obtain ⟨ps, t1⟩ := x
      dsimp only at h
      split at h
      · cases h
      · rename_i y hy
        obtain ⟨cands, t2⟩ := y
        dsimp only at h
        split at h
        · cases h
        · rename_i w hw
          obtain ⟨scores, base1, ps1⟩ := w
          dsimp only at h
          split at h
          · cases h
          · injection h with h
            injection h with h1 h2
            subst h1
            obtain ⟨fs, f1, f2, f3⟩ := storeAll_ready hF L X (fun p hp => (hn p hp).inv (L.emis p.e)) hx
            obtain ⟨a1, a2, _⟩ := Rel.uninc_effect hF hrel
            obtain ⟨e, _⟩ := scoreLoop_scores hF (b := base.rel.view) (by unfold Rel.view; dsimp only; rw [a1, a2]) f1 f2 hw
            have hsc : scoreAll fs = (noisy.map (fun p => p.r.logpScore)).sum := by
              have := congrArg (fun l : List (LatentNoisy F) => (l.map (fun p => p.r.logpScore)).sum) f3
              simp only [List.map_map] at this
              exact this
            exact ⟨ps, t1, hx, by rw [e, hsc]; rfl⟩

/-- C25: if the base relation is clean, the states of its clusters and of the emissions are functions of their data, and every
candidate is the value already stored, then the transition changes nothing (except that a missing entry of the index from base tuples
to noisy tuples is created, empty). -/
theorem C25_unchanged (hF : F.Counted) (L : FamilyLaws F) (X : ∀ e, (L.emis e).Exact) {c : F.C} (XC : (L.dist c).Exact)
    {bi : Items} {base : LatentBase F} {r : CleanRel (F.dist c).toDistOps} (hc : base.rel = .clean c r)
    (hr : CleanRel.Reach (L.suppC c) base.σ r)
    {noisy : List (LatentNoisy F)} {o : Outcome F} {t t' : Tape} {v : V} (hv : r.getValue bi = .ok v)
    (hn : ∀ p ∈ noisy, NoisyRel.Reach (L.suppE p.e) p.σ base.rel.view p.r) (h : transition bi base noisy t = .ok (o, t'))
    (hcands : ∀ w ∈ o.cands, w = v) : o.base = base ∧ o.noisy = noisy.map (LatentNoisy.touch bi) := by
  obtain ⟨hσ, hi⟩ := hr.inv (L.dist c)
  have hd : r.data.find? bi = some v := by
    unfold CleanRel.getValue at hv
    simp only [bind, Except.bind] at hv
    split at hv
    · cases hv
    · exact FMap.atKey_ok.mp hv
  unfold transition at h
  simp only [bind, Except.bind] at h
  split at h
  · cases h
  · rename_i rel hrel
    have hinc : rel.incorporateToCluster base.σ base.own bi v = .ok base.rel := by
      rw [hc] at hrel ⊢
      simp only [Rel.unincorporateFromCluster, bind, Except.bind] at hrel
      split at hrel
      · cases hrel
      · rename_i r1 h1
        injection hrel with hrel
        subst hrel
        simp only [Rel.incorporateToCluster, bind, Except.bind, CleanRel.uninc_inc XC hσ hi hd h1]
    have hupd : base.rel.updateValue base.σ base.own bi v = .ok base.rel := by
      rw [hc] at hrel ⊢
      simp only [Rel.unincorporateFromCluster, bind, Except.bind] at hrel
      split at hrel
      · cases hrel
      · rename_i r1 h1
        simp only [Rel.updateValue, bind, Except.bind, CleanRel.updateValue, h1, CleanRel.uninc_inc XC hσ hi hd h1, 
          FMap.set_of_find hd, FMap.atKey_of_find hd]
    split at h
    · cases h
    · rename_i x hx
      obtain ⟨ps, t1⟩ := x
      dsimp only at h
      split at h
      · cases h
      · rename_i y hy
        obtain ⟨cands, t2⟩ := y
        dsimp only at h
        split at h
        · cases h
        · rename_i w hw
          obtain ⟨scores, base1, ps1⟩ := w
          dsimp only at h
          split at h
          · cases h
          · rename_i q hq
            obtain ⟨v', base2, ps2, t3⟩ := q
            injection h with h
            injection h with h1 h2
            subst h1
            dsimp only at hcands ⊢
            obtain ⟨fs, f1, f2, f3⟩ := storeAll_ready hF L X (fun p hp => (hn p hp).inv (L.emis p.e)) hx
            obtain ⟨a1, a2, _⟩ := Rel.uninc_effect hF hrel
            obtain ⟨e, e2⟩ := scoreLoop_scores hF (b := base.rel.view) (by unfold Rel.view; dsimp only; rw [a1, a2]) f1 f2 hw
            have e3 := scoreLoop_same (rel := base.rel) (fun v1 hv1 => by rw [hcands v1 hv1]; exact hinc) hrel hw
            subst e2 e3
            unfold choose at hq
            simp only [bind, Except.bind] at hq
            split at hq
            · cases hq
            · rename_i v2 hv2
              have hmem : v2 ∈ cands := by
                unfold idxR at hv2
                split at hv2
                · rename_i hv'; injection hv2 with hv2; subst hv2; exact List.mem_of_getElem? hv'
                · cases hv2
              have hvv := hcands v2 hmem
              subst hvv
              simp only [hinc, hupd, f1] at hq
              injection hq with hq
              injection hq with q1 q2
              injection q2 with q2 q3
              injection q3 with q3 q4
              subst q1 q2 q3
              exact ⟨rfl, f3⟩

/-! ### A base relation of one observation and one noisy relation with one observation -/

/-- booleans with Bernoulli distributions and sometimes-bitflip noise -/
def bools : Family Bool where
  C := Unit
  E := Unit
  dist := fun _ => CleanRel.coinOps
  emis := fun _ => (Sometimes BitFlip).ops

def boolLaws : FamilyLaws bools where
  suppC := fun _ _ => True
  suppE := fun _ => NoisyRel.Any
  dist := fun _ => BetaBernoulli.lawful
  emis := fun _ => Sometimes.lawful BitFlip.lawful

theorem bools_counted : bools.Counted :=
  ⟨fun _ => BetaBernoulli.counted, fun _ => WEmis.Counted.ops (Sometimes.counted BitFlip false)⟩

/-- the base relation has the observation (1) ↦ v -/
def baseRel (v : Bool) : CleanRel BetaBernoulli.ops :=
  { doms := ["D"], dataR := (∅ : RevIndex).set "D" ((∅ : FMap Int (FSet Items)).set 1 (FSet.insert ∅ [1])),
    data := (∅ : FMap Items Bool).set [1] v,
    clusters := (∅ : FMap Items BetaBernoulli).set [0] (BetaBernoulli.incorporate {} v) }

theorem baseRel_reach (v : Bool) : CleanRel.Reach (fun _ => True) CleanRel.twoStore (baseRel v) :=
  .incorporate (t := []) (t' := []) (.fresh CleanRel.twoStore_ok (doms := ["D"]) (r := { doms := ["D"], dataR := (∅ : RevIndex).set "D" ∅ })
    (by intro d hd; simp at hd; subst hd; rfl) rfl) trivial (items := [1]) (v := v) rfl

def exBase (v : Bool) : LatentBase bools := { σ := CleanRel.twoStore, own := none, rel := .clean () (baseRel v) }

/-- the emission relation of a noisy relation over the domains D, D with the observation (1, 2) ↦ w -/
def emisRel (v w : Bool) : CleanRel (Sometimes BitFlip).ops.toDistOps :=
  { doms := ["D", "D"],
    dataR := (∅ : RevIndex).set "D" (((∅ : FMap Int (FSet Items)).set 1 (FSet.insert ∅ [1, 2])).set 2 (FSet.insert ∅ [1, 2])),
    data := (∅ : FMap Items (Bool × Bool)).set [1, 2] (v, w),
    clusters := (∅ : FMap Items (Sometimes.St BitFlip)).set [0, 0] (if v = w then { N := 0 + 1, bb := BetaBernoulli.incorporate {} false, be := (0 : ℝ) }
      else { N := 0 + 1, bb := BetaBernoulli.incorporate {} true, be := ((0 : ℝ) + 1 : ℝ) }) }

/-- the noisy relation over the domains D, D with the observation (1, 2) ↦ w -/
def noisyRel (v w : Bool) : NoisyRel (Sometimes BitFlip).ops.toDistOps :=
  { doms := ["D", "D"], data := (∅ : FMap Items Bool).set [1, 2] w,
    baseToNoisy := (∅ : FMap Items (FSet Items)).set [1] (FSet.insert ∅ [1, 2]), emission := emisRel v w }

theorem noisyRel_reach (v w : Bool) : NoisyRel.Reach NoisyRel.Any CleanRel.twoStore (exBase v).rel.view (noisyRel v w) := by
  have h0 : NoisyRel.Reach (E := (Sometimes BitFlip).ops.toDistOps) NoisyRel.Any CleanRel.twoStore (exBase v).rel.view
      { doms := ["D", "D"], emission := { doms := ["D", "D"], dataR := (∅ : RevIndex).set "D" ∅ } } :=
    .fresh (doms := ["D", "D"]) CleanRel.twoStore_ok (by intro d hd; simp at hd; subst hd; rfl) (by simp [exBase, Rel.view, Rel.doms, baseRel]) rfl
  refine NoisyRel.Reach.incorporate (items := [1, 2]) (v := w) (t := []) (t' := []) h0 (fun bv _ => NoisyRel.any _) ?_
  cases v <;> cases w <;> rfl

def exNoisy (v w : Bool) : List (LatentNoisy bools) := [{ name := "N", σ := CleanRel.twoStore, e := (), r := noisyRel v w }]

/-- the statistics the cluster of the base relation ends with when the stored value is false and the candidate is true -/
def drifted : BetaBernoulli :=
  (((((((({} : BetaBernoulli).incorporate false).unincorporate false).incorporate true).unincorporate false).incorporate true).unincorporate
    false).incorporate true)

theorem exTransition : ∃ o t', transition [1] (exBase false) (exNoisy false true) [] = .ok (o, t') ∧ o.cands = [true] ∧
    o.chosen = true ∧ ∃ r, o.base.rel = .clean () r ∧ r.data.find? [1] = some true ∧ r.doms = ["D"] ∧ o.base.σ = CleanRel.twoStore ∧
      r.data = (∅ : FMap Items Bool).set [1] true ∧ r.clusters.find? [0] = some drifted := by
  refine ⟨_, _, rfl, rfl, rfl, _, rfl, rfl, rfl, rfl, rfl, rfl⟩

theorem drifted_counts : drifted.N = 1 ∧ drifted.s = 3 := by
  have ht : ∀ d : BetaBernoulli, (d.incorporate true).s = d.s + 1 := by
    intro d
    simp only [BetaBernoulli.incorporate, if_true, mul_one]
    rw [show (d.s : ℝ) + 1 = ((d.s + 1 : Int) : ℝ) by push_cast; ring, truncInt_int]
  have hf : ∀ d : BetaBernoulli, (d.unincorporate false).s = d.s := by
    intro d
    simp only [BetaBernoulli.unincorporate, BetaBernoulli.incorporate]
    rw [show (d.s : ℝ) + -1 * (if false = true then 1 else 0) = (d.s : ℝ) by simp, truncInt_int]
  have hf' : ∀ d : BetaBernoulli, (d.incorporate false).s = d.s := by
    intro d
    simp only [BetaBernoulli.incorporate]
    rw [show (d.s : ℝ) + 1 * (if false = true then 1 else 0) = (d.s : ℝ) by simp, truncInt_int]
  unfold drifted
  constructor
  · simp only [BetaBernoulli.unincorporate, BetaBernoulli.incorporate]; norm_num
  · rw [ht, hf, ht, hf, ht, hf, hf']; rfl

/-- C25 is false of the code: a reachable base relation with one observation, `false`, and a reachable noisy relation with one
observation of it, `true`.  The transition stores `true` for the tuple, and leaves the cluster of the base relation
with one observation of which three are true: no data has these statistics. -/
theorem C25_statistics_drift : ∃ (base : LatentBase bools) (r : CleanRel BetaBernoulli.ops) (noisy : List (LatentNoisy bools)),
    base.rel = .clean () r ∧ CleanRel.Reach (fun _ => True) base.σ r ∧
    (∀ p ∈ noisy, NoisyRel.Reach NoisyRel.Any p.σ base.rel.view p.r) ∧
    ∃ o t' r' c, transition [1] base noisy [] = .ok (o, t') ∧ o.base.rel = .clean () r' ∧ r'.data = (∅ : FMap Items Bool).set [1] true ∧
      r'.clusters.find? [0] = some c ∧ (c : BetaBernoulli).N = 1 ∧ c.s = 3 ∧ ¬ r'.ClustersExact (fun _ => True) o.base.σ := by
  obtain ⟨o, t', h1, h2, h3, r', h4, h5, h6, h7, h8, h9⟩ := exTransition
  refine ⟨exBase false, baseRel false, exNoisy false true, rfl, baseRel_reach false, ?_, o, t', r', drifted, h1, h4, h8, h9,
    drifted_counts.1, drifted_counts.2, ?_⟩
  · intro p hp
    rw [List.mem_singleton.mp hp]
    exact noisyRel_reach false true
  · intro hx
    have hh := hx.2 [0] drifted h9
    obtain ⟨hy, hrep⟩ := BetaBernoulli.lawful.holds hh
    generalize contents _ _ _ = m at hrep
    have hN := BetaBernoulli.lawful.count hrep
    have e : drifted = BetaBernoulli.rep hy.1 m := hrep
    have hs : drifted.s ≤ Multiset.card m := by
      rw [e]
      simp only [BetaBernoulli.rep]
      exact_mod_cast Multiset.count_le_card _ _
    rw [drifted_counts.2] at hs
    have hN' : drifted.N = Multiset.card m := hN
    rw [drifted_counts.1] at hN'
    have : Multiset.card m = 1 := by exact_mod_cast hN'.symm
    omega

/-- C25: without noisy relations there are no candidates, and the draw from the empty list is undefined behaviour. -/
theorem C25_no_noisy_relations {bi : Items} {base : LatentBase F} {rel : Rel F} (h : base.rel.unincorporateFromCluster base.σ bi = .ok rel)
    (t : Tape) : transition bi base [] t = .error .ub := by
  simp [transition, bind, Except.bind, h, storeAll, candidates, scoreLoop, choose, idxR]

/-! The hypotheses are met. -/

/-- C25_latent_partial, with a change of the stored value -/
example : ∃ o t', transition [1] (exBase false) (exNoisy false true) [] = .ok (o, t') ∧ o.chosen = true ∧
    o.base.rel.data = (baseRel false).data.set [1] true ∧ o.base.rel.count = (exBase false).rel.count := by
  obtain ⟨o, t', h1, h2, h3, _⟩ := exTransition
  obtain ⟨_, _, _, _, h4, h5, _⟩ := C25_latent_partial bools_counted h1
  exact ⟨o, t', h1, h3, by rw [h4, h3]; rfl, h5⟩

/-- C25_scores_ignore_candidate -/
example : ∃ o t', transition [1] (exBase false) (exNoisy false true) [] = .ok (o, t') ∧ ∃ s, o.scores = [s] := by
  obtain ⟨o, t', h1, h2, _⟩ := exTransition
  obtain ⟨ps, _, _, hs⟩ := C25_scores_ignore_candidate bools_counted boolLaws (fun _ => Sometimes.exact BitFlip.exact)
    (fun p hp => by rw [List.mem_singleton.mp hp]; exact noisyRel_reach false true) h1
  exact ⟨o, t', h1, _, by rw [hs, h2]; rfl⟩

/-- C25_unchanged: the noisy observation agrees with the base value -/
example : ∃ o t', transition [1] (exBase true) (exNoisy true true) [] = .ok (o, t') ∧ o.base = exBase true := by
  have h : ∃ o t', transition [1] (exBase true) (exNoisy true true) [] = .ok (o, t') ∧ o.cands = [true] := ⟨_, _, rfl, rfl⟩
  obtain ⟨o, t', h1, h2⟩ := h
  exact ⟨o, t', h1, (C25_unchanged bools_counted boolLaws (fun _ => Sometimes.exact BitFlip.exact) (base := exBase true) (c := ()) (r := baseRel true) BetaBernoulli.exact rfl
    (baseRel_reach true) (v := true) rfl (fun p hp => by rw [List.mem_singleton.mp hp]; exact noisyRel_reach true true) h1 (by simp [h2])).1⟩

/-- C25_no_noisy_relations -/
example : transition [1] (exBase true) [] [] = .error .ub :=
  C25_no_noisy_relations (rel := .clean () { baseRel true with
    clusters := (∅ : FMap Items BetaBernoulli).set [0] ((BetaBernoulli.incorporate {} true).unincorporate true) }) rfl []

end Latent
end
end Verif
