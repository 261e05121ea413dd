import Verif.Model.Rel
/-!
Model of `/repo/cxx/transition_latent_value.hh`.

The function works on a base relation and on the noisy relations that point to it; they may use the domains of different
IRMs, which it only reads.
-/
namespace Verif
noncomputable section
variable {V : Type}

/-- transition_latent_value.hh:32-33: the base relation; `own` is what its own base pointer shows if it is itself noisy. -/
structure LatentBase (F : Family V) where
  σ : Doms
  own : Option (BaseView V)
  rel : Rel F

/-- transition_latent_value.hh:34-35: one entry of `noisy_relations`. -/
structure LatentNoisy (F : Family V) where
  name : String
  σ : Doms
  e : F.E
  r : NoisyRel (F.emis e).toDistOps

/-- transition_latent_value.hh:18-22 one entry of `T_noisy_observations`, with the noisy relation: the tuples filed under the base
tuple, with their stored values, in the iteration order of the set (which does not change during the call). -/
structure LatentObs (F : Family V) extends LatentNoisy F where
  obs : List (Items × V)

namespace Latent
variable {F : Family V}

/-- transition_latent_value.hh:91-93: store and take out the listed tuples of a noisy relation. -/
def takeOutLoop {E : EmisOps V} (σ : Doms) : List Items → NoisyRel E.toDistOps → Res (List (Items × V) × NoisyRel E.toDistOps)
  | [], r => .ok ([], r)
  | items :: l, r => do
    let v ← r.getValue items
    let r ← r.unincorporateFromCluster σ items
    let (obs, r) ← takeOutLoop σ l r
    .ok ((items, v) :: obs, r)

/-- transition_latent_value.hh:88-95: one noisy relation; `operator[]` creates a missing entry of `base_to_noisy_items`. -/
def storeOne (bi : Items) (p : LatentNoisy F) (t : Tape) : Res (LatentObs F × Tape) := do
  let s := (p.r.baseToNoisy.find? bi).getD ∅
  let r := { p.r with baseToNoisy := p.r.baseToNoisy.set bi s }
  let (l, t) := shuffle s.keys t
  let (obs, r) ← takeOutLoop p.σ l r
  .ok ({ p with r := r, obs := obs }, t)

/-- transition_latent_value.hh:87-96 -/
def storeAll (bi : Items) : List (LatentNoisy F) → Tape → Res (List (LatentObs F) × Tape)
  | [], t => .ok ([], t)
  | p :: ps, t => do
    let (p, t) ← storeOne bi p t
    let (ps, t) ← storeAll bi ps t
    .ok (p :: ps, t)

/-- transition_latent_value.hh:55-68 the proposals of the listed emission clusters, moved into the base's support. -/
def proposeLoop {E : EmisOps V} (base : LatentBase F) (bi : Items) (all : List V) : List E.S → Tape → Res (List V × Tape)
  | [], t => .ok ([], t)
  | c :: cs, t => do
    let (x, t) ← E.propose c all t
    let (x, t) ← base.rel.nearest base.σ x bi t
    let (xs, t) ← proposeLoop base bi all cs t
    .ok (x :: xs, t)

/-- transition_latent_value.hh:54-68 -/
def candidates (base : LatentBase F) (bi : Items) (all : List V) : List (LatentObs F) → Tape → Res (List V × Tape)
  | [], t => .ok ([], t)
  | p :: ps, t => do
    let (cs, t) := shuffle p.r.emission.clusters.vals t
    let (xs, t) ← proposeLoop (E := F.emis p.e) base bi all cs t
    let (ys, t) ← candidates base bi all ps t
    .ok (xs ++ ys, t)

/-- transition_latent_value.hh:119-123, 165-168: put the stored noisy values back into their clusters; `b` is the base relation. -/
def putBackLoop {E : EmisOps V} (σ : Doms) (b : BaseView V) : List (Items × V) → NoisyRel E.toDistOps → Res (NoisyRel E.toDistOps)
  | [], r => .ok r
  | (items, v) :: l, r => do
    let r ← r.incorporateToCluster σ b items v
    putBackLoop σ b l r

/-- transition_latent_value.hh:117-124, 164-169 -/
def putBackAll (b : BaseView V) : List (LatentObs F) → Res (List (LatentObs F))
  | [] => .ok []
  | p :: ps => do
    let r ← putBackLoop p.σ b p.obs p.r
    let ps ← putBackAll b ps
    .ok ({ p with r := r } :: ps)

/-- transition_latent_value.hh:135-137 -/
def takeAgainLoop {E : EmisOps V} (σ : Doms) : List (Items × V) → NoisyRel E.toDistOps → Res (NoisyRel E.toDistOps)
  | [], r => .ok r
  | (items, _) :: l, r => do
    let r ← r.unincorporateFromCluster σ items
    takeAgainLoop σ l r

/-- transition_latent_value.hh:134-138 -/
def takeAgainAll : List (LatentObs F) → Res (List (LatentObs F))
  | [] => .ok []
  | p :: ps => do
    let r ← takeAgainLoop p.σ p.obs p.r
    let ps ← takeAgainAll ps
    .ok ({ p with r := r } :: ps)

/-- transition_latent_value.hh:109-112, 127-130: the scores of the noisy relations, added up. -/
def scoreAll (ps : List (LatentObs F)) : ℝ := (ps.map (fun p => p.r.logpScore)).sum

/-- transition_latent_value.hh:115-141: the score of each candidate.  The base relation's stored value is not touched, only its
cluster. -/
def scoreLoop (bi : Items) (baseline : ℝ) : List V → LatentBase F → List (LatentObs F) →
    Res (List ℝ × LatentBase F × List (LatentObs F))
  | [], base, ps => .ok ([], base, ps)
  | v :: vs, base, ps => do
    let rel ← base.rel.incorporateToCluster base.σ base.own bi v
    let ps ← putBackAll rel.view ps
    let s := scoreAll ps - baseline
    let ps ← takeAgainAll ps
    let rel ← rel.unincorporateFromCluster base.σ bi
    let (ss, base, ps) ← scoreLoop bi baseline vs { base with rel := rel } ps
    .ok (s :: ss, base, ps)

/-- transition_latent_value.hh:149-170 `choose_and_incorporate_value`.  `log_choice` (util_math.cc:66-73) of an empty vector is
undefined behaviour. -/
def choose (bi : Items) (cands : List V) (base : LatentBase F) (ps : List (LatentObs F)) (t : Tape) :
    Res (V × LatentBase F × List (LatentObs F) × Tape) := do
  let (k, t) := draw cands.length t
  let v ← idxR cands k
  let rel ← base.rel.incorporateToCluster base.σ base.own bi v
  let rel ← rel.updateValue base.σ base.own bi v
  let ps ← putBackAll rel.view ps
  .ok (v, { base with rel := rel }, ps, t)

/-- the values of all stored observations (transition_latent_value.hh:43-48); the caller shuffles them, since the iteration order of
the unordered maps is unspecified. -/
def allObs (ps : List (LatentObs F)) : List V := ps.flatMap (fun p => p.obs.map Prod.snd)

/-- The result of `transition_latent_value`, with what it computed on the way. -/
structure Outcome (F : Family V) where
  /-- the candidates (hh:54) -/
  cands : List V
  /-- their scores (hh:70) -/
  scores : List ℝ
  /-- the candidate that was drawn (hh:159) -/
  chosen : V
  base : LatentBase F
  noisy : List (LatentNoisy F)

/-- transition_latent_value.hh:30-74 `transition_latent_value`.  The order of `noisy` is the iteration order of the unordered map;
the caller may pass the relations in any order. -/
def transition (bi : Items) (base : LatentBase F) (noisy : List (LatentNoisy F)) (t : Tape) : Res (Outcome F × Tape) := do
  let rel ← base.rel.unincorporateFromCluster base.σ bi
  let base := { base with rel := rel }
  let (ps, t) ← storeAll bi noisy t
  let (all, t) := shuffle (allObs ps) t
  let (cands, t) ← candidates base bi all ps t
  let (scores, base, ps) ← scoreLoop bi (scoreAll ps) cands base ps
  let (v, base, ps, t) ← choose bi cands base ps t
  .ok ({ cands := cands, scores := scores, chosen := v, base := base, noisy := ps.map (·.toLatentNoisy) }, t)

end Latent
end
end Verif
