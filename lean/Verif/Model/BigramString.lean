import Verif.Model.Alignment
import Verif.Model.Emission
/-!
Model of cxx/emissions/bigram_string.{hh,cc}.

A context (a `std::string` that is empty or one character long) is an `Option Char`.
-/
namespace Verif
noncomputable section

/-- bigram_string.hh:14-21. -/
structure BigramString where
  N : ℝ := 0
  insertions : List DirichletCategorical
  substitutions : List DirichletCategorical

namespace BigramString

/-- bigram_string.cc:19: `2 + highest_char - lowest_char` with `'~'` and `' '`. -/
def numContexts : Nat := 96

/-- bigram_string.cc:23-24, 31-34: a categorical distribution with the initial bias on category `i` (`incorporate` succeeds as
`i < num_contexts`). -/
def biased (i : Nat) : DirichletCategorical :=
  match (DirichletCategorical.mk' numContexts).incorporate i ((numContexts : ℝ) * numContexts) with
  | .ok d => d
  | .error _ => DirichletCategorical.mk' numContexts

/-- bigram_string.cc:16-36: constructor. -/
def init : BigramString where
  insertions := (List.range numContexts).map fun _ => biased 0
  substitutions := (List.range numContexts).map fun i => biased i

/-- bigram_string.cc:46-48 `get_index(char)`.  The C++ result is a `size_t`; a negative value here is a huge one there. -/
def getIndex (c : Char) : Int := (c.toNat : Int) - 32 + 1

/-- bigram_string.cc:38-44 `get_index(std::string)`. -/
def ctxIndex : Option Char → Int
  | none => 0
  | some c => getIndex c

/-- bigram_string.cc:50-56 `category_to_char`. -/
def categoryToChar (category : Nat) : List Char := if category = 0 then [] else [Char.ofNat (32 + (category - 1))]

/-- `v[i]` for a `size_t` computed by `get_index`: out of bounds is undefined behaviour. -/
def vecAt {α} (l : List α) (i : Int) : Res α := if i < 0 then .error .ub else idxR l i.toNat

/-- `v[i].logp(x)`. -/
def vecLogp (l : List DirichletCategorical) (i x : Int) : Res ℝ := do
  let d ← vecAt l i
  d.logp x

/-- `v[i].incorporate(x, w)`. -/
def vecInc (l : List DirichletCategorical) (i x : Int) (w : ℝ) : Res (List DirichletCategorical) := do
  let d ← vecAt l i
  let d ← d.incorporate x w
  .ok (l.set i.toNat d)

/-- bigram_string.cc:60-77: the context.  The loop goes backwards over all the pieces (its `break`s leave the `switch` only), so
the result comes from the first piece that is not an insertion. -/
def distanceContext : List AlignPiece → Option Char
  | [] => none
  | .del c :: _ => some c
  | .ins _ :: ps => distanceContext ps
  | .sub a _ :: _ => some a
  | .mat c :: _ => some c

/-- bigram_string.cc:79-115: log probability of a piece in a context. -/
def pieceLogp (s : BigramString) (ctx : Option Char) : AlignPiece → Res ℝ
  | .del c => do
    let a ← vecLogp s.insertions (ctxIndex ctx) 0
    let b ← vecLogp s.substitutions (getIndex c) 0
    .ok (a + b)
  | .ins c => vecLogp s.insertions (ctxIndex ctx) (getIndex c)
  | .sub o r => do
    let a ← vecLogp s.insertions (ctxIndex ctx) 0
    let b ← vecLogp s.substitutions (getIndex o) (getIndex r)
    .ok (a + b)
  | .mat c => do
    let a ← vecLogp s.insertions (ctxIndex ctx) 0
    let b ← vecLogp s.substitutions (getIndex c) (getIndex c)
    .ok (a + b)

/-- bigram_string.cc:58-116 `log_prob_distance`. -/
def logProbDistance (s : BigramString) : CostFunction := fun a old =>
  match a.pieces.getLast? with
  | none => .error .assert
  | some p => do
    let lp ← pieceLogp s (distanceContext a.pieces) p
    .ok (old - lp)

/-- bigram_string.cc:143-179: incorporate one piece with weight `w`; the context after it. -/
def incPiece (s : BigramString) (ctx : Option Char) (w : ℝ) : AlignPiece → Res (BigramString × Option Char)
  | .del c => do
    let i ← vecInc s.insertions (ctxIndex ctx) 0 w
    let u ← vecInc s.substitutions (getIndex c) 0 w
    .ok ({ s with insertions := i, substitutions := u }, some c)
  | .ins c => do
    let i ← vecInc s.insertions (ctxIndex ctx) (getIndex c) w
    .ok ({ s with insertions := i }, ctx)
  | .sub o r => do
    let i ← vecInc s.insertions (ctxIndex ctx) 0 w
    let u ← vecInc s.substitutions (getIndex o) (getIndex r) w
    .ok ({ s with insertions := i, substitutions := u }, some o)
  | .mat c => do
    let i ← vecInc s.insertions (ctxIndex ctx) 0 w
    let u ← vecInc s.substitutions (getIndex c) (getIndex c) w
    .ok ({ s with insertions := i, substitutions := u }, some c)

/-- bigram_string.cc:139-180: the loop over the pieces of an alignment. -/
def incPieces (s : BigramString) (ctx : Option Char) (w : ℝ) : List AlignPiece → Res BigramString
  | [] => .ok s
  | p :: ps => do
    let (s, ctx) ← incPiece s ctx w p
    incPieces s ctx w ps

/-- bigram_string.cc:131-135, 138: the weight of each alignment: its `exp(cost)` divided by the sum. -/
def alignmentWeights (weight : ℝ) (as : List StrAlignment) : List (StrAlignment × ℝ) :=
  let total := (as.map fun a => Real.exp a.cost).sum
  as.map fun a => (a, weight * Real.exp a.cost / total)

/-- bigram_string.cc:137-181: the loop over the alignments. -/
def incAlignments (s : BigramString) : List (StrAlignment × ℝ) → Res BigramString
  | [] => .ok s
  | (a, w) :: as => do
    let s ← incPieces s none w a.pieces
    incAlignments s as

/-- bigram_string.cc:118-182 `incorporate`; two alignments are considered (line 14). -/
def incorporate (s : BigramString) (x : List Char × List Char) (weight : ℝ) : Res BigramString := do
  let s : BigramString := { s with N := s.N + weight }
  let as ← topkAlignments 2 x.1 x.2 s.logProbDistance
  incAlignments s (alignmentWeights weight as)

/-- bigram_string.cc:195-204 `logp_score`. -/
def logpScore (s : BigramString) : ℝ :=
  (s.insertions.map DirichletCategorical.logpScore).sum + (s.substitutions.map DirichletCategorical.logpScore).sum

/-- bigram_string.cc:184-193 `logp`: on a copy. -/
def logp (s : BigramString) (x : List Char × List Char) : Res ℝ := do
  let bse ← s.incorporate x 1
  .ok (bse.logpScore - s.logpScore)

/-- bigram_string.cc:207-212: transition each distribution of a vector in turn. -/
def transAll : List DirichletCategorical → Tape → List DirichletCategorical × Tape
  | [], t => ([], t)
  | d :: ds, t =>
    let r := d.transitionHyperparameters t
    let rs := transAll ds r.2
    (r.1 :: rs.1, rs.2)

/-- bigram_string.cc:206-213 `transition_hyperparameters`. -/
def transitionHyperparameters (s : BigramString) (t : Tape) : BigramString × Tape :=
  let i := transAll s.insertions t
  let u := transAll s.substitutions i.2
  ({ s with insertions := i.1, substitutions := u.1 }, u.2)

/-- bigram_string.cc:221-224 and 229-232: insert characters until the category 0 is drawn (a tape that has ended draws 0). -/
def insertLoop (d : DirichletCategorical) : Tape → List Char × Tape
  | [] => (categoryToChar (d.sample []).1, [])
  | n :: t =>
    let k := (d.sample (n :: t)).1
    if categoryToChar k = [] then ([], t)
    else
      let r := insertLoop d t
      (categoryToChar k ++ r.1, r.2)

/-- bigram_string.cc:220-233: the loop over the clean string and the final insertions. -/
def corruptLoop (s : BigramString) (current : Option Char) : List Char → Tape → Res (List Char × Tape)
  | [], t => do
    let d ← vecAt s.insertions (ctxIndex current)
    .ok (insertLoop d t)
  | c :: cs, t => do
    let d ← vecAt s.insertions (ctxIndex current)
    let (ins, t) := insertLoop d t
    let u ← vecAt s.substitutions (getIndex c)
    let (k, t) := u.sample t
    let (rest, t) ← corruptLoop s (some c) cs t
    .ok (ins ++ categoryToChar k ++ rest, t)

/-- bigram_string.cc:215-234 `sample_corrupted`. -/
def sampleCorrupted (s : BigramString) (clean : List Char) (t : Tape) : Res (List Char × Tape) := corruptLoop s none clean t

open Classical in
/-- bigram_string.cc:250-287: the character (if any) a piece votes for. -/
def voteChar (s : BigramString) (left : Option Char) (lw1 lw2 : ℝ) : AlignPiece → Res (Option Char)
  | .del c => do
    let lp1 ← vecLogp s.substitutions (getIndex c) 0
    let lp2 ← vecLogp s.insertions (ctxIndex left) (getIndex c)
    .ok (if lp2 + lw2 < lp1 + lw1 then some c else none)
  | .ins c => do
    let lp1 ← vecLogp s.insertions (ctxIndex left) (getIndex c)
    let lp2 ← vecLogp s.substitutions (getIndex c) 0
    .ok (if lp1 + lw1 < lp2 + lw2 then some c else none)
  | .sub o r => do
    let lp1 ← vecLogp s.substitutions (getIndex o) (getIndex r)
    let lp2 ← vecLogp s.substitutions (getIndex r) (getIndex o)
    .ok (some (if lp2 + lw2 < lp1 + lw1 then o else r))
  | .mat c => .ok (some c)

/-- bigram_string.cc:249-292: the loop over the pieces. -/
def voteLoop (s : BigramString) (lw1 lw2 : ℝ) (left : Option Char) : List AlignPiece → Res (List Char)
  | [] => .ok []
  | p :: ps => do
    let c ← voteChar s left lw1 lw2 p
    match c with
    | none => voteLoop s lw1 lw2 left ps
    | some c => do
      let rest ← voteLoop s lw1 lw2 (some c) ps
      .ok (c :: rest)

/-- bigram_string.cc:236-294 `two_string_vote`. -/
def twoStringVote (s : BigramString) (s1 s2 : List Char) (w1 w2 : ℝ) : Res (List Char) := do
  let as ← topkAlignments 1 s1 s2 s.logProbDistance
  let a ← idxR as 0
  voteLoop s (Real.log w1) (Real.log w2) none a.pieces

/-- bigram_string.cc:315-325: one round of the tournament over the strings with their weights; a string left over gets weight 1. -/
def voteRound (s : BigramString) : List (List Char × ℝ) → Res (List (List Char × ℝ))
  | [] => .ok []
  | [c] => .ok [(c.1, 1)]
  | a :: b :: rest => do
    let w ← twoStringVote s a.1 b.1 a.2 b.2
    let ws ← voteRound s rest
    .ok ((w, a.2 + b.2) :: ws)

theorem voteRound_length (s : BigramString) : ∀ (l r : List (List Char × ℝ)), voteRound s l = .ok r → r.length = (l.length + 1) / 2
  | [], r, h => by injection h with h; subst h; rfl
  | [c], r, h => by injection h with h; subst h; simp
  | a :: b :: rest, r, h => by
    unfold voteRound at h
    simp only [bind, Except.bind] at h
    split at h
    · cases h
    split at h
    · cases h
    rename_i hw
    injection h with h
    subst h
    have := voteRound_length s rest _ hw
    simp only [List.length_cons, this]
    omega

/-- bigram_string.cc:296-327 `propose_clean_with_weights`. -/
def proposeWithWeights (s : BigramString) (l : List (List Char × ℝ)) : Res (List Char) :=
  match l with
  | [] => .ok []
  | [c] => .ok c.1
  | a :: b :: rest =>
    match _h : voteRound s (a :: b :: rest) with
    | .error e => .error e
    | .ok r => proposeWithWeights s r
termination_by l.length
decreasing_by
  have := voteRound_length s _ _ _h
  simp only [List.length_cons] at this ⊢
  omega

/-- bigram_string.cc:329-333 `propose_clean`. -/
def proposeClean (s : BigramString) (corrupted : List (List Char)) : Res (List Char) :=
  proposeWithWeights s (corrupted.map fun c => (c, 1))

end BigramString

/-- bigram_string.cc as an emission. -/
def BigramStringEmission : WEmis (List Char) where
  S := BigramString
  N := BigramString.N
  incW := BigramString.incorporate
  logp := fun s x => do
    let lp ← s.logp x
    .ok (lp, s)
  score := BigramString.logpScore
  trans := BigramString.transitionHyperparameters
  fresh := BigramString.init
  corrupt := BigramString.sampleCorrupted
  propose := fun s c t => do
    let x ← s.proposeClean c
    .ok (x, t)

end
end Verif
