import Verif.Model.BigramString
import Verif.Model.SampleLaw
/-! The probabilities with which `BigramStringEmission` corrupts a clean string, in terms of those of `choice`. -/
namespace Verif
noncomputable section
namespace BigramString

/-- the probability that `category_to_char(sample)` (bigram_string.cc:50-56) is the character; `ps` are the probabilities of the categories -/
def charProb (ps : List ℝ) (c : Char) : ℝ := if 32 ≤ c.toNat then ps.getD (getIndex c).toNat 0 else 0

/-- bigram_string.cc:221-224 and 229-232: the probability that the loop inserts just these characters. -/
def insertProb (ps : List ℝ) : List Char → ℝ
  | [] => ps.getD 0 0
  | c :: cs => charProb ps c * insertProb ps cs

/-- bigram_string.cc:215-234 `sample_corrupted`: the probability of a result, as the sum over the parts of it that come from the insertions before the first clean character, and
over the cases of this character being deleted or replaced. -/
def corruptProb (s : BigramString) (current : Option Char) : List Char → List Char → Res ℝ
  | [], dirty => do
    let d ← vecAt s.insertions (ctxIndex current)
    let ps ← d.sampleLaw
    .ok (insertProb ps dirty)
  | c :: cs, dirty => do
    let d ← vecAt s.insertions (ctxIndex current)
    let ps ← d.sampleLaw
    let u ← vecAt s.substitutions (getIndex c)
    let qs ← u.sampleLaw
    let parts ← (List.range (dirty.length + 1)).mapM (fun n => do
      let deleted ← corruptProb s (some c) cs (dirty.drop n)
      let replaced ← match dirty.drop n with
        | [] => .ok 0
        | x :: rest => do
          let r ← corruptProb s (some c) cs rest
          .ok (charProb qs x * r)
      .ok (insertProb ps (dirty.take n) * (qs.getD 0 0 * deleted + replaced)))
    .ok parts.sum

end BigramString
end
end Verif
