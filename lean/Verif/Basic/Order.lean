import Verif.Basic.Outcome
import Mathlib.Data.List.Permutation
/-! Iteration over unordered containers. -/
namespace Verif

/-- The order in which a loop visits the elements of an `std::unordered_set` / `std::unordered_map` is unspecified.  It is a
non-deterministic choice like any other: the tape selects one of the permutations of the elements, so that a theorem about
all tapes covers every iteration order. -/
def shuffle {α : Type _} (l : List α) : Tape → List α × Tape
  | [] => (l, [])
  | d :: t => (l.permutations.getD d l, t)

theorem shuffle_perm {α : Type _} (l : List α) (t : Tape) : (shuffle l t).1.Perm l := by
  cases t with
  | nil => exact .refl _
  | cons d t =>
    simp only [shuffle, List.getD_eq_getElem?_getD]
    cases h : l.permutations[d]? with
    | none => exact .refl _
    | some l' => exact List.mem_permutations.mp (List.mem_of_getElem? h)

/-- every iteration order is the choice of some tape -/
theorem shuffle_all {α : Type _} {l l' : List α} (h : l'.Perm l) (t : Tape) : ∃ d, shuffle l (d :: t) = (l', t) := by
  obtain ⟨d, hd⟩ := List.mem_iff_getElem?.mp (List.mem_permutations.mpr h)
  exact ⟨d, by simp [shuffle, List.getD_eq_getElem?_getD, hd]⟩

end Verif
