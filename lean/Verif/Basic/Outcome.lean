/-!
Outcomes of C++ calls and random draws.

Modelling conventions (see DESIGN.md, section 1); these definitions model the C++ abstract machine,
not a particular file of /repo.
-/
namespace Verif

/-- The ways in which a call can fail to return. -/
inductive Err where
  /-- a failed `assert(...)` (asserts are modelled as enabled) -/
  | assert
  /-- `std::exit(1)` -/
  | exit
  /-- `std::out_of_range` thrown by `.at(...)` -/
  | outOfRange
  /-- undefined behaviour: out-of-bounds `[]`, `back()` on an empty container, ... -/
  | ub
  deriving DecidableEq, Repr

/-- The result of a C++ call: a value, or one of the failures above. -/
abbrev Res (α : Type _) := Except Err α

/-- `assert(b)`. -/
def assertR (b : Bool) : Res Unit := if b then .ok () else .error .assert

/-- `v.at(i)` of a `std::vector`. -/
def atR {α} (l : List α) (i : Nat) : Res α :=
  match l[i]? with
  | some a => .ok a
  | none => .error .outOfRange

/-- `v[i]` of a `std::vector`: undefined behaviour when out of bounds. -/
def idxR {α} (l : List α) (i : Nat) : Res α :=
  match l[i]? with
  | some a => .ok a
  | none => .error .ub

/-- The outcomes of the random choices of a run: each element resolves one draw of the
`std::mt19937*` passed around in the C++ code.  Theorems quantify over all tapes, hence over
all sequences of draws.  After the end of the tape all draws are 0. -/
abbrev Tape := List Nat

/-- Draw an index `< n` (for `n > 0`); models a draw from a `std::discrete_distribution` with `n`
weights.  Simplification: every index can be drawn (also one of weight zero), so a theorem about all tapes covers
all the draws the C++ code can make, and possibly some more. -/
def draw (n : Nat) (t : Tape) : Nat × Tape :=
  match t with
  | [] => (0, [])
  | d :: t => (d % n, t)

theorem draw_lt {n : Nat} (h : 0 < n) (t : Tape) : (draw n t).1 < n := by
  cases t with
  | nil => exact h
  | cons d t => exact Nat.mod_lt _ h

@[simp] theorem assertR_true : assertR true = .ok () := rfl
@[simp] theorem assertR_false : assertR false = .error .assert := rfl

theorem assertR_ok {b : Bool} {u : Unit} : assertR b = .ok u ↔ b = true := by
  cases b <;> simp [assertR]

theorem bind_ok {α β : Type _} {x : Res α} {f : α → Res β} {y : β} : (x >>= f) = .ok y ↔ ∃ a, x = .ok a ∧ f a = .ok y := by
  cases x with
  | error e => exact ⟨fun h => (by cases h), fun ⟨_, h, _⟩ => (by cases h)⟩
  | ok a => exact ⟨fun h => ⟨a, rfl, h⟩, fun ⟨_, h, h'⟩ => (by cases h; exact h')⟩

end Verif
