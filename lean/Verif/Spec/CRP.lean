import Verif.Model.CRP
import Mathlib.Data.Set.Card
/-!
Specification of the Chinese restaurant process bookkeeping, independent of the model's data structures:
a seating plan is a partial function from customers to tables.
-/
namespace Verif.Spec

/-- which table, if any, each customer sits at -/
abbrev Seating := Int → Option Int

/-- one call on a CRP -/
inductive SeatOp where
  | enter (customer table : Int)
  | leave (customer : Int)

/-- nobody is seated -/
def nobody : Seating := fun _ => none

/-- The plan after one call; `none` if the call is not allowed. -/
def seatStep (f : Seating) : SeatOp → Option Seating
  | .enter i t => if f i = none then some (fun j => if j = i then some t else f j) else none
  | .leave i => if f i = none then none else some (fun j => if j = i then none else f j)

def seatRun (f : Seating) : List SeatOp → Option Seating
  | [] => some f
  | op :: ops => (seatStep f op).bind (seatRun · ops)

/-- number of customers sitting at table `t` -/
noncomputable def occupancy (f : Seating) (t : Int) : Nat := {i | f i = some t}.ncard

/-- number of seated customers -/
noncomputable def seated (f : Seating) : Nat := {i | f i ≠ none}.ncard

/-- the seating plan without customer `i` -/
def without (f : Seating) (i : Int) : Seating := fun j => if j = i then none else f j

end Verif.Spec

namespace Verif.CRP
open Verif.Spec

/-- the calls of `SeatOp` made on the model -/
def apply (c : CRP) : SeatOp → Res CRP
  | .enter i t => c.incorporate i t
  | .leave i => c.unincorporate i

def run (c : CRP) : List SeatOp → Res CRP
  | [] => .ok c
  | op :: ops => do run (← c.apply op) ops

/-- The seating plan a CRP reports. -/
def seating (c : CRP) : Seating := fun i => c.assignments.find? i

/-- States a program can reach: a fresh CRP with any positive concentration, then any successful calls. -/
inductive Reachable : CRP → Prop
  | fresh (a : ℝ) (ha : 0 < a) : Reachable { alpha := a }
  | incorporate {c c' : CRP} {i t : Int} : Reachable c → c.incorporate i t = .ok c' → Reachable c'
  | unincorporate {c c' : CRP} {i : Int} : Reachable c → c.unincorporate i = .ok c' → Reachable c'
  | transitionAlpha {c : CRP} (t : Tape) : Reachable c → Reachable (c.transitionAlpha t).1

end Verif.CRP
