import Verif.Model.HirmMain
import Verif.Spec.Session
import Verif.Spec.ObsFile
/-! Specification of the input files of the program `hirm`. -/
namespace Verif
open UtilIO
noncomputable section
variable {w : World}

/-- The same schema, except for which relations are marked as observed. -/
def UtilIO.Marked {V : Type} {F : Family V} (S S' : Schema F) : Prop := ∀ n, S'.find? n = S.find? n ∨ S'.find? n = (S.find? n).map RelSpec.observe

namespace HirmMain

/-- The line of an observation file states the value `v`: it has as many entities as its relation has domains, and the text of the value
reads as `v`, which is a value of the relation. -/
def States (w : World) (S : Schema (priors w)) (x : Row) (v : Value) : Prop :=
  ∃ spec, S.find? x.rel = some spec ∧ x.items.length = spec.doms.length ∧ parseValue w spec.kind x.value = .ok v ∧ spec.Takes v

/-- no two lines are for the same entities of the same relation -/
def Distinct (rows : List Row) : Prop := rows.Pairwise (fun x y => x.rel = y.rel → x.items ≠ y.items)

/-- The files of a run: the schema can be read and is sound, and every relation leads to a clean one; the lines of the observations are of
relations that are not bases, and state values, each for entities of their own; noisy relations that are not bases have observations; and
the held-out lines state values of clean relations whose clusters all start alike. -/
structure Proper (w : World) (a : Args) (S : Schema (priors w)) (rows held : List Row) : Prop where
  schema : loadSchema (reader w).mkC (reader w).mkE a.schema = .ok S
  sound : Sound S
  grounded : ∀ n, S.contains n = true → Grounded S n
  obs : FileText a.obs rows
  each : ∀ x ∈ rows, HIRM.Leaf S x.rel ∧ ∃ v, States w S x v
  distinct : Distinct rows
  leaves : ∀ n spec b, S.find? n = some spec → spec.base? = some b → HIRM.Leaf S n → ∃ x ∈ rows, x.rel = n
  heldout : match a.heldout with
    | none => held = []
    | some text => FileText text held
  heldEach : ∀ x ∈ held, (∃ v, States w S x v) ∧ ∃ c ds o, S.find? x.rel = some (.clean c ds o) ∧ Prior.Steady c
  heldDistinct : Distinct held

/-- the noise can be undone and every base relation is in the held-out file (there can be none), or inference makes no iterations -/
def Iterable (a : Args) (S : Schema (priors w)) (held : List Row) : Prop :=
  a.iters = 0 ∨ Undoing S ∧ ∀ n spec b, S.find? n = some spec → spec.base? = some b → ∃ x ∈ held, x.rel = b

end HirmMain
end
end Verif
