import Verif.Model.UtilIO
import Mathlib.Data.List.Forall2
/-!
Specification of entity encodings.
-/
namespace Verif
variable {V : Type}
namespace UtilIO

/-- Some observation has the entity `x` at a position that belongs to domain `d`. -/
def Occurs {F : Family V} (schema : Schema F) (obs : ObsMap String) (d x : String) : Prop :=
  ∃ (r : String) (spec : RelSpec F) (l : List (List String × String)) (items : List String) (v : String) (i : Nat), schema.find? r = some spec ∧ obs.find? r = some l ∧ (items, v) ∈ l ∧ items[i]? = some x ∧ spec.doms[i]? = some d

/-- Every observation is of a relation in the schema, and has at most as many entities as the relation has domains. -/
def Fits {F : Family V} (schema : Schema F) (obs : ObsMap String) : Prop :=
  ∀ (r : String) (l : List (List String × String)) (items : List String) (v : String), obs.find? r = some l → (items, v) ∈ l → ∃ spec, schema.find? r = some spec ∧ items.length ≤ spec.doms.length

/-- The domain is a domain of some relation. -/
def IsDomain {F : Family V} (schema : Schema F) (d : String) : Prop := ∃ r spec, schema.find? r = some spec ∧ d ∈ spec.doms

/-- The code of an entity in a domain. -/
def Encoding.code (e : Encoding) (d x : String) : Option Int := (e.fwd.find? d).bind (·.find? x)

/-- The entity with a code in a domain. -/
def Encoding.entity (e : Encoding) (d : String) (c : Int) : Option String := (e.rev.find? d).bind (·.find? c)

/-- The codes are those of the entities, and lead back to the entities. -/
def Decodes (e : Encoding) (doms : List String) (items : List String) (codes : Items) : Prop :=
  codes.length = items.length ∧ ∀ (i : Nat) (x : String) (c : Int), items[i]? = some x → codes[i]? = some c →
    ∃ d, doms[i]? = some d ∧ Encoding.code e d x = some c ∧ Encoding.entity e d c = some x

end UtilIO
end Verif
