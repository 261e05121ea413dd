import Verif.Spec.GenDBMove
import Verif.Spec.GenDBRows
/-! Specification of the histories of a `GenDB`: rows and inference in any order. -/
namespace Verif
namespace GenDB
noncomputable section
variable {V : Type} {F : Family V}

/-- `Worked D₀ rows D`: the database `D` comes from `D₀` by calls that returned, in any order and with any arguments and draws, of `incorporate`,
`transition_reference`, `transition_reference_class_and_ancestors` and of inference, where `incorporate` was called with these rows, the last one first.
A row has values of query fields only. -/
inductive Worked (D₀ : DB F) : List (Row V) → DB F → Prop
  | nil : Worked D₀ [] D₀
  | row {rows D D' n t t'} {x : Row V} : Worked D₀ rows D → (∀ q v, x.vals.find? q = some v → ∃ f, D₀.schema.query.fields.find? q = some f) →
      D.incorporate n x.unique x.id x.vals t = .ok (D', t') → Worked D₀ (x :: rows) D'
  | ref {rows D D' c f i t t'} : Worked D₀ rows D → D.transitionReference c f i t = .ok (D', t') → Worked D₀ rows D'
  | cls {rows D D' n c t t'} : Worked D₀ rows D → DB.transitionClass n c D t = .ok (D', t') → Worked D₀ rows D'
  | iter {rows D D' k n t t'} : Worked D₀ rows D → DB.inference k n D t = .ok (D', t') → Worked D₀ rows D'
  | rels {rows D H k t t'} : Worked D₀ rows D → HIRM.inference k D.H t = .ok (H, t') → Worked D₀ rows { D with H := H }

end
end GenDB
end Verif
