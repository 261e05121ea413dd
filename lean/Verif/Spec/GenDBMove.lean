import Verif.Model.GenDBMove
/-! Specification of the histories of reference transitions of a `GenDB`. -/
namespace Verif
namespace GenDB
noncomputable section
variable {V : Type} {F : Family V}

/-- `Inferred D D'`: the database `D'` comes from `D` by calls of `transition_reference`, of `transition_reference_class_and_ancestors`, by iterations of
`inference_gendb` and by iterations of the inference of its relations alone, all of which returned, with any arguments and draws. -/
inductive Inferred (D : DB F) : DB F → Prop
  | nil : Inferred D D
  | ref {D' D'' c f i t t'} : Inferred D D' → D'.transitionReference c f i t = .ok (D'', t') → Inferred D D''
  | cls {D' D'' n c t t'} : Inferred D D' → DB.transitionClass n c D' t = .ok (D'', t') → Inferred D D''
  | iter {D' D'' k n t t'} : Inferred D D' → DB.inference k n D' t = .ok (D'', t') → Inferred D D''
  | rels {D' H k t t'} : Inferred D D' → HIRM.inference k D'.H t = .ok (H, t') → Inferred D { D' with H := H }

end
end GenDB
end Verif
