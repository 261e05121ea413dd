import Verif.Spec.GenDBHistory
import Verif.Spec.Sampling
/-! Specification of taking values out of the relations of a `GenDB` and of putting them back. -/
namespace Verif

/-- the cluster of the entity `i` of the domain `d` in the component `tb` -/
def HIRM.cluster {V : Type} {F : Family V} (H : HIRM F) (tb : Int) (d : String) (i : Int) : Option Int := (H.irms.find? tb).bind (fun I => seatOf I.doms d i)

namespace GenDB
noncomputable section
variable {V : Type} {F : Family V}

/-- the value that the map of stored values has for a tuple of a relation -/
def storedAt (st : Stored V) (n : String) (k : Items) : Option V :=
  match st.find? n with
  | none => none
  | some m => m.find? k

/-- Nothing is lost: the value of a tuple of a relation is where it was and not stored, or it was there, is there no more, and is stored. -/
def Conserved (H : HIRM F) (H' : HIRM F) (st : Stored V) : Prop := ∀ n k,
  (H'.value n k = H.value n k ∧ storedAt st n k = none) ∨ ∃ v, H.value n k = some v ∧ H'.value n k = none ∧ storedAt st n k = some v

/-- `Handled D₀ D`: the database `D` comes from `D₀` by the calls of `Worked` and then by calls that returned, in any order and with any arguments and draws, of
`unincorporate_reference`, `unincorporate_singleton` and `incorporate_reference`, and of the loop that puts entities back into clusters, while the references of the entities are changed in any way. -/
inductive Handled (D₀ : DB F) : DB F → Prop
  | worked {rows D} : Worked D₀ rows D → Handled D₀ D
  | ents {D} {e : Ents} : Handled D₀ D → Handled D₀ { D with ents := e }
  | ref {D D' inds c f i st st' out out' t t' lp} : Handled D₀ D → D.unincReference inds c f i st out t = .ok (lp, D', st', out', t') → Handled D₀ D'
  | single {D D' c f i d st st' out out' ent ent' lp} : Handled D₀ D → D.unincSingleton c f i d st out ent = .ok (lp, D', st', out', ent') → Handled D₀ D'
  | put {D H st t t'} : Handled D₀ D → putStored st D.H t = .ok (H, t') → Handled D₀ { D with H := H }
  | seats {D H l t t'} : Handled D₀ D → DB.rejoin l D.H t = .ok (H, t') → Handled D₀ { D with H := H }

/-- The record of the entities that were taken out of their clusters is right: every entity is in its cluster and not recorded, or it was in a cluster, is in none, and
the cluster is recorded. -/
def Recorded (H : HIRM F) (H' : HIRM F) (out : DomOut) : Prop := ∀ tb d i,
  (H'.cluster tb d i = H.cluster tb d i ∧ out.find? (tb, d, i) = none) ∨ ∃ z, H.cluster tb d i = some z ∧ H'.cluster tb d i = none ∧ out.find? (tb, d, i) = some z

/-- A relation of the component `tb` has a value for a tuple with the entity `i` of the domain `d`. -/
def Used (H : HIRM F) (tb : Int) (d : String) (i : Int) : Prop :=
  ∃ n spec k v, H.tableOf n = some tb ∧ H.schema.find? n = some spec ∧ H.value n k = some v ∧ Verif.Uses spec.doms d i k

/-- the class of a relation whose attribute it is, that is, its last domain -/
def ownerClass (D : DB F) (n : String) : Option String := (D.H.schema.find? n).bind (·.doms.getLast?)

/-- The entity CRP has references to the entity whose attribute the tuple of the relation stands for. -/
def InUse (D : DB F) (n : String) (k : Items) : Prop :=
  ∃ c crp j s, ownerClass D n = some c ∧ D.ents.crps.find? c = some crp ∧ k.getLast? = some j ∧ crp.tables.find? j = some s

end
end GenDB
end Verif
