import Verif.Model.GenDB
import Verif.Spec.GenDBBuild
import Verif.Lemmas.CRP
/-!
Specification of the entities of a `GenDB` and of the references between them.
-/
namespace Verif
namespace GenDB
open PClean

/-- The entity `i` of class `c` refers by its field `f` to the entity `v`. -/
def HasRef (e : Ents) (c f : String) (i v : Int) : Prop := ∃ m, e.refs.find? c = some m ∧ m.find? (f, i) = some v

/-- There is a reference to the entity `v` of class `d`. -/
def Referenced (s : PClean.Schema) (e : Ents) (d : String) (v : Int) : Prop := ∃ c f i, Refers s c f d ∧ HasRef e c f i v

/-- `Uses s e c i d v`: references lead from the entity `i` of class `c` to the entity `v` of class `d`. -/
inductive Uses (s : PClean.Schema) (e : Ents) (c : String) (i : Int) : String → Int → Prop
  | self : Uses s e c i c i
  | step {d v f d' v'} : Uses s e c i d v → Refers s d f d' → HasRef e d f v v' → Uses s e c i d' v'

/-- The references and the entity CRPs agree: each class has references and a CRP, only reference fields have references, the CRPs are consistent partitions, and
the customers of the CRP of a class, with their tables, are exactly the references to the entities of the class. -/
structure EntsOk (s : PClean.Schema) (hash : String → Int) (e : Ents) : Prop where
  cls : ∀ c cl, s.classes.find? c = some cl → (∃ m, e.refs.find? c = some m) ∧ ∃ crp, e.crps.find? c = some crp
  typed : ∀ c f i v, HasRef e c f i v → ∃ d, Refers s c f d
  wf : ∀ d crp, e.crps.find? d = some crp → crp.WF
  agree : ∀ d crp k v, e.crps.find? d = some crp →
    (crp.assignments.find? k = some v ↔ ∃ c f i, Refers s c f d ∧ HasRef e c f i v ∧ refId hash c f i = k)
  inj : ∀ c f i v c' f' i' v' d, Refers s c f d → Refers s c' f' d → HasRef e c f i v → HasRef e c' f' i' v' → refId hash c f i = refId hash c' f' i' →
    c = c' ∧ f = f' ∧ i = i'

/-- No orphans: each entity that has references is a row or is referenced. -/
def NoOrphans (s : PClean.Schema) (rc : String) (e : Ents) : Prop := ∀ c f i v, HasRef e c f i v → c = rc ∨ Referenced s e c i

/-- No entity is referenced twice. -/
def Unshared (s : PClean.Schema) (e : Ents) : Prop :=
  ∀ c f i c' f' i' d v, Refers s c f d → Refers s c' f' d → HasRef e c f i v → HasRef e c' f' i' v → c = c' ∧ f = f' ∧ i = i'

/-- All references of the entities that are reached from an entity are there. -/
def Full (s : PClean.Schema) (e : Ents) (c : String) (i : Int) : Prop :=
  ∀ d v f d', Uses s e c i d v → Refers s d f d' → ∃ v', HasRef e d f v v'

/-- The items are a tuple over the domains `ds` that follows the references: whenever the class at position `i` refers by `f` to the class at position `j`
(as told by `E`), the entity at position `i` refers by `f` to the entity at position `j`. -/
def Follows (e : Ents) (ds : List String) (E : Nat → String → Nat → Prop) (items : Items) : Prop :=
  items.length = ds.length ∧ ∀ i f j, E i f j → ∃ c a b, ds[i]? = some c ∧ items[i]? = some a ∧ items[j]? = some b ∧ HasRef e c f a b

/-- Each reference is still there. -/
def Extends (e e' : Ents) : Prop := ∀ c f i v, HasRef e c f i v → HasRef e' c f i v

end GenDB
end Verif
