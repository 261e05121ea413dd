import Verif.Model.GenDBSchema
/-!
Specification of the domain layouts and of the reference indices of a PClean schema.
-/
namespace Verif
namespace GenDB
open PClean

/-- The reference fields of a class, in the order of their names: (name of the field, referenced class). -/
def refFields (c : Class) : List (String × String) :=
  c.vars.entries.filterMap fun e => match e.2.spec with
    | .scalar _ _ => none
    | .cls d => some (e.1, d)

mutual
/-- `Layout s c ds`: the layouts of the classes that `c` references, one after the other, and then `c` itself. -/
inductive Layout (s : PClean.Schema) : String → List String → Prop
  | mk {c cl ds} : s.classes.find? c = some cl → Sublayouts s (refFields cl) ds → Layout s c (ds ++ [c])
/-- the layouts of the classes that these fields reference, one after the other -/
inductive Sublayouts (s : PClean.Schema) : List (String × String) → List String → Prop
  | nil : Sublayouts s [] []
  | cons {f d fs ds ds'} : Layout s d ds → Sublayouts s fs ds' → Sublayouts s ((f, d) :: fs) (ds ++ ds')
end

/-- The class `c` has a reference field `f` to the class `d`. -/
def Refers (s : PClean.Schema) (c f d : String) : Prop := ∃ cl, s.classes.find? c = some cl ∧ (f, d) ∈ refFields cl

/-- There is no cycle of references: the classes can be ranked such that each class only refers to classes of lower rank. -/
def Acyclic (s : PClean.Schema) : Prop := ∃ rank : String → Nat, ∀ c f d, Refers s c f d → rank d < rank c

/-- Each referenced class is in the schema. -/
def Closed (s : PClean.Schema) : Prop := ∀ c f d, Refers s c f d → ∃ cl, s.classes.find? d = some cl

/-- `RefAt s c i f j`: in the layout of `c`, the entity at position `i` refers by its field `f` to the entity at position `j`. -/
inductive RefAt (s : PClean.Schema) : String → Nat → String → Nat → Prop
  | own {c cl pre f d post ds₁ ds₂ ds₃} : s.classes.find? c = some cl → refFields cl = pre ++ (f, d) :: post →
      Sublayouts s pre ds₁ → Layout s d ds₂ → Sublayouts s post ds₃ →
      RefAt s c (ds₁ ++ ds₂ ++ ds₃).length f ((ds₁ ++ ds₂).length - 1)
  | inner {c cl pre f d post ds₁ i g j} : s.classes.find? c = some cl → refFields cl = pre ++ (f, d) :: post →
      Sublayouts s pre ds₁ → RefAt s d i g j → RefAt s c (ds₁.length + i) g (ds₁.length + j)

/-- The index has this entry. -/
def Entry (m : RefIdx) (i : Nat) (f : String) (j : Nat) : Prop := ∃ r, m.find? i = some r ∧ r.find? f = some j

/-- No reference leads from `c` to a class from which two more references lead on. -/
def ShallowAt (s : PClean.Schema) (c : String) : Prop := ∀ f x g y h z, Refers s c f x → Refers s x g y → ¬ Refers s y h z

end GenDB
end Verif
