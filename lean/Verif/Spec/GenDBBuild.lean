import Verif.Spec.GenDBSchema
/-!
Specification of the HIRM schema that `GenDB` builds.
-/
namespace Verif
namespace GenDB
open PClean

/-- The string has no colon. -/
def Plain (a : String) : Prop := ':' ∉ a.toList

/-- The names of a schema: each thing has the name by which it is found (as in every schema that is read from a file), and no name has a colon. -/
structure NamesOk (s : PClean.Schema) : Prop where
  cls : ∀ c cl, s.classes.find? c = some cl → cl.name = c ∧ Plain c
  var : ∀ c cl x v, s.classes.find? c = some cl → cl.vars.find? x = some v → v.name = x ∧ Plain x
  field : ∀ k f, s.query.fields.find? k = some f → f.name = k ∧ Plain k

/-- The class `c` has a scalar variable `x` with this joint distribution and these parameters. -/
def HasScalar (s : PClean.Schema) (c x j : String) (p : FMap String String) : Prop :=
  ∃ cl v, s.classes.find? c = some cl ∧ cl.vars.find? x = some v ∧ v.spec = .scalar j p

/-- `PathTo s c path hops d x j p`: the path leads from class `c` to the scalar variable `x` of class `d`.  `hops` has the classes on the way, each with the
reference field that is followed. -/
inductive PathTo (s : PClean.Schema) : String → List String → List (String × String) → String → String → String → FMap String String → Prop
  | here {c x j p} : HasScalar s c x j p → PathTo s c [x] [] c x j p
  | step {c f d path hops e x j p} : Refers s c f d → PathTo s d path hops e x j p → PathTo s c (f :: path) ((c, f) :: hops) e x j p

/-- The record class is in the schema and each query field leads to a scalar variable. -/
structure QueryOk (s : PClean.Schema) : Prop where
  record : ∃ cl, s.classes.find? s.query.recordClass = some cl
  path : ∀ k f, s.query.fields.find? k = some f → ∃ hops d x j p, PathTo s s.query.recordClass f.classPath hops d x j p

/-- The name of the relation of a scalar variable. -/
def varRel (c x : String) : String := c ++ ":" ++ x

/-- The name of the relation that shows a queried variable to the class `c`. -/
def viaRel (c f : String) : String := c ++ "::" ++ f

/-- The base of a relation of the query field `f`, given the hops from the referenced class on. -/
def baseOf (f d x : String) : List (String × String) → String
  | [] => varRel d x
  | (c, _) :: _ => viaRel c f

/-- The references that hops add to the positions from `n` on: each entity refers to the one before. -/
def HopRef (n : Nat) (l : List (String × String)) (i : Nat) (g : String) (j : Nat) : Prop := ∃ k c, l[k]? = some (c, g) ∧ i = n + k ∧ j + 1 = i

/-- The name of the relation of the query field `f` at the end of a list of hops after `pre`. -/
def linkRel (f : String) (pre : List (String × String)) (c : String) : String := if pre.isEmpty then f else viaRel c f

/-- The hops whose classes get a relation `viaRel` of a query field: with `only_final_emissions` none, and otherwise all but the first, which is the record
class and has the relation of the query field itself. -/
def viaHops (finalOnly : Bool) (hops : List (String × String)) : List (String × String) := if finalOnly then [] else hops.tail

variable {V : Type} {F : Family V}

/-- What a query field with this path gives, in the schema and the relation indices of `b`.  `ds` is the layout of the class `d` of the queried variable
`x`, `C` and `e` are its distribution and its emission, and `own` are the indices of the class.
 * The path is the variable itself: with `record_class_is_clean` a clean relation, which has no indices, and otherwise a noisy relation of the variable.
 * With `only_final_emissions` one noisy relation of the variable.  It has the indices of the class alone if there are any.
 * Otherwise one noisy relation for each class on the path; its base is the one of the class before or in the end the relation of the variable.  It has the
   indices of the class and those of the path. -/
def FieldRels (b : Build F) (f : String) (clean finalOnly : Bool) (C : Res F.C) (e : Res F.E) (hops : List (String × String)) (d x : String)
    (ds : List String) (own : Option RefIdx) : Prop :=
  match hops, clean, finalOnly with
  | [], true, _ => ∃ c, C = .ok c ∧ b.schema.find? f = some (.clean c ds true) ∧ b.relIdx.find? f = none
  | [], false, _ => ∃ e', e = .ok e' ∧ b.schema.find? f = some (.noisy e' ds (varRel d x) true) ∧ b.relIdx.find? f = own
  | hop :: hops, _, true => ∃ e' r, e = .ok e' ∧ b.schema.find? f = some (.noisy e' (ds ++ (hop :: hops).reverse.map (·.1)) (varRel d x) true) ∧
      b.relIdx.find? f = some r ∧ ∀ i k j, Entry r i k j ↔ match own with
        | some r₀ => Entry r₀ i k j
        | none => HopRef ds.length (hop :: hops).reverse i k j
  | hop :: hops, _, false => ∃ e', e = .ok e' ∧ ∀ pre c g post, hop :: hops = pre ++ (c, g) :: post →
      b.schema.find? (linkRel f pre c) = some (.noisy e' (ds ++ (post.reverse ++ [(c, g)]).map (·.1)) (baseOf f d x post) pre.isEmpty) ∧
      ∃ r, b.relIdx.find? (linkRel f pre c) = some r ∧
        ∀ i k j, Entry r i k j ↔ (∃ r₀, own = some r₀ ∧ Entry r₀ i k j) ∨ HopRef ds.length (post.reverse ++ [(c, g)]) i k j

end GenDB
end Verif
