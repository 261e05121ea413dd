import Verif.Model.IRM
import Verif.Spec.LatentValue
/-! Specification of an IRM: which entities it knows, what an entity move may change, and which states it can reach. -/
namespace Verif
open Spec
noncomputable section
variable {V : Type} {F : Family V}

/-- which distribution or emission a relation uses -/
def Rel.kind : Rel F → F.C ⊕ F.E
  | .clean c _ => .inl c
  | .noisy e _ _ => .inr e

/-- the pairs of base value and noisy value that a noisy relation's emission clusters are about -/
def Rel.pairs : Rel F → FMap Items (V × V)
  | .clean _ _ => ∅
  | .noisy _ _ r => r.emission.data

/-- under which base tuple a noisy relation files each of its observations -/
def Rel.links : Rel F → FMap Items (FSet Items)
  | .clean _ _ => ∅
  | .noisy _ _ r => r.baseToNoisy

/-- which distribution or emission a relation of the schema uses -/
def RelSpec.kind : RelSpec F → F.C ⊕ F.E
  | .clean c _ _ => .inl c
  | .noisy e _ _ _ => .inr e

/-- the name of the base relation -/
def RelSpec.base? : RelSpec F → Option String
  | .clean _ _ _ => none
  | .noisy _ _ b _ => some b

/-- the relation object is the one the schema describes -/
structure RelSpec.Matches (s : RelSpec F) (r : Rel F) : Prop where
  kind : r.kind = s.kind
  doms : r.doms = s.doms
  base : r.base?.map Ptr.name = s.base?

/-- `r'` is `r`, except for the statistics of the clusters -/
structure Rel.SameData (r r' : Rel F) : Prop where
  kind : r'.kind = r.kind
  base : r'.base? = r.base?
  doms : r'.doms = r.doms
  data : r'.data = r.data
  pairs : r'.pairs = r.pairs
  links : r'.links = r.links

/-- `r'` is a relation over the same domains, with the same distribution and the same base -/
structure Rel.SameShape (r r' : Rel F) : Prop where
  kind : r'.kind = r.kind
  base : r'.base? = r.base?
  doms : r'.doms = r.doms

/-- The clusters and the index of a relation are exactly what its observations and the seating plans of the domains determine
(C19, C20); the clusters of a noisy relation are those of its emission relation. -/
def Rel.Exact (L : FamilyLaws F) (σ : Doms) : Rel F → Prop
  | .clean c r => CleanRel.ClustersExact (L.suppC c) σ r ∧ CleanRel.IndexExact r
  | .noisy e _ r => CleanRel.ClustersExact (L.suppE e) σ r.emission ∧ CleanRel.IndexExact r.emission

/-- the value can be observed at the tuple: it is in the support of the relation's distribution, or the pair of base value and noisy
value is in the support of the emission -/
def Rel.Supports (L : FamilyLaws F) (b : Option (BaseView V)) (r : Rel F) (items : Items) (v : V) : Prop :=
  match r with
  | .clean c _ => L.suppC c v
  | .noisy e _ _ => ∀ b', b = some b' → ∀ bv, b'.data.find? (items.take b'.arity) = some bv → L.suppE e (bv, v)

/-- The data and the hyperparameters of a cluster determine its score.  (This fails for the emissions whose `unincorporate` does not undo
`incorporate`.) -/
def FamilyLaws.Scored (L : FamilyLaws F) : F.C ⊕ F.E → Prop
  | .inl c => (L.dist c).Scored
  | .inr e => (L.emis e).Scored

/-- so for all relations of the schema -/
def FamilyLaws.Scores (L : FamilyLaws F) (schema : Schema F) : Prop := ∀ n spec, schema.find? n = some spec → L.Scored spec.kind

/-- The side conditions under which the Gibbs scores of a relation are exact (C22): the data and the hyperparameters of a cluster determine
its score, the domains of the relation are distinct, its new clusters all start alike, and an empty cluster scores 0. -/
def Rel.Scorable (L : FamilyLaws F) : Rel F → Prop
  | .clean c r => (L.dist c).Scored ∧ r.doms.Nodup ∧ (∀ t t', ((F.dist c).fresh t).1 = ((F.dist c).fresh t').1) ∧
      ∀ s, (F.dist c).Holds (L.suppC c) 0 s → (F.dist c).score s = 0
  | .noisy e _ r => (L.emis e).Scored ∧ r.doms.Nodup ∧ (∀ t t', ((F.emis e).fresh t).1 = ((F.emis e).fresh t').1) ∧
      ∀ s, (F.emis e).Holds (L.suppE e) 0 s → (F.emis e).score s = 0

namespace IRM

/-- observations made of tuples and values -/
def zipObs (keys : List (String × Items)) (vs : List V) : List (String × Items × V) := List.zipWith (fun k v => (k.1, k.2, v)) keys vs

/-- some relation has an observation that uses entity `i` of domain `d` -/
def Observed (I : IRM F) (d : String) (i : Int) : Prop :=
  ∃ name id rel items, I.rels.find? name = some (id, rel) ∧ rel.data.contains items = true ∧ Uses rel.doms d i items

/-- C26: the entities of a domain are exactly the observed ones -/
def ItemsExact (I : IRM F) : Prop :=
  ∀ d dom, I.doms.find? d = some dom → ∀ i, dom.items.contains i = true ↔ I.Observed d i

/-- `I'` has the same relations as `I`, with the same observations, and the same entities in every domain; only the
clusters may differ. -/
structure SameData (I I' : IRM F) : Prop where
  schema : I'.schema = I.schema
  baseToNoisy : I'.baseToNoisy = I.baseToNoisy
  domToRels : I'.domToRels = I.domToRels
  rels : ∀ name, (I.rels.find? name = none ∧ I'.rels.find? name = none) ∨
    ∃ id r r', I.rels.find? name = some (id, r) ∧ I'.rels.find? name = some (id, r') ∧ r.SameData r'
  doms : ∀ d, (I.doms.find? d = none ∧ I'.doms.find? d = none) ∨
    ∃ dom dom', I.doms.find? d = some dom ∧ I'.doms.find? d = some dom' ∧ dom'.name = dom.name ∧ dom'.items = dom.items

/-- the relations' clusters and indexes are exact, and every entity of a domain is in exactly one cluster -/
structure Exact (L : FamilyLaws F) (I : IRM F) : Prop where
  rels : ∀ name id r, I.rels.find? name = some (id, r) → r.Exact L I.doms
  seats : ∀ d dom, I.doms.find? d = some dom → ∀ i, dom.items.contains i = true ↔ ∃ z, seatOf I.doms d i = some z
  tables : ∀ d dom, I.doms.find? d = some dom → ∀ i z, dom.crp.seating i = some z ↔
    ∃ s, dom.crp.tables.find? z = some s ∧ s.contains i = true

/-- The states a program can reach with a stand-alone IRM, starting from the empty one.  The number is the identity the next
relation object will get.  Conditions: a noisy relation has at least as many domains as its base (otherwise reading the base
tuple is undefined behaviour); values are in the supports; a base relation is not removed while a noisy relation
points to it (that would leave a dangling pointer); latent values are not transitioned (C25 covers what that does to the
statistics).  `rm` says whether relations may be removed at all, and `st` whether entities may be put into clusters without an observation, as `from_txt`
does it. -/
inductive Reach (L : FamilyLaws F) (rm st : Prop) : Nat → IRM F → Prop
  | empty : Reach L rm st 0 {}
  | add {n : Nat} {I I' : IRM F} {name : String} {spec : RelSpec F} (h : Reach L rm st n I)
      (ha : ∀ e doms base o, spec = .noisy e doms base o → ∀ id b, I.rels.find? base = some (id, b) → b.doms.length ≤ doms.length)
      (hc : addRelation n I name spec = .ok I') : Reach L rm st (n + 1) I'
  | remove {n : Nat} {I I' : IRM F} {name : String} (hrm : rm) (h : Reach L rm st n I)
      (hb : ∀ name' id r p, I.rels.find? name' = some (id, r) → r.base? = some p → p.name ≠ name)
      (hc : removeRelation I name = .ok I') : Reach L rm st n I'
  | seat {n : Nat} {I : IRM F} {d : String} {dom dom' : Domain} {i table : Int} {t t' : Tape} (hst : st) (h : Reach L rm st n I)
      (hd : I.doms.find? d = some dom) (hc : dom.incorporate i t table = .ok (dom', t')) : Reach L rm st n { I with doms := I.doms.set d dom' }
  | incorporate {n : Nat} {I I' : IRM F} {name : String} {items : Items} {v : V} {t t' : Tape} (h : Reach L rm st n I)
      (hv : ∀ id r, I.rels.find? name = some (id, r) → r.Supports L (baseOf I.env r) items v)
      (hc : incorporate I.env I name items v t = .ok (I', t')) : Reach L rm st n I'
  | unincorporate {n : Nat} {I I' : IRM F} {name : String} {items : Items} (h : Reach L rm st n I)
      (hc : unincorporate I.env I name items = .ok I') : Reach L rm st n I'
  | item {n : Nat} {I I' : IRM F} {d : String} {i : Int} {t t' : Tape} (h : Reach L rm st n I)
      (hc : transitionItem I d i t = .ok (I', t')) : Reach L rm st n I'
  | hparams {n k : Nat} {I I' : IRM F} {rs : List String} {t t' : Tape} (h : Reach L rm st n I)
      (hc : hparamsSweep k rs I t = .ok (I', t')) : Reach L rm st n I'
  | alpha {n : Nat} {I I' : IRM F} {ds : List String} {t t' : Tape} (h : Reach L rm st n I)
      (hc : alphaSweep ds I t = .ok (I', t')) : Reach L rm st n I'
  | logp {n : Nat} {I I' : IRM F} {obs : List (String × Items × V)} {lp : WithBot ℝ} {t t' : Tape} (h : Reach L rm st n I)
      (hv : ∀ name items v, (name, items, v) ∈ obs → ∀ id r, I.rels.find? name = some (id, r) →
        r.Supports L (baseOf I.env r) items v)
      (hc : logp I obs t = .ok (lp, I', t')) : Reach L rm st n I'

end IRM
end
end Verif
