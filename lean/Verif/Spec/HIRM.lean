import Verif.Model.HIRM
import Verif.Spec.IRM
/-! Specification of an HIRM: which histories a program can make, and what it means that the parts of an HIRM agree. -/
namespace Verif
open Spec
noncomputable section
variable {V : Type} {F : Family V}

/-- the relation can be built: it is clean, or its base is in the schema and can be built -/
inductive Grounded (schema : Schema F) : String → Prop
  | clean {n : String} {spec : RelSpec F} (h : schema.find? n = some spec) (hb : spec.base? = none) : Grounded schema n
  | noisy {n b : String} {spec : RelSpec F} (h : schema.find? n = some spec) (hb : spec.base? = some b) (hg : Grounded schema b) :
      Grounded schema n

namespace HIRM

/-- the table of the relation CRP at which a relation sits -/
def tableOf (H : HIRM F) (n : String) : Option Int := (H.relToCode.find? n).bind H.crp.assignments.find?

/-- the relation object of a name: its table, the identity of the object, and the object -/
def relOf (H : HIRM F) (n : String) : Option (Int × Nat × Rel F) := do
  let tb ← H.tableOf n
  let I ← H.irms.find? tb
  let x ← I.rels.find? n
  some (tb, x.1, x.2)

/-- the observations of a relation -/
def dataOf (H : HIRM F) (n : String) : Option (FMap Items V) := (H.relOf n).map (·.2.2.data)

/-- C28: schema, code tables, relation CRP and IRMs tell the same story. -/
structure Consistent (H : HIRM F) : Prop where
  /-- the two code tables are inverse to each other -/
  codes : ∀ n c, H.relToCode.find? n = some c ↔ H.codeToRel.find? c = some n
  /-- every relation of the schema has a code, and nothing else has -/
  schema : ∀ n, H.schema.contains n = true ↔ ∃ c, H.relToCode.find? n = some c
  /-- the customers of the CRP are the codes -/
  customers : ∀ c, (∃ tb, H.crp.assignments.find? c = some tb) ↔ ∃ n, H.relToCode.find? n = some c
  /-- the tables of the CRP are the tables that have an IRM -/
  tables : ∀ tb, H.crp.tables.contains tb = H.irms.contains tb
  /-- a relation of the schema is in exactly one IRM, the one at its table -/
  one : ∀ n, H.schema.contains n = true → ∃ tb I, H.tableOf n = some tb ∧ H.irms.find? tb = some I ∧ I.rels.contains n = true ∧
    ∀ tb' I', H.irms.find? tb' = some I' → I'.rels.contains n = true → tb' = tb
  /-- the relations of an IRM are relations of the schema, with the same specification -/
  known : ∀ tb I n, H.irms.find? tb = some I → I.rels.contains n = true → ∃ spec, H.schema.find? n = some spec ∧ I.schema.find? n = some spec
  /-- no IRM is empty -/
  nonempty : ∀ tb I, H.irms.find? tb = some I → ∃ n, I.rels.contains n = true

/-- The states after any history of calls that returned, from the empty HIRM: no condition on the arguments. -/
inductive History : HIRM F → Prop
  | empty : History {}
  | add {H H' : HIRM F} {name : String} {spec : RelSpec F} {t t' : Tape} (h : History H)
      (hc : H.addRelation name spec t = .ok (H', t')) : History H'
  | remove {H H' : HIRM F} {name : String} (h : History H) (hc : H.removeRelation name = .ok H') : History H'
  | incorporate {H H' : HIRM F} {name : String} {items : Items} {v : V} {t t' : Tape} (h : History H)
      (hc : H.incorporate name items v t = .ok (H', t')) : History H'
  | unincorporate {H H' : HIRM F} {name : String} {items : Items} (h : History H)
      (hc : H.unincorporate name items = .ok H') : History H'
  | move {H H' : HIRM F} {name : String} {t t' : Tape} (h : History H)
      (hc : H.transitionRelation name t = .ok (H', t')) : History H'
  | set {H H' : HIRM F} {name : String} {table : Int} {t t' : Tape} (h : History H)
      (hc : H.setClusterAssignmentGibbs name table t = .ok (H', t')) : History H'
  | latent {H H' : HIRM F} {name : String} {t t' : Tape} (h : History H)
      (hc : H.transitionLatentRelation name t = .ok (H', t')) : History H'
  | item {H : HIRM F} {tb : Int} {I I' : IRM F} {d : String} {i : Int} {t t' : Tape} (h : History H) (hI : H.irms.find? tb = some I)
      (hc : I.transitionItem d i t = .ok (I', t')) : History { H with irms := H.irms.set tb I' }
  | step {H H' : HIRM F} {tbs : List Int} {t t' : Tape} (h : History H) (hc : stepIrms tbs H t = .ok (H', t')) : History H'
  | logp {H H' : HIRM F} {obs : List (String × Items × V)} {lp : WithBot ℝ} {t t' : Tape} (h : History H)
      (hc : H.logp obs t = .ok (lp, H', t')) : History H'
  | sampleOne {H H' : HIRM F} {k : Nat} {name : String} {items : Items} {v : V} {t t' : Tape} (h : History H)
      (hc : sampleRelation k H name items t = .ok (v, H', t')) : History H'
  | sample {H : HIRM F} {n k : Nat} {s : Sampling F} {t t' : Tape} (h : History H)
      (hc : H.sampleAndIncorporate n k t = .ok (some (s, t'))) : History s.H
  | seat {H : HIRM F} {tb : Int} {I : IRM F} {d : String} {dom dom' : Domain} {i table : Int} {t t' : Tape} (h : History H) (hI : H.irms.find? tb = some I)
      (hd : I.doms.find? d = some dom) (hc : dom.incorporate i t table = .ok (dom', t')) :
      History { H with irms := H.irms.set tb { I with doms := I.doms.set d dom' } }
  | cleanup {H H' : HIRM F} (h : History H) (hc : H.cleanupRelationClusters = .ok H') : History H'

/-- no noisy relation has an observation whose base tuple is `items` of relation `r` -/
def Unused (H : HIRM F) (r : String) (items : Items) : Prop :=
  ∀ n tb id rel p btb bid b, H.relOf n = some (tb, id, rel) → rel.base? = some p → p.name = r → H.relOf r = some (btb, bid, b) →
    ∀ k, rel.data.contains k = true → k.take b.doms.length ≠ items

/-- The states a program can reach with an HIRM if it keeps to these conditions: a noisy relation has at least as many domains as
its base (otherwise reading the base tuple is undefined behaviour); values are in the supports; only clean relations that are
no relation's base are removed (for the others see `C28_removed_noisy_relation`); an observation is not removed while a
noisy observation refers to it; latent values are not transitioned (C25 covers what that does to the statistics). -/
inductive Reach (L : FamilyLaws F) : HIRM F → Prop
  | empty : Reach L {}
  | add {H H' : HIRM F} {name : String} {spec : RelSpec F} {t t' : Tape} (h : Reach L H)
      (ha : ∀ b sp, spec.base? = some b → H.schema.find? b = some sp → sp.doms.length ≤ spec.doms.length)
      (hc : H.addRelation name spec t = .ok (H', t')) : Reach L H'
  | remove {H H' : HIRM F} {name : String} {spec : RelSpec F} (h : Reach L H) (hs : H.schema.find? name = some spec) (hb : spec.base? = none)
      (hn : ∀ n sp, H.schema.find? n = some sp → sp.base? ≠ some name)
      (hc : H.removeRelation name = .ok H') : Reach L H'
  | incorporate {H H' : HIRM F} {name : String} {items : Items} {v : V} {t t' : Tape} (h : Reach L H)
      (hv : ∀ tb id r, H.relOf name = some (tb, id, r) → r.Supports L (IRM.baseOf H.env r) items v)
      (hc : H.incorporate name items v t = .ok (H', t')) : Reach L H'
  | unincorporate {H H' : HIRM F} {name : String} {items : Items} (h : Reach L H) (hu : H.Unused name items)
      (hc : H.unincorporate name items = .ok H') : Reach L H'
  | move {H H' : HIRM F} {name : String} {t t' : Tape} (h : Reach L H)
      (hc : H.transitionRelation name t = .ok (H', t')) : Reach L H'
  | set {H H' : HIRM F} {name : String} {table : Int} {t t' : Tape} (h : Reach L H)
      (hc : H.setClusterAssignmentGibbs name table t = .ok (H', t')) : Reach L H'
  | item {H : HIRM F} {tb : Int} {I I' : IRM F} {d : String} {i : Int} {t t' : Tape} (h : Reach L H) (hI : H.irms.find? tb = some I)
      (hc : I.transitionItem d i t = .ok (I', t')) : Reach L { H with irms := H.irms.set tb I' }
  | seat {H : HIRM F} {tb : Int} {I : IRM F} {d : String} {dom dom' : Domain} {i table : Int} {t t' : Tape} (h : Reach L H) (hI : H.irms.find? tb = some I)
      (hd : I.doms.find? d = some dom) (hc : dom.incorporate i t table = .ok (dom', t')) :
      Reach L { H with irms := H.irms.set tb { I with doms := I.doms.set d dom' } }
  | step {H H' : HIRM F} {tbs : List Int} {t t' : Tape} (h : Reach L H) (hc : stepIrms tbs H t = .ok (H', t')) : Reach L H'
  | logp {H H' : HIRM F} {obs : List (String × Items × V)} {lp : WithBot ℝ} {t t' : Tape} (h : Reach L H)
      (hv : ∀ name items v, (name, items, v) ∈ obs → ∀ tb id r, H.relOf name = some (tb, id, r) →
        r.Supports L (IRM.baseOf H.env r) items v)
      (hc : H.logp obs t = .ok (lp, H', t')) : Reach L H'

/-- C61: everything that the HIRM keeps besides the observations is what the observations and the cluster assignments say it is. -/
structure Sound (L : FamilyLaws F) (H : HIRM F) : Prop where
  consistent : Consistent H
  /-- the clusters and indexes of every relation are exact, and every entity is in exactly one cluster -/
  exact : ∀ tb I, H.irms.find? tb = some I → I.Exact L
  /-- the base pointer of a noisy relation shows the current object of its base relation, wherever that object is -/
  attached : ∀ n spec b, H.schema.find? n = some spec → spec.base? = some b → ∃ tb id r btb bid br,
    H.relOf n = some (tb, id, r) ∧ H.relOf b = some (btb, bid, br) ∧ IRM.baseOf H.env r = some br.view
  /-- each noisy observation is scored against the value that the base relation has now -/
  paired : ∀ n tb id r b btb bid br, H.relOf n = some (tb, id, r) → r.base?.map Ptr.name = some b → H.relOf b = some (btb, bid, br) →
    ∀ k v, r.data.find? k = some v → ∃ bv, br.data.find? (k.take br.doms.length) = some bv ∧ r.pairs.find? k = some (bv, v)

end HIRM
end
end Verif
