import Verif.Model.Relation
import Verif.Spec.CRP
/-!
Specification of relations: what the clusters and the index of a relation should contain, as a function of the stored
observations and of the seating plans of the domains.
-/
namespace Verif
open Spec

/-- the cluster of item `i` in the domain called `d` -/
def seatOf (σ : Doms) (d : String) (i : Int) : Option Int := (σ.find? d).bind (fun dom => dom.crp.seating i)

/-- the cluster tuple of an item tuple: the clusters of its items, position by position -/
def tupleSeat (σ : Doms) : List String → Items → Option Items
  | [], [] => some []
  | d :: ds, i :: is => (seatOf σ d i).bind fun z => (tupleSeat σ ds is).map (z :: ·)
  | _, _ => none

/-- the values stored for the tuples that `place` puts at `z` -/
def contents {V : Type} (place : Items → Option Items) (data : FMap Items V) (z : Items) : Multiset V :=
  Multiset.map Prod.snd (Multiset.filter (fun e => place e.1 = some z) (data.entries : Multiset (Items × V)))

/-- the tuple has item `i` at a position of domain `d` -/
def Uses (doms : List String) (d : String) (i : Int) (items : Items) : Prop := (d, i) ∈ doms.zip items

namespace CleanRel
variable {V : Type} {D : DistOps V}

/-- C19: there is a cluster exactly at the cluster tuples of the stored observations, and each cluster's distribution holds
exactly the values of the observations assigned to it. -/
def ClustersExact (supp : V → Prop) (σ : Doms) (r : CleanRel D) : Prop :=
  (∀ z, r.clusters.contains z = true ↔ ∃ items v, r.data.find? items = some v ∧ tupleSeat σ r.doms items = some z) ∧
  ∀ z c, r.clusters.find? z = some c → D.Holds supp (contents (tupleSeat σ r.doms) r.data z) c

/-- C20: the index lists, under every item of every domain, exactly the stored observations that use it, and
`has_observation` is true exactly if there is one. -/
def IndexExact (r : CleanRel D) : Prop :=
  ∀ d ∈ r.doms, ∀ i,
    ∃ b, r.hasObservation d i = .ok b ∧ (b = true ↔ ∃ items, r.data.contains items = true ∧ Uses r.doms d i items) ∧
      (b = true → ∃ s, r.observationsOf d i = .ok s ∧
        ∀ items, items ∈ s.keys ↔ (r.data.contains items = true ∧ Uses r.doms d i items))

/-- The states of a relation and of the domains it uses that a program can reach.  The domains are shared: other
relations may add items (`domainAdd`), remove items that this relation does not use (`domainRemove`), or re-estimate
the concentration (`domainAlpha`) at any time.  Moving an item is what irm.cc:151-161 does: each relation that
observes it is updated, then the domain. -/
inductive Reach (supp : V → Prop) : Doms → CleanRel D → Prop
  | fresh {σ : Doms} {doms : List String} {r : CleanRel D} (hσ : ∀ d dom, σ.find? d = some dom → dom.crp.Reachable ∧
        ∀ i, dom.items.contains i = true ↔ dom.crp.seating i ≠ none) (hd : ∀ d ∈ doms, σ.contains d = true)
      (h : mk' D doms = .ok r) : Reach supp σ r
  | incorporate {σ σ' : Doms} {r r' : CleanRel D} {items : Items} {v : V} {t t' : Tape} (h : Reach supp σ r) (hv : supp v)
      (hc : incorporate σ r items v t = .ok (σ', r', t')) : Reach supp σ' r'
  | unincorporate {σ : Doms} {r r' : CleanRel D} {items : Items} (h : Reach supp σ r)
      (hc : unincorporate σ r items = .ok r') : Reach supp σ r'
  | move {σ : Doms} {dom dom' : Domain} {r r' : CleanRel D} {d : String} {i table : Int} {t t' : Tape} (h : Reach supp σ r)
      (hd : σ.find? d = some dom) (hm : d ∈ r.doms)
      (hc : r.hasObservation d i = .ok true → setClusterAssignmentGibbs σ r d i table t = .ok (r', t'))
      (hn : r.hasObservation d i = .ok false → r' = r)
      (hs : dom.setClusterAssignmentGibbs i table = .ok dom') : Reach supp (σ.set d dom') r'
  | update {σ : Doms} {r r' : CleanRel D} {items : Items} {v : V} (h : Reach supp σ r) (hv : supp v)
      (hc : updateValue σ r items v = .ok r') : Reach supp σ r'
  | hparams {σ : Doms} {r : CleanRel D} (n : Nat) (t : Tape) (h : Reach supp σ r) :
      Reach supp σ (r.transitionClusterHparams n t).1
  | gibbsScores {σ : Doms} {r r' : CleanRel D} {d : String} {i : Int} {tables : List Int} {lps : List ℝ} {t t' : Tape}
      (h : Reach supp σ r) (hc : logpGibbsExact σ r d i tables t = .ok (lps, r', t')) : Reach supp σ r'
  | logp {σ : Doms} {r r' : CleanRel D} {items : Items} {v : V} {lp : WithBot ℝ} {t t' : Tape}
      (h : Reach supp σ r) (hv : supp v) (hc : logp σ r items v t = .ok (lp, r', t')) : Reach supp σ r'
  | domainAdd {σ : Doms} {dom dom' : Domain} {r : CleanRel D} {d : String} {i table : Int} {t t' : Tape} (h : Reach supp σ r)
      (hd : σ.find? d = some dom) (hc : dom.incorporate i t table = .ok (dom', t')) : Reach supp (σ.set d dom') r
  | domainRemove {σ : Doms} {dom dom' : Domain} {r : CleanRel D} {d : String} {i : Int} (h : Reach supp σ r)
      (hd : σ.find? d = some dom) (hu : ∀ items, r.data.contains items = true → ¬ Uses r.doms d i items)
      (hc : dom.unincorporate i = .ok dom') : Reach supp (σ.set d dom') r
  | domainAlpha {σ : Doms} {dom : Domain} {r : CleanRel D} {d : String} (t : Tape) (h : Reach supp σ r)
      (hd : σ.find? d = some dom) : Reach supp (σ.set d { dom with crp := (dom.crp.transitionAlpha t).1 }) r

end CleanRel
end Verif
