import Verif.Model.NoisyRelation
import Verif.Spec.Relation
/-! Specification of noisy relations: how their observations are linked to the base relation. -/
namespace Verif
open Spec

namespace NoisyRel
variable {V : Type} {E : DistOps (V × V)}

/-- C23: every observation has a base value, namely the base relation's current value of the prefix of its tuple; the
emission relation stores the pair of base value and noisy value, and nothing else; and the observations are filed under
exactly their own prefix. -/
def Linked (b : BaseView V) (r : NoisyRel E) : Prop :=
  (∀ items v, r.getValue items = .ok v →
    ∃ bv, b.data.find? (items.take b.arity) = some bv ∧ baseValue b items = .ok bv ∧
      r.emission.getValue items = .ok (bv, v)) ∧
  (∀ items, r.emission.data.contains items = r.data.contains items) ∧
  (∀ bi, r.baseToNoisy.contains bi = true ↔ ∃ items, r.data.contains items = true ∧ items.take b.arity = bi) ∧
  ∀ bi s, r.baseToNoisy.find? bi = some s → ∀ items, items ∈ s.keys ↔ r.data.contains items = true ∧ items.take b.arity = bi

/-- The states of a noisy relation, of its domains and of the data of its base relation that a program can reach, if it
changes and removes only those values of the base relation that have no noisy observation (`baseChange`, `baseRemove`); new
base values may be added at any time.  As for clean relations, the domains are shared with other relations. -/
inductive Reach (supp : V × V → Prop) : Doms → BaseView V → NoisyRel E → Prop
  | fresh {σ : Doms} {b : BaseView V} {doms : List String} {r : NoisyRel E}
      (hσ : ∀ d dom, σ.find? d = some dom → dom.crp.Reachable ∧
        ∀ i, dom.items.contains i = true ↔ dom.crp.seating i ≠ none) (hd : ∀ d ∈ doms, σ.contains d = true)
      (ha : b.arity ≤ doms.length) (h : mk' E doms = .ok r) : Reach supp σ b r
  | incorporate {σ σ' : Doms} {b : BaseView V} {r r' : NoisyRel E} {items : Items} {v : V} {t t' : Tape}
      (h : Reach supp σ b r) (hv : ∀ bv, b.data.find? (items.take b.arity) = some bv → supp (bv, v))
      (hc : incorporate σ b r items v t = .ok (σ', r', t')) : Reach supp σ' b r'
  | unincorporate {σ : Doms} {b : BaseView V} {r r' : NoisyRel E} {items : Items} (h : Reach supp σ b r)
      (hc : unincorporate σ b r items = .ok r') : Reach supp σ b r'
  | move {σ : Doms} {dom dom' : Domain} {b : BaseView V} {r r' : NoisyRel E} {d : String} {i table : Int} {t t' : Tape}
      (h : Reach supp σ b r) (hd : σ.find? d = some dom) (hm : d ∈ r.doms)
      (hc : r.hasObservation d i = .ok true → setClusterAssignmentGibbs σ r d i table t = .ok (r', t'))
      (hn : r.hasObservation d i = .ok false → r' = r)
      (hs : dom.setClusterAssignmentGibbs i table = .ok dom') : Reach supp (σ.set d dom') b r'
  | hparams {σ : Doms} {b : BaseView V} {r : NoisyRel E} (n : Nat) (t : Tape) (h : Reach supp σ b r) :
      Reach supp σ b (r.transitionClusterHparams n t).1
  | gibbsScores {σ : Doms} {b : BaseView V} {r r' : NoisyRel E} {d : String} {i : Int} {tables : List Int} {lps : List ℝ}
      {t t' : Tape} (h : Reach supp σ b r) (hc : logpGibbsExact σ r d i tables t = .ok (lps, r', t')) : Reach supp σ b r'
  | logp {σ : Doms} {b : BaseView V} {r r' : NoisyRel E} {items : Items} {v : V} {lp : WithBot ℝ} {t t' : Tape}
      (h : Reach supp σ b r) (hv : ∀ bv, b.data.find? (items.take b.arity) = some bv → supp (bv, v))
      (hc : logp σ b r items v t = .ok (lp, r', t')) : Reach supp σ b r'
  | domainAdd {σ : Doms} {dom dom' : Domain} {b : BaseView V} {r : NoisyRel E} {d : String} {i table : Int} {t t' : Tape}
      (h : Reach supp σ b r) (hd : σ.find? d = some dom) (hc : dom.incorporate i t table = .ok (dom', t')) :
      Reach supp (σ.set d dom') b r
  | domainRemove {σ : Doms} {dom dom' : Domain} {b : BaseView V} {r : NoisyRel E} {d : String} {i : Int} (h : Reach supp σ b r)
      (hd : σ.find? d = some dom) (hu : ∀ items, r.data.contains items = true → ¬ Uses r.doms d i items)
      (hc : dom.unincorporate i = .ok dom') : Reach supp (σ.set d dom') b r
  | domainAlpha {σ : Doms} {dom : Domain} {b : BaseView V} {r : NoisyRel E} {d : String} (t : Tape) (h : Reach supp σ b r)
      (hd : σ.find? d = some dom) : Reach supp (σ.set d { dom with crp := (dom.crp.transitionAlpha t).1 }) b r
  | baseAdd {σ : Doms} {b : BaseView V} {r : NoisyRel E} {k : Items} (v : V) (h : Reach supp σ b r)
      (hk : b.data.find? k = none) : Reach supp σ { b with data := b.data.set k v } r
  | baseChange {σ : Doms} {b : BaseView V} {r : NoisyRel E} {k : Items} (v : V) (h : Reach supp σ b r)
      (hk : ∀ items, r.data.contains items = true → items.take b.arity ≠ k) :
      Reach supp σ { b with data := b.data.set k v } r
  | baseRemove {σ : Doms} {b : BaseView V} {r : NoisyRel E} {k : Items} (h : Reach supp σ b r)
      (hk : ∀ items, r.data.contains items = true → items.take b.arity ≠ k) :
      Reach supp σ { b with data := b.data.erase k } r

end NoisyRel
end Verif
