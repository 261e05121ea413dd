import Verif.Model.Incorporate
import Verif.Spec.HIRM
import Verif.Spec.Incorporate
import Verif.Spec.ClusterFile
/-!
Specification: the tuples that observations are about.
-/
namespace Verif
variable {V : Type}

/-- The tuples that belong to a relation if the observed tuples are `O`: its own observations, and for each tuple of a noisy relation the
first entities of it for the base. -/
inductive Told {F : Family V} {α : Type} (S : Schema F) (O : String → List α → Prop) : String → List α → Prop
  | given {n : String} {k : List α} : O n k → Told S O n k
  | base {n b : String} {k : List α} {spec sp : RelSpec F} : Told S O n k → S.find? n = some spec → spec.base? = some b → S.find? b = some sp →
      Told S O b (k.take sp.doms.length)

/-- an observation of the file -/
def InFile (obs : ObsMap String) (n : String) (names : List String) : Prop := ∃ l, obs.find? n = some l ∧ ∃ v, (names, v) ∈ l

/-- The relation has an observation of the tuple `k` of codes, or a relation that is based on it has. -/
def Stated {F : Family V} (S : Schema F) (obs : ObsMap String) (enc : Encoding) (n : String) (k : Items) : Prop :=
  ∃ spec names, S.find? n = some spec ∧ Told S (InFile obs) n names ∧ UtilIO.Codes enc spec.doms names k

/-- The observations of the relation, or of relations based on it, mention the entity `x` of the domain. -/
def Mentions {F : Family V} (S : Schema F) (obs : ObsMap String) (n d x : String) : Prop :=
  ∃ spec names, S.find? n = some spec ∧ Told S (InFile obs) n names ∧ (d, x) ∈ spec.doms.zip names

/-- The encoding gives a code to each entity that occurs in the observations, different entities of a domain have different codes, and
nothing else has a code. -/
def Numbers {F : Family V} (S : Schema F) (obs : ObsMap String) (enc : Encoding) : Prop :=
  ∀ d, (∀ x c, UtilIO.Encoding.code enc d x = some c ↔ UtilIO.Encoding.entity enc d c = some x) ∧
    ∀ x, (∃ c, UtilIO.Encoding.code enc d x = some c) ↔ UtilIO.Occurs S obs d x

/-- In both models the entity `x` of the domain is in the cluster, or in neither. -/
def SameClusters (σ : Doms) (e : Encoding) (σ' : Doms) (e' : Encoding) : Prop :=
  ∀ d c x, (∃ i, UtilIO.InCluster σ d c i ∧ UtilIO.Encoding.entity e d i = some x) ↔
    ∃ i, UtilIO.InCluster σ' d c i ∧ UtilIO.Encoding.entity e' d i = some x

end Verif
