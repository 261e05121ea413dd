import Verif.Model.ClusterFile
import Verif.Spec.UtilIO
import Verif.Spec.HIRM
/-!
Specification of cluster files.
-/
namespace Verif
variable {V : Type}
namespace UtilIO

/-- A name that is one word: not empty, and without white space. -/
def Word (s : String) : Prop := s ≠ "" ∧ ∀ c ∈ s.toList, Text.isSpace c = false

/-- The names listed for a cluster. -/
def listed (cl : Clusters) (d : String) (table : Int) : List String := (((cl.find? d).getD ∅).find? table).getD []

/-- The item is in this cluster of the domain. -/
def InCluster (σ : Doms) (d : String) (table i : Int) : Prop := ∃ dom, σ.find? d = some dom ∧ dom.crp.assignments.find? i = some table

/-- The clusters are those of the domains: each cluster lists the names of its items, once, and there is nothing else. -/
structure Saved (σ : Doms) (e : Encoding) (cl : Clusters) : Prop where
  same : ∀ d table x, x ∈ listed cl d table ↔ ∃ i, InCluster σ d table i ∧ Encoding.entity e d i = some x
  once : ∀ d table, (listed cl d table).Nodup
  cluster : ∀ d m table l, cl.find? d = some m → m.find? table = some l → l ≠ []
  domain : ∀ d m, cl.find? d = some m → ∃ table l, m.find? table = some l

/-- Every item in a cluster has a name. -/
def Nameable (σ : Doms) (e : Encoding) : Prop := ∀ d table i, InCluster σ d table i → ∃ x, Encoding.entity e d i = some x

/-- The names of the domains and of the items in clusters are words. -/
def Wordy (σ : Doms) (e : Encoding) : Prop :=
  ∀ d table i, InCluster σ d table i → Word d ∧ ∀ x, Encoding.entity e d i = some x → Word x

/-- A domain name that the reader of HIRM files does not take for something else: not a number, and not starting with `irm=`. -/
def DomainWord (d : String) : Prop := (∃ c ∈ d.toList, Text.isDigit c = false) ∧ ¬ "irm=".toList <+: d.toList

/-- The clusters of a CRP are where its assignments say, and none is empty. -/
def TidyCRP (c : CRP) : Prop :=
  (∀ i tb, c.assignments.find? i = some tb ↔ ∃ s, c.tables.find? tb = some s ∧ i ∈ s.keys) ∧ ∀ tb s, c.tables.find? tb = some s → ∃ i, i ∈ s.keys

/-- Domains know their names, and their CRPs are consistent. -/
def Tidy (σ : Doms) : Prop := ∀ d dom, σ.find? d = some dom → dom.name = d ∧ TidyCRP dom.crp

/-- What was loaded are the clusters of the HIRM: its relation clusters, and for each the clusters of the IRM. -/
structure SavedHirm {F : Family V} (H : HIRM F) (e : Encoding) (rels : FMap Int (List String)) (irms : FMap Int Clusters) : Prop where
  relations : ∀ tb n, n ∈ (rels.find? tb).getD [] ↔ H.tableOf n = some tb
  once : ∀ tb, ((rels.find? tb).getD []).Nodup
  nonempty : ∀ tb l, rels.find? tb = some l → l ≠ []
  tables : ∀ tb, irms.contains tb = true ↔ ∃ n, H.tableOf n = some tb
  clusters : ∀ tb I cl, H.irms.find? tb = some I → irms.find? tb = some cl → Saved I.doms e cl

end UtilIO
end Verif
