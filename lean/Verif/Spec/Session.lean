import Verif.Spec.Priors
import Verif.Spec.Incorporate
/-! Specification of what a user does with an HIRM of the repository's distributions and emissions. -/
namespace Verif
open UtilIO
noncomputable section
variable {w : World}

/-- The values of the observations, once read, are values of the distributions and emissions of their relations. -/
def InRange (schema : Schema (priors w)) (obs : ObsMap String) : Prop :=
  ∀ r spec l x v, schema.find? r = some spec → obs.find? r = some l → x ∈ l → parseValue w spec.kind x.2 = .ok v → spec.Takes v

/-- The base relations have observations. -/
def BasesObserved (schema : Schema (priors w)) : Prop :=
  ∀ n spec b sp, schema.find? n = some spec → spec.base? = some b → schema.find? b = some sp → sp.observed = true

/-- New clusters of the distribution all start alike (those of `skellam` start with random parameters). -/
def Prior.Steady : Prior → Prop
  | .skellam => False
  | .stringSkellam => False
  | _ => True

/-- The values belong to distinct tuples of clean relations, and are values of their distributions. -/
structure Queries (schema : Schema (priors w)) (obs : List (String × Items × Value)) : Prop where
  each : ∀ o ∈ obs, ∃ c ds b, schema.find? o.1 = some (.clean c ds b) ∧ Prior.Steady c ∧ o.2.1.length = ds.length ∧ Prior.Supports w c o.2.2
  distinct : (obs.map (fun o => (o.1, o.2.1))).Nodup

/-- What a user does: construct an HIRM from a schema, or from a schema, observations and saved clusters, load files of observations, add and remove single observations, move relations, run
inference and sample new observations, in any order, as long as the calls return. -/
inductive Session (w : World) (schema : Schema (priors w)) : HIRM (priors w) → Prop
  | new {H : HIRM (priors w)} {t t' : Tape} (hc : HIRM.mk' schema t = .ok (H, t')) : Session w schema H
  | restore {H : HIRM (priors w)} {obs : ObsMap String} {relations : FMap Int (List String)} {irms : FMap Int Clusters} {t t' : Tape} (hv : InRange schema obs)
      (hc : hirmFromTxt (parseValue w) schema obs relations irms t = .ok (H, t')) : Session w schema H
  | load {H H' : HIRM (priors w)} {enc : Encoding} {obs : ObsMap String} {t t' : Tape} (h : Session w schema H) (hv : InRange schema obs)
      (hc : incorporateObservations (HIRM.host (priors w)) (parseValue w) H enc obs t = .ok (H', t')) : Session w schema H'
  | observe {H H' : HIRM (priors w)} {r : String} {spec : RelSpec (priors w)} {k : Items} {v : Value} {t t' : Tape} (h : Session w schema H)
      (hs : schema.find? r = some spec) (hv : spec.Takes v) (hc : H.incorporate r k v t = .ok (H', t')) : Session w schema H'
  | forget {H H' : HIRM (priors w)} {r : String} {k : Items} (h : Session w schema H) (hu : H.Unused r k)
      (hc : H.unincorporate r k = .ok H') : Session w schema H'
  | move {H H' : HIRM (priors w)} {r : String} {t t' : Tape} (h : Session w schema H) (hc : H.transitionRelation r t = .ok (H', t')) :
      Session w schema H'
  | set {H H' : HIRM (priors w)} {r : String} {table : Int} {t t' : Tape} (h : Session w schema H)
      (hc : H.setClusterAssignmentGibbs r table t = .ok (H', t')) : Session w schema H'
  | infer {H H' : HIRM (priors w)} {k : Nat} {t t' : Tape} (h : Session w schema H) (ho : BasesObserved schema)
      (hc : H.inference k t = .ok (H', t')) : Session w schema H'
  | sample {H : HIRM (priors w)} {s : HIRM.Sampling (priors w)} {n fuel : Nat} {t t' : Tape} (h : Session w schema H) (ha : Sampleable schema)
      (hc : H.sampleAndIncorporate n fuel t = .ok (some (s, t'))) : Session w schema s.H

end
end Verif
