import Verif.Spec.GenDBLogp
import Verif.Spec.GenDBUpdate
import Verif.Spec.Sampling
/-! Specification of the weights of the candidates of a reference. -/
namespace Verif
noncomputable section
variable {V : Type} {F : Family V}

/-- The emission of each noisy relation accepts every value of the base relation together with every value of the relation. -/
def Freely (L : FamilyLaws F) (schema : Schema F) : Prop := ∀ n e ds b o sp, schema.find? n = some (.noisy e ds b o) → schema.find? b = some sp →
  ∀ x y, sp.Value L x → (RelSpec.noisy e ds b o).Value L y → L.suppE e (x, y)

/-- Every noisy value has a base value: the relation to which the base pointer of a noisy relation points has a value for the base tuple. -/
def HIRM.Whole (H : HIRM F) : Prop := ∀ n tb id r p w k v, H.relOf n = some (tb, id, r) → r.base? = some p → H.env p = some w → r.data.find? k = some v →
  ∃ bv, w.data.find? (k.take w.arity) = some bv

namespace GenDB
open DB

/-- The databases between the candidates of a reference: from a database `D` of rows everything that depends on the reference was taken out and stored; then, if no reference
to the entity is left, the entity too; and then candidates were tried, one after the other, and each time before that the noisy values had base values.  A candidate that is no
entity yet has no reference in its entity CRP. -/
inductive Between (L : FamilyLaws F) (D₀ : DB F) (a : MoveArgs V) : DB F → Prop
  | ref {rows D D' out out' t t' lp} : Worked D₀ rows D → HIRM.Reach L D.H → D.H.SchemaTells L → Freely L D.H.schema →
      D.unincReference a.inds a.c a.f a.i ∅ out t = .ok (lp, D', a.stored, out', t') → Between L D₀ a D'
  | entity {rows D D' D'' out' t t' lp e v crp st st' out'' ent ent' lp'} : Worked D₀ rows D → HIRM.Reach L D.H → D.H.SchemaTells L → Freely L D.H.schema →
      D.unincReference a.inds a.c a.f a.i ∅ ∅ t = .ok (lp, D', a.stored, out', t') → getRef e a.c a.f a.i = .ok v → refTarget D'.schema a.c a.f = .ok a.d →
      e.crps.find? a.d = some crp → crp.tables.find? v = none →
      ({ D' with ents := e } : DB F).unincSingleton a.c a.f a.i a.d st out' ent = .ok (lp', D'', st', out'', ent') → Between L D₀ a D''
  | tried {D table w e m m' u u'} : Between L D₀ a D → D.H.Whole → table ≠ a.single → tryTable a table w { D with ents := e } m u = .ok (m', u') → Between L D₀ a m'.D
  | new {D D₁ w e m m' u u₁ u' v crp} : Between L D₀ a D → D.H.Whole → Samples L → Compatible L D.H.schema → ({ D with ents := e } : DB F).seatNew a.d a.single u = .ok (D₁, u₁) →
      getRef D₁.ents a.c a.f a.i = .ok v → refTarget D.schema a.c a.f = .ok a.d → D₁.ents.crps.find? a.d = some crp → crp.tables.find? v = none → m.outs.find? a.single = none →
      tryTable a a.single w { D with ents := e } m u = .ok (m', u') → Between L D₀ a m'.D

end GenDB

end
end Verif
