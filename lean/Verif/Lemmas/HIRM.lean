import Verif.Spec.HIRM
import Verif.Lemmas.IRMOps
import Verif.Lemmas.CRPGibbs
/-! Helper lemmas: the names an HIRM knows after any history of calls that returned. -/
namespace Verif
open Spec
noncomputable section
variable {V : Type} {F : Family V}

namespace IRM

/-- the same relation names with the same specifications -/
structure Keys (I I' : IRM F) : Prop where
  schema : I'.schema = I.schema
  rels : ∀ n, I'.rels.contains n = I.rels.contains n

theorem Keys.refl (I : IRM F) : Keys I I := ⟨rfl, fun _ => rfl⟩

theorem Keys.trans {I I1 I2 : IRM F} (h : Keys I I1) (h' : Keys I1 I2) : Keys I I2 :=
  ⟨h'.schema.trans h.schema, fun n => (h'.rels n).trans (h.rels n)⟩

theorem Keys.setRel {I : IRM F} {name : String} {x y : Nat × Rel F} (hf : I.rels.find? name = some x) (σ : Doms) :
    Keys I { I with doms := σ, rels := I.rels.set name y } := by
  refine ⟨rfl, fun n => ?_⟩
  simp only [FMap.contains, FMap.find?_set]
  split
  · rename_i h; subst h; simp [hf]
  · rfl

theorem Keys.setRel' {I : IRM F} {name : String} {x y : Nat × Rel F} (hf : I.rels.find? name = some x) :
    Keys I { I with rels := I.rels.set name y } := Keys.setRel hf I.doms

theorem Keys.setDoms (I : IRM F) (σ : Doms) : Keys I { I with doms := σ } := ⟨rfl, fun _ => rfl⟩

/-- the same names, and the same links from bases to noisy relations -/
structure KeysL (I I' : IRM F) : Prop extends Keys I I' where
  links : I'.baseToNoisy = I.baseToNoisy

theorem KeysL.refl (I : IRM F) : KeysL I I := ⟨.refl I, rfl⟩

theorem KeysL.trans {I I1 I2 : IRM F} (h : KeysL I I1) (h' : KeysL I1 I2) : KeysL I I2 :=
  ⟨h.toKeys.trans h'.toKeys, h'.links.trans h.links⟩

theorem KeysL.setRel {I : IRM F} {name : String} {x y : Nat × Rel F} (hf : I.rels.find? name = some x) (σ : Doms) :
    KeysL I { I with doms := σ, rels := I.rels.set name y } := ⟨.setRel hf σ, rfl⟩

theorem KeysL.setRel' {I : IRM F} {name : String} {x y : Nat × Rel F} (hf : I.rels.find? name = some x) :
    KeysL I { I with rels := I.rels.set name y } := KeysL.setRel hf I.doms

theorem KeysL.setDoms (I : IRM F) (σ : Doms) : KeysL I { I with doms := σ } := ⟨.setDoms I σ, rfl⟩

theorem incorporate_keys {env : Env V} {I I' : IRM F} {r : String} {items : Items} {v : V} {t t' : Tape}
    (hc : incorporate env I r items v t = .ok (I', t')) : KeysL I I' := by
  obtain ⟨⟨id, rel⟩, h1, h2⟩ := bind_ok.mp hc
  obtain ⟨_, _, h3⟩ := bind_ok.mp h2
  cases h3
  exact .setRel (FMap.atKey_ok.mp h1) _

theorem unincorporate_keys {env : Env V} {I I' : IRM F} {r : String} {items : Items}
    (hc : unincorporate env I r items = .ok I') : KeysL I I' := by
  obtain ⟨⟨id, rel⟩, h1, h2⟩ := bind_ok.mp hc
  obtain ⟨_, _, h3⟩ := bind_ok.mp h2
  obtain ⟨_, _, h4⟩ := bind_ok.mp h3
  obtain ⟨_, _, h5⟩ := bind_ok.mp h4
  obtain ⟨_, _, h6⟩ := bind_ok.mp h5
  obtain ⟨_, _, h7⟩ := bind_ok.mp h6
  cases h7
  exact .setRel (FMap.atKey_ok.mp h1) _

theorem scoreItem_keys {d : String} {item : Int} {tables : List Int} : ∀ (l : List String) (I : IRM F) (lps : List ℝ) (t : Tape)
    (x : List ℝ × IRM F × Tape), scoreItem d item tables l I lps t = .ok x → KeysL I x.2.1 := by
  intro l
  induction l with
  | nil => intro I lps t x hc; cases hc; exact .refl _
  | cons r l ih =>
    intro I lps t x hc
    obtain ⟨⟨id, rel⟩, h1, h2⟩ := bind_ok.mp hc
    obtain ⟨b, _, h3⟩ := bind_ok.mp h2
    split at h3
    · obtain ⟨_, _, h4⟩ := bind_ok.mp h3
      obtain ⟨_, _, h5⟩ := bind_ok.mp h4
      obtain ⟨_, _, h6⟩ := bind_ok.mp h5
      exact KeysL.trans (.setRel' (FMap.atKey_ok.mp h1)) (ih _ _ _ _ h6)
    · exact ih _ _ _ _ h3

theorem moveRels_keys {d : String} {item table : Int} : ∀ (l : List String) (I : IRM F) (t : Tape)
    (x : IRM F × Tape), moveRels d item table l I t = .ok x → KeysL I x.1 := by
  intro l
  induction l with
  | nil => intro I t x hc; cases hc; exact .refl _
  | cons r l ih =>
    intro I t x hc
    obtain ⟨⟨id, rel⟩, h1, h2⟩ := bind_ok.mp hc
    obtain ⟨b, _, h3⟩ := bind_ok.mp h2
    split at h3
    · obtain ⟨_, _, h4⟩ := bind_ok.mp h3
      exact KeysL.trans (.setRel' (FMap.atKey_ok.mp h1)) (ih _ _ _ h4)
    · exact ih _ _ _ h3

theorem transitionItem_keys {I I' : IRM F} {d : String} {item : Int} {t t' : Tape}
    (hc : transitionItem I d item t = .ok (I', t')) : KeysL I I' := by
  obtain ⟨⟨tables, lps, order, I1, t1⟩, h1, h2⟩ := bind_ok.mp hc
  have k1 : KeysL I I1 := by
    obtain ⟨_, _, h3⟩ := bind_ok.mp h1
    obtain ⟨_, _, h4⟩ := bind_ok.mp h3
    obtain ⟨_, _, h5⟩ := bind_ok.mp h4
    obtain ⟨_, h6, h7⟩ := bind_ok.mp h5
    cases h7
    exact scoreItem_keys _ _ _ _ _ h6
  obtain ⟨_, _, h3⟩ := bind_ok.mp h2
  obtain ⟨z, _, h4⟩ := bind_ok.mp h3
  obtain ⟨dom, _, h5⟩ := bind_ok.mp h4
  obtain ⟨cur, _, h6⟩ := bind_ok.mp h5
  split at h6
  · obtain ⟨⟨I2, t2⟩, h7, h8⟩ := bind_ok.mp h6
    obtain ⟨_, _, h9⟩ := bind_ok.mp h8
    cases h9
    exact k1.trans ((moveRels_keys _ _ _ _ h7).trans (.setDoms _ _))
  · cases h6; exact k1

theorem transitionItems_keys {d : String} : ∀ (l : List Int) (I : IRM F) (t : Tape) (x : IRM F × Tape),
    transitionItems d l I t = .ok x → KeysL I x.1 := by
  intro l
  induction l with
  | nil => intro I t x hc; cases hc; exact .refl _
  | cons r l ih =>
    intro I t x hc
    obtain ⟨⟨I1, t1⟩, h1, h2⟩ := bind_ok.mp hc
    exact (transitionItem_keys h1).trans (ih _ _ _ h2)

theorem transitionDomains_keys : ∀ (l : List String) (I : IRM F) (t : Tape) (x : IRM F × Tape),
    transitionDomains l I t = .ok x → KeysL I x.1 := by
  intro l
  induction l with
  | nil => intro I t x hc; cases hc; exact .refl _
  | cons r l ih =>
    intro I t x hc
    obtain ⟨dom, _, h1⟩ := bind_ok.mp hc
    obtain ⟨⟨I1, t1⟩, h2, h3⟩ := bind_ok.mp h1
    exact (transitionItems_keys _ _ _ _ h2).trans (ih _ _ _ h3)

theorem hparamsSweep_keys {n : Nat} : ∀ (l : List String) (I : IRM F) (t : Tape) (x : IRM F × Tape),
    hparamsSweep n l I t = .ok x → KeysL I x.1 := by
  intro l
  induction l with
  | nil => intro I t x hc; cases hc; exact .refl _
  | cons r l ih =>
    intro I t x hc
    obtain ⟨⟨id, rel⟩, h1, h2⟩ := bind_ok.mp hc
    exact KeysL.trans (.setRel' (FMap.atKey_ok.mp h1)) (ih _ _ _ h2)

theorem alphaSweep_keys : ∀ (l : List String) (I : IRM F) (t : Tape) (x : IRM F × Tape),
    alphaSweep l I t = .ok x → KeysL I x.1 := by
  intro l
  induction l with
  | nil => intro I t x hc; cases hc; exact .refl _
  | cons r l ih =>
    intro I t x hc
    obtain ⟨dom, h1, h2⟩ := bind_ok.mp hc
    exact KeysL.trans (.setDoms _ _) (ih _ _ _ h2)

theorem singleStep_keys {I I' : IRM F} {n : Nat} {t t' : Tape} (hc : singleStep I n false t = .ok (I', t')) : KeysL I I' := by
  obtain ⟨⟨I0, t0⟩, h0, h1⟩ := bind_ok.mp hc
  cases h0
  obtain ⟨⟨I1, t1⟩, h2, h3⟩ := bind_ok.mp h1
  obtain ⟨⟨I2, t2⟩, h4, h5⟩ := bind_ok.mp h3
  exact (transitionDomains_keys _ _ _ _ h2).trans ((hparamsSweep_keys _ _ _ _ h4).trans (alphaSweep_keys _ _ _ _ h5))

theorem combLogp_keys {ss : List Slot} {ix : List Int} : ∀ (obs : List (String × Items × V)) (I : IRM F) (t : Tape)
    (x : ℝ × IRM F × Tape), combLogp ss ix obs I t = .ok x → KeysL I x.2.1 := by
  intro obs
  induction obs with
  | nil => intro I t x hc; cases hc; exact .refl _
  | cons o obs ih =>
    obtain ⟨r, items, v⟩ := o
    intro I t x hc
    obtain ⟨⟨id, rel⟩, h1, h2⟩ := bind_ok.mp hc
    obtain ⟨_, _, h3⟩ := bind_ok.mp h2
    obtain ⟨_, _, h4⟩ := bind_ok.mp h3
    obtain ⟨y, h5, h6⟩ := bind_ok.mp h4
    cases h6
    exact KeysL.trans (.setRel' (FMap.atKey_ok.mp h1)) (ih _ _ y h5)

theorem logpLoop_keys {ss : List Slot} {obs : List (String × Items × V)} : ∀ (l : List (List Int)) (I : IRM F) (t : Tape)
    (x : List (WithBot ℝ) × IRM F × Tape), logpLoop ss obs l I t = .ok x → KeysL I x.2.1 := by
  intro l
  induction l with
  | nil => intro I t x hc; cases hc; exact .refl _
  | cons ix l ih =>
    intro I t x hc
    obtain ⟨_, _, h2⟩ := bind_ok.mp hc
    obtain ⟨_, h3, h4⟩ := bind_ok.mp h2
    obtain ⟨y, h5, h6⟩ := bind_ok.mp h4
    cases h6
    exact (combLogp_keys _ _ _ _ h3).trans (ih _ _ y h5)

theorem logp_keys {I I' : IRM F} {obs : List (String × Items × V)} {lp : WithBot ℝ} {t t' : Tape}
    (hc : logp I obs t = .ok (lp, I', t')) : KeysL I I' := by
  obtain ⟨_, _, h2⟩ := bind_ok.mp hc
  obtain ⟨_, _, h4⟩ := bind_ok.mp h2
  obtain ⟨_, h5, h6⟩ := bind_ok.mp h4
  obtain ⟨_, _, h8⟩ := bind_ok.mp h6
  cases h8
  exact logpLoop_keys _ _ _ _ h5

/-! ### adding and removing a relation -/

theorem addDomains_keys {name : String} : ∀ (ds : List String) (I I' : IRM F), addDomains name ds I = .ok I' →
    I'.schema = I.schema ∧ I'.rels = I.rels := by
  intro ds
  induction ds with
  | nil => intro I I' hc; cases hc; exact ⟨rfl, rfl⟩
  | cons d ds ih =>
    intro I I' hc
    unfold addDomains at hc
    dsimp only at hc
    split at hc
    · obtain ⟨J, h1, h2⟩ := bind_ok.mp hc
      cases h1
      obtain ⟨s, _, h3⟩ := bind_ok.mp h2
      have h4 := ih _ _ h3
      exact ⟨h4.1, h4.2⟩
    · obtain ⟨_, _, h1⟩ := bind_ok.mp hc
      obtain ⟨J, h2, h3⟩ := bind_ok.mp h1
      cases h2
      obtain ⟨s, _, h4⟩ := bind_ok.mp h3
      have h5 := ih _ _ h4
      exact ⟨h5.1, h5.2⟩

theorem dropDomains_keys {name : String} : ∀ (ds : List String) (I I' : IRM F), dropDomains name ds I = .ok I' →
    I'.schema = I.schema ∧ I'.rels = I.rels := by
  intro ds
  induction ds with
  | nil => intro I I' hc; cases hc; exact ⟨rfl, rfl⟩
  | cons d ds ih =>
    intro I I' hc
    obtain ⟨s, _, h1⟩ := bind_ok.mp hc
    dsimp only at h1
    split at h1
    · obtain ⟨_, _, h2⟩ := bind_ok.mp h1
      have h3 := ih _ _ h2
      exact ⟨h3.1, h3.2⟩
    · have h3 := ih _ _ h1
      exact ⟨h3.1, h3.2⟩

theorem removeRelation_keys {I I' : IRM F} {name : String} (hc : removeRelation I name = .ok I') :
    I.rels.contains name = true ∧ I'.schema = I.schema.erase name ∧ I'.rels = I.rels.erase name := by
  obtain ⟨⟨id, rel⟩, h1, h2⟩ := bind_ok.mp hc
  obtain ⟨I1, h3, h4⟩ := bind_ok.mp h2
  cases h4
  obtain ⟨h5, h6⟩ := dropDomains_keys _ _ _ h3
  exact ⟨FMap.contains_iff.mpr ⟨_, FMap.atKey_ok.mp h1⟩, by rw [h5], by rw [h6]⟩

/-- the observations of a relation -/
def dataOf (I : IRM F) (n : String) : Option (FMap Items V) := (I.rels.find? n).map (·.2.data)

/-- `I'` is `I` with relation `r` added, which has observations `d` -/
structure With (r : String) (spec : RelSpec F) (d : FMap Items V) (I I' : IRM F) : Prop where
  fresh : I.rels.contains r = false
  schema : I'.schema = I.schema.set r spec
  rels : ∀ n, I'.rels.contains n = true ↔ n = r ∨ I.rels.contains n = true
  data : ∀ n, I'.dataOf n = if n = r then some d else I.dataOf n

theorem contains_set {K W : Type} [Key K] {m : FMap K W} {k n : K} {v : W} :
    (m.set k v).contains n = true ↔ n = k ∨ m.contains n = true := by
  simp only [FMap.contains_iff_mem, FMap.keys_set_mem]

theorem dataOf_set {I : IRM F} {σ : Doms} {name : String} {x : Nat × Rel F} (n : String) :
    dataOf { I with doms := σ, rels := I.rels.set name x } n = if n = name then some x.2.data else I.dataOf n := by
  unfold dataOf
  dsimp only
  rw [FMap.find?_set]
  split <;> rfl

theorem addClean_with {I I' : IRM F} {id : Nat} {name : String} {c : F.C} {ds : List String} {o : Bool}
    (hc : addClean id I name c ds o = .ok I') : With name (.clean c ds o) ∅ I I' := by
  obtain ⟨_, _, h2⟩ := bind_ok.mp hc
  obtain ⟨_, h3, h4⟩ := bind_ok.mp h2
  obtain ⟨I1, h5, h6⟩ := bind_ok.mp h4
  obtain ⟨r, hr, h7⟩ := bind_ok.mp h6
  cases h7
  obtain ⟨_, _, hr⟩ := bind_ok.mp hr
  cases hr
  obtain ⟨h8, h9⟩ := addDomains_keys _ _ _ h5
  refine ⟨by simpa using assertR_ok.mp h3, by rw [h8], fun n => by dsimp only; rw [h9, contains_set], fun n => ?_⟩
  unfold dataOf
  dsimp only
  rw [h9, FMap.find?_set]
  split <;> rfl

theorem addWithBase_with {I I' : IRM F} {id : Nat} {name : String} {e : F.E} {ds : List String} {b : String} {o : Bool} {p : Ptr}
    (hc : addWithBase id I name e ds b o p = .ok I') : With name (.noisy e ds b o) ∅ I I' := by
  obtain ⟨_, _, h2⟩ := bind_ok.mp hc
  obtain ⟨_, h3, h4⟩ := bind_ok.mp h2
  obtain ⟨I1, h5, h6⟩ := bind_ok.mp h4
  obtain ⟨r, hr, h7⟩ := bind_ok.mp h6
  cases h7
  obtain ⟨_, _, hr⟩ := bind_ok.mp hr
  cases hr
  obtain ⟨h8, h9⟩ := addDomains_keys _ _ _ h5
  refine ⟨by simpa using assertR_ok.mp h3, by rw [h8], fun n => by dsimp only; rw [h9, contains_set], fun n => ?_⟩
  unfold dataOf
  dsimp only
  rw [h9, FMap.find?_set]
  split <;> rfl

theorem removeRelation_data {I I' : IRM F} {name : String} (hc : removeRelation I name = .ok I') {n : String} (hn : n ≠ name) :
    I'.dataOf n = I.dataOf n := by
  obtain ⟨_, _, h⟩ := removeRelation_keys hc
  unfold dataOf
  rw [h, FMap.find?_erase_ne _ hn]

theorem _root_.Verif.CleanRel.incorporateItems_data {W : Type} {D : DistOps W} {σ σ' : Doms} {r r' : CleanRel D} {items : Items} {z : Items} {t t' : Tape}
    (hc : CleanRel.incorporateItems σ r items t = .ok (z, σ', r', t')) : r'.data = r.data := by
  obtain ⟨_, _, h1⟩ := bind_ok.mp hc
  obtain ⟨_, _, h2⟩ := bind_ok.mp h1
  obtain ⟨_, _, h3⟩ := bind_ok.mp h2
  dsimp only at h3
  split at h3 <;> cases h3 <;> rfl

theorem incorporate_data {env : Env V} {I I' : IRM F} {r : String} {items : Items} {v : V} {t t' : Tape}
    (hc : incorporate env I r items v t = .ok (I', t')) : ∃ d, I.dataOf r = some d ∧ ∀ n, I'.dataOf n = if n = r then some (d.set items v) else I.dataOf n := by
  obtain ⟨⟨id, rel⟩, h1, h2⟩ := bind_ok.mp hc
  obtain ⟨⟨σ, rel', t1⟩, h3, h4⟩ := bind_ok.mp h2
  cases h4
  have hd : rel'.data = rel.data.set items v := by
    cases rel with
    | clean c q =>
      obtain ⟨⟨σ1, q1, t2⟩, h5, h6⟩ := bind_ok.mp h3
      cases h6
      obtain ⟨⟨z, σ2, q2, t3⟩, h7, h8⟩ := bind_ok.mp h5
      obtain ⟨_, _, h9⟩ := bind_ok.mp h8
      obtain ⟨_, _, h10⟩ := bind_ok.mp h9
      cases h10
      have := CleanRel.incorporateItems_data h7
      simp only [Rel.data, this]
    | noisy e p q =>
      obtain ⟨_, _, h4⟩ := bind_ok.mp h3
      obtain ⟨⟨σ1, q1, t2⟩, h5, h6⟩ := bind_ok.mp h4
      cases h6
      obtain ⟨_, _, h7⟩ := bind_ok.mp h5
      obtain ⟨_, _, h8⟩ := bind_ok.mp h7
      obtain ⟨_, _, h9⟩ := bind_ok.mp h8
      cases h9
      rfl
  refine ⟨rel.data, by unfold dataOf; rw [FMap.atKey_ok.mp h1]; rfl, fun n => ?_⟩
  rw [dataOf_set, hd]

end IRM

namespace HIRM
open IRM (Keys With)

/-! ### looking up relations -/

theorem relationToTable_ok {H : HIRM F} {n : String} {tb : Int} : H.relationToTable n = .ok tb ↔ H.tableOf n = some tb := by
  unfold relationToTable tableOf
  constructor
  · intro h
    obtain ⟨c, h1, h2⟩ := bind_ok.mp h
    rw [FMap.atKey_ok.mp h1]
    exact FMap.atKey_ok.mp h2
  · intro h
    obtain ⟨c, h1, h2⟩ := Option.bind_eq_some_iff.mp h
    exact bind_ok.mpr ⟨c, FMap.atKey_of_find h1, FMap.atKey_of_find h2⟩

theorem relationToIrm_ok {H : HIRM F} {n : String} {x : Int × IRM F} :
    H.relationToIrm n = .ok x ↔ H.tableOf n = some x.1 ∧ H.irms.find? x.1 = some x.2 := by
  constructor
  · intro h
    obtain ⟨c, h1, h2⟩ := bind_ok.mp h
    obtain ⟨I, h3, h4⟩ := bind_ok.mp h2
    cases h4
    exact ⟨relationToTable_ok.mp h1, FMap.atKey_ok.mp h3⟩
  · rintro ⟨h1, h2⟩
    exact bind_ok.mpr ⟨x.1, relationToTable_ok.mpr h1, bind_ok.mpr ⟨x.2, FMap.atKey_of_find h2, rfl⟩⟩

theorem relOf_some {H : HIRM F} {n : String} {x : Int × Nat × Rel F} :
    H.relOf n = some x ↔ H.tableOf n = some x.1 ∧ ∃ I, H.irms.find? x.1 = some I ∧ I.rels.find? n = some (x.2.1, x.2.2) := by
  unfold relOf
  constructor
  · intro h
    obtain ⟨tb, h1, h2⟩ := Option.bind_eq_some_iff.mp h
    obtain ⟨I, h3, h4⟩ := Option.bind_eq_some_iff.mp h2
    obtain ⟨y, h5, h6⟩ := Option.bind_eq_some_iff.mp h4
    cases h6
    exact ⟨h1, I, h3, h5⟩
  · rintro ⟨h1, I, h2, h3⟩
    simp only [h1, Option.bind_eq_bind, Option.bind_some, h2, h3]

theorem getRelation_ok {H : HIRM F} {n : String} {p : Ptr} {r : Rel F} :
    H.getRelation n = .ok (p, r) ↔ ∃ tb id, H.relOf n = some (tb, id, r) ∧ p = { table := some tb, name := n, id := id } := by
  constructor
  · intro h
    obtain ⟨⟨tb, I⟩, h1, h2⟩ := bind_ok.mp h
    obtain ⟨⟨id, rel⟩, h3, h4⟩ := bind_ok.mp h2
    cases h4
    obtain ⟨h5, h6⟩ := relationToIrm_ok.mp h1
    exact ⟨tb, id, relOf_some.mpr ⟨h5, I, h6, FMap.atKey_ok.mp h3⟩, rfl⟩
  · rintro ⟨tb, id, h1, rfl⟩
    obtain ⟨h2, I, h3, h4⟩ := relOf_some.mp h1
    exact bind_ok.mpr ⟨(tb, I), relationToIrm_ok.mpr ⟨h2, h3⟩, bind_ok.mpr ⟨_, FMap.atKey_of_find h4, rfl⟩⟩

/-! ### operations that keep the names -/

/-- nothing changes but the relation objects and the domains of the IRMs -/
structure SameKeys (H H' : HIRM F) : Prop where
  schema : H'.schema = H.schema
  relToCode : H'.relToCode = H.relToCode
  codeToRel : H'.codeToRel = H.codeToRel
  baseToNoisy : H'.baseToNoisy = H.baseToNoisy
  crp : H'.crp = H.crp
  irms : ∀ tb, (H.irms.find? tb = none ∧ H'.irms.find? tb = none) ∨
    ∃ I I', H.irms.find? tb = some I ∧ H'.irms.find? tb = some I' ∧ Keys I I'

theorem SameKeys.refl (H : HIRM F) : SameKeys H H where
  schema := rfl
  relToCode := rfl
  codeToRel := rfl
  baseToNoisy := rfl
  crp := rfl
  irms tb := by
    cases h : H.irms.find? tb with
    | none => exact .inl ⟨rfl, rfl⟩
    | some I => exact .inr ⟨I, I, rfl, rfl, .refl I⟩

theorem SameKeys.trans {H H1 H2 : HIRM F} (h : SameKeys H H1) (h' : SameKeys H1 H2) : SameKeys H H2 where
  schema := h'.schema.trans h.schema
  relToCode := h'.relToCode.trans h.relToCode
  codeToRel := h'.codeToRel.trans h.codeToRel
  baseToNoisy := h'.baseToNoisy.trans h.baseToNoisy
  crp := h'.crp.trans h.crp
  irms tb := by
    rcases h.irms tb with ⟨h1, h2⟩ | ⟨I, I1, h1, h2, h3⟩
    · rcases h'.irms tb with ⟨_, h4⟩ | ⟨_, _, h4, _⟩
      · exact .inl ⟨h1, h4⟩
      · rw [h2] at h4; cases h4
    · rcases h'.irms tb with ⟨h4, _⟩ | ⟨I2, I3, h4, h5, h6⟩
      · rw [h2] at h4; cases h4
      · rw [h2] at h4; cases h4
        exact .inr ⟨I, I3, h1, h5, h3.trans h6⟩

theorem SameKeys.setIrm {H : HIRM F} {tb : Int} {I I' : IRM F} (hI : H.irms.find? tb = some I) (hk : Keys I I') :
    SameKeys H { H with irms := H.irms.set tb I' } where
  schema := rfl
  relToCode := rfl
  codeToRel := rfl
  baseToNoisy := rfl
  crp := rfl
  irms tb' := by
    dsimp only
    rw [FMap.find?_set]
    split
    · rename_i h; subst h; exact .inr ⟨I, I', hI, rfl, hk⟩
    · exact (SameKeys.refl H).irms tb'

theorem SameKeys.tableOf {H H' : HIRM F} (h : SameKeys H H') (n : String) : H'.tableOf n = H.tableOf n := by
  unfold HIRM.tableOf; rw [h.relToCode, h.crp]

theorem incorporate_keys {H H' : HIRM F} {r : String} {items : Items} {v : V} {t t' : Tape}
    (hc : H.incorporate r items v t = .ok (H', t')) : SameKeys H H' := by
  obtain ⟨⟨tb, I⟩, h1, h2⟩ := bind_ok.mp hc
  obtain ⟨⟨I', t1⟩, h3, h4⟩ := bind_ok.mp h2
  cases h4
  exact .setIrm (relationToIrm_ok.mp h1).2 (IRM.incorporate_keys h3).toKeys

theorem unincorporate_keys {H H' : HIRM F} {r : String} {items : Items}
    (hc : H.unincorporate r items = .ok H') : SameKeys H H' := by
  obtain ⟨⟨tb, I⟩, h1, h2⟩ := bind_ok.mp hc
  obtain ⟨I', h3, h4⟩ := bind_ok.mp h2
  cases h4
  exact .setIrm (relationToIrm_ok.mp h1).2 (IRM.unincorporate_keys h3).toKeys

theorem updateLoop_keys {r : String} : ∀ (l : List String) (H H' : HIRM F), updateLoop r l H = .ok H' → SameKeys H H' := by
  intro l
  induction l with
  | nil => intro H H' hc; cases hc; exact .refl H
  | cons n l ih =>
    intro H H' hc
    obtain ⟨⟨tb, I⟩, h1, h2⟩ := bind_ok.mp hc
    obtain ⟨⟨id, rel⟩, h3, h4⟩ := bind_ok.mp h2
    cases rel with
    | clean c q => cases h4
    | noisy e p q =>
      obtain ⟨_, _, h5⟩ := bind_ok.mp h4
      exact (SameKeys.setIrm (relationToIrm_ok.mp h1).2 (.setRel' (FMap.atKey_ok.mp h3))).trans (ih _ _ h5)

theorem updateBase_keys {H H' : HIRM F} {r : String} (hc : H.updateBase r = .ok H') : SameKeys H H' := by
  unfold updateBase at hc
  split at hc
  · cases hc; exact .refl H
  · exact updateLoop_keys _ _ _ hc

theorem storeNoisy_keys {p : Ptr} : ∀ (l : List (LatentNoisy F)) (H H' : HIRM F), storeNoisy p l H = .ok H' → SameKeys H H' := by
  intro l
  induction l with
  | nil => intro H H' hc; cases hc; exact .refl H
  | cons x l ih =>
    intro H H' hc
    obtain ⟨⟨tb, I⟩, h1, h2⟩ := bind_ok.mp hc
    obtain ⟨⟨id, rel⟩, h3, h4⟩ := bind_ok.mp h2
    exact (SameKeys.setIrm (relationToIrm_ok.mp h1).2 (.setRel' (FMap.atKey_ok.mp h3))).trans (ih _ _ h4)

theorem transitionLatentRelation_keys {H H' : HIRM F} {r : String} {t t' : Tape}
    (hc : H.transitionLatentRelation r t = .ok (H', t')) : SameKeys H H' := by
  obtain ⟨⟨tb, I⟩, h1, h2⟩ := bind_ok.mp hc
  obtain ⟨⟨id, rel⟩, h3, h4⟩ := bind_ok.mp h2
  obtain ⟨_, _, h5⟩ := bind_ok.mp h4
  obtain ⟨_, _, h6⟩ := bind_ok.mp h5
  obtain ⟨_, _, h7⟩ := bind_ok.mp h6
  obtain ⟨_, h8, h9⟩ := bind_ok.mp h7
  cases h9
  exact (SameKeys.setIrm (relationToIrm_ok.mp h1).2 (.setRel' (FMap.atKey_ok.mp h3))).trans (storeNoisy_keys _ _ _ h8)

theorem stepIrms_keys : ∀ (l : List Int) (H : HIRM F) (t : Tape) (x : HIRM F × Tape), stepIrms l H t = .ok x → SameKeys H x.1 := by
  intro l
  induction l with
  | nil => intro H t x hc; cases hc; exact .refl H
  | cons tb l ih =>
    intro H t x hc
    obtain ⟨I, h1, h2⟩ := bind_ok.mp hc
    obtain ⟨⟨I', t1⟩, h3, h4⟩ := bind_ok.mp h2
    exact (SameKeys.setIrm (FMap.atKey_ok.mp h1) (IRM.singleStep_keys h3).toKeys).trans (ih _ _ _ h4)

theorem logpGroups_keys : ∀ (l : List (Int × List (String × Items × V))) (H : HIRM F) (t : Tape) (x : WithBot ℝ × HIRM F × Tape),
    logpGroups l H t = .ok x → SameKeys H x.2.1 := by
  intro l
  induction l with
  | nil => intro H t x hc; cases hc; exact .refl H
  | cons e l ih =>
    obtain ⟨tb, o⟩ := e
    intro H t x hc
    obtain ⟨I, h1, h2⟩ := bind_ok.mp hc
    obtain ⟨⟨lp, I', t1⟩, h3, h4⟩ := bind_ok.mp h2
    obtain ⟨⟨s, H1, t2⟩, h5, h6⟩ := bind_ok.mp h4
    cases h6
    exact (SameKeys.setIrm (FMap.atKey_ok.mp h1) (IRM.logp_keys h3).toKeys).trans (ih _ _ (s, H1, t2) h5)

theorem logp_keys {H H' : HIRM F} {obs : List (String × Items × V)} {lp : WithBot ℝ} {t t' : Tape}
    (hc : H.logp obs t = .ok (lp, H', t')) : SameKeys H H' := by
  obtain ⟨m, _, h2⟩ := bind_ok.mp hc
  exact logpGroups_keys _ _ _ _ h2

theorem sampleOne_keys {H H' : HIRM F} {r : String} {items : Items} {v : V} {t t' : Tape}
    (hc : H.sampleOne r items t = .ok (v, H', t')) : SameKeys H H' := by
  obtain ⟨⟨tb, I⟩, h1, h2⟩ := bind_ok.mp hc
  obtain ⟨⟨id, rel⟩, h3, h4⟩ := bind_ok.mp h2
  obtain ⟨_, _, h5⟩ := bind_ok.mp h4
  cases h5
  exact .setIrm (relationToIrm_ok.mp h1).2 (.setRel (FMap.atKey_ok.mp h3) _)

theorem sampleRelation_keys : ∀ (k : Nat) (H : HIRM F) (r : String) (items : Items) (t : Tape) (x : V × HIRM F × Tape),
    sampleRelation k H r items t = .ok x → SameKeys H x.2.1 := by
  intro k
  induction k with
  | zero => intro H r items t x hc; cases hc
  | succ k ih =>
    intro H r items t x hc
    obtain ⟨spec, _, h1⟩ := bind_ok.mp hc
    dsimp only at h1
    cases spec with
    | clean c ds o =>
      obtain ⟨y, h2, h3⟩ := bind_ok.mp h1
      cases h2
      exact sampleOne_keys h3
    | noisy e ds base o =>
      obtain ⟨⟨p, rel⟩, _, h2⟩ := bind_ok.mp h1
      obtain ⟨b, _, h3⟩ := bind_ok.mp h2
      obtain ⟨bi, _, h4⟩ := bind_ok.mp h3
      split at h4
      · obtain ⟨y, h5, h6⟩ := bind_ok.mp h4
        cases h5
        exact sampleOne_keys h6
      · obtain ⟨⟨v, H1, t1⟩, h5, h6⟩ := bind_ok.mp h4
        obtain ⟨y, h7, h8⟩ := bind_ok.mp h6
        cases h7
        exact (ih _ _ _ _ _ h5).trans (sampleOne_keys h8)

theorem sampleLoop_keys {r : String} {ds : List String} {n : Nat} : ∀ (k num : Nat) (s : Sampling F) (t : Tape) (s' : Sampling F) (t' : Tape),
    sampleLoop r ds n k num s t = .ok (some (s', t')) → SameKeys s.H s'.H := by
  intro k
  induction k with
  | zero =>
    intro num s t s' t' hc
    unfold sampleLoop at hc
    split at hc
    · cases hc
    · cases hc; exact .refl _
  | succ k ih =>
    intro num s t s' t' hc
    unfold sampleLoop at hc
    split at hc
    · obtain ⟨_, _, h1⟩ := bind_ok.mp hc
      obtain ⟨_, _, h2⟩ := bind_ok.mp h1
      dsimp only at h2
      split at h2
      · obtain ⟨_, _, h3⟩ := bind_ok.mp h2
        have := ih _ _ _ _ _ h3
        exact this
      · obtain ⟨_, h3, h4⟩ := bind_ok.mp h2
        have := ih _ _ _ _ _ h4
        exact (sampleRelation_keys _ _ _ _ _ _ h3).trans this
    · cases hc; exact .refl _

theorem sampleLeaves_keys {n k : Nat} : ∀ (l : List (String × RelSpec F)) (s : Sampling F) (t : Tape) (s' : Sampling F) (t' : Tape),
    sampleLeaves n k l s t = .ok (some (s', t')) → SameKeys s.H s'.H := by
  intro l
  induction l with
  | nil => intro s t s' t' hc; cases hc; exact .refl _
  | cons e l ih =>
    obtain ⟨r, spec⟩ := e
    intro s t s' t' hc
    unfold sampleLeaves at hc
    split at hc
    · exact ih _ _ _ _ hc
    · obtain ⟨o, h1, h2⟩ := bind_ok.mp hc
      cases o with
      | none => cases h2
      | some x => exact (sampleLoop_keys _ _ _ _ _ _ h1).trans (ih _ _ _ _ h2)

theorem sampleAndIncorporate_keys {H : HIRM F} {n k : Nat} {s : Sampling F} {t t' : Tape}
    (hc : H.sampleAndIncorporate n k t = .ok (some (s, t'))) : SameKeys H s.H := by
  obtain ⟨crps, _, h1⟩ := bind_ok.mp hc
  exact sampleLeaves_keys _ _ _ _ _ h1

theorem cleanupLoop_keys : ∀ (l : List String) (H H' : HIRM F), cleanupLoop l H = .ok H' → SameKeys H H' := by
  intro l
  induction l with
  | nil => intro H H' hc; cases hc; exact .refl H
  | cons n l ih =>
    intro H H' hc
    obtain ⟨⟨tb, I⟩, h1, h2⟩ := bind_ok.mp hc
    obtain ⟨⟨id, rel⟩, h3, h4⟩ := bind_ok.mp h2
    exact (SameKeys.setIrm (relationToIrm_ok.mp h1).2 (.setRel' (FMap.atKey_ok.mp h3))).trans (ih _ _ h4)

/-! ### the invariant of the names -/

/-- schema, codes, CRP and IRMs agree about which relations there are and where they are -/
structure Skel (H : HIRM F) : Prop where
  crp : H.crp.WF
  tables : ∀ tb, H.irms.contains tb = H.crp.tables.contains tb
  codes : ∀ n c, H.relToCode.find? n = some c ↔ H.codeToRel.find? c = some n
  seated : ∀ c, H.crp.assignments.contains c = H.codeToRel.contains c
  schema : ∀ n, H.schema.contains n = H.relToCode.contains n
  place : ∀ tb I, H.irms.find? tb = some I → ∀ n, I.rels.contains n = true ↔ H.tableOf n = some tb
  specs : ∀ tb I, H.irms.find? tb = some I → ∀ n, I.rels.contains n = true → I.schema.find? n = H.schema.find? n

theorem skel_empty : Skel ({} : HIRM F) where
  crp := CRP.WF.init 1
  tables _ := rfl
  codes _ _ := by simp
  seated _ := rfl
  schema _ := rfl
  place _ _ h := by cases h
  specs _ _ h := by cases h

theorem SameKeys.skel {H H' : HIRM F} (h : SameKeys H H') (hs : Skel H) : Skel H' where
  crp := by rw [h.crp]; exact hs.crp
  tables tb := by
    rw [h.crp, ← hs.tables tb]
    rcases h.irms tb with ⟨h1, h2⟩ | ⟨I, I', h1, h2, _⟩ <;> simp [FMap.contains, h1, h2]
  codes := by rw [h.relToCode, h.codeToRel]; exact hs.codes
  seated := by rw [h.crp, h.codeToRel]; exact hs.seated
  schema := by rw [h.schema, h.relToCode]; exact hs.schema
  place tb I' hI' n := by
    rw [h.tableOf]
    rcases h.irms tb with ⟨_, h2⟩ | ⟨I, I1, h1, h2, h3⟩
    · rw [hI'] at h2; cases h2
    · rw [hI'] at h2; cases h2
      rw [h3.rels, hs.place tb I h1]
  specs tb I' hI' n hn := by
    rw [h.schema]
    rcases h.irms tb with ⟨_, h2⟩ | ⟨I, I1, h1, h2, h3⟩
    · rw [hI'] at h2; cases h2
    · rw [hI'] at h2; cases h2
      rw [h3.schema]
      exact hs.specs tb I h1 n (by rw [← h3.rels]; exact hn)

theorem Skel.code {H : HIRM F} (_h : Skel H) {n : String} {tb : Int} (ht : H.tableOf n = some tb) :
    ∃ c, H.relToCode.find? n = some c ∧ H.crp.assignments.find? c = some tb := Option.bind_eq_some_iff.mp ht

/-- the name of a seated code -/
theorem Skel.name {H : HIRM F} (h : Skel H) {c tb : Int} (hc : H.crp.assignments.find? c = some tb) :
    ∃ n, H.relToCode.find? n = some c ∧ H.tableOf n = some tb := by
  have := (h.seated c).symm.trans (FMap.contains_iff.mpr ⟨tb, hc⟩)
  obtain ⟨n, hn⟩ := FMap.contains_iff.mp this
  have hn' := (h.codes n c).mpr hn
  exact ⟨n, hn', by unfold tableOf; rw [hn']; exact hc⟩

theorem Skel.code_inj {H : HIRM F} (h : Skel H) {n m : String} {c : Int} (h1 : H.relToCode.find? n = some c) (h2 : H.relToCode.find? m = some c) :
    n = m := by
  have a := (h.codes n c).mp h1
  have b := (h.codes m c).mp h2
  rw [a] at b
  exact Option.some.inj b

theorem Skel.table_some {H : HIRM F} (h : Skel H) {n : String} (hn : H.schema.contains n = true) : ∃ tb, H.tableOf n = some tb := by
  rw [h.schema] at hn
  obtain ⟨c, hc⟩ := FMap.contains_iff.mp hn
  have := (h.seated c).trans (FMap.contains_iff.mpr ⟨n, (h.codes n c).mp hc⟩)
  obtain ⟨tb, htb⟩ := FMap.contains_iff.mp this
  exact ⟨tb, by unfold tableOf; rw [hc]; exact htb⟩

theorem tableOf_known {H : HIRM F} (h : Skel H) {n : String} {tb : Int} (ht : H.tableOf n = some tb) : H.schema.contains n = true := by
  obtain ⟨c, hc, _⟩ := h.code ht
  rw [h.schema]
  exact FMap.contains_iff.mpr ⟨c, hc⟩

/-- the IRM of a relation -/
theorem Skel.irm {H : HIRM F} (h : Skel H) {n : String} {tb : Int} (ht : H.tableOf n = some tb) :
    ∃ I, H.irms.find? tb = some I ∧ I.rels.contains n = true := by
  obtain ⟨c, _, hc⟩ := h.code ht
  obtain ⟨s, hs, _⟩ := CRP.mem_table h.crp hc
  obtain ⟨I, hI⟩ := FMap.contains_iff.mp ((h.tables tb).trans (FMap.contains_iff.mpr ⟨s, hs⟩))
  exact ⟨I, hI, (h.place tb I hI n).mpr ht⟩

/-- an IRM has a relation -/
theorem Skel.inhabited {H : HIRM F} (h : Skel H) {tb : Int} {I : IRM F} (hI : H.irms.find? tb = some I) : ∃ n, I.rels.contains n = true := by
  obtain ⟨s, hs⟩ := FMap.contains_iff.mp ((h.tables tb).symm.trans (FMap.contains_iff.mpr ⟨I, hI⟩))
  obtain ⟨c, hc⟩ := h.crp.nonempty tb s hs
  obtain ⟨n, _, hn⟩ := h.name ((h.crp.mem c tb).mpr ⟨s, hs, hc⟩)
  exact ⟨n, (h.place tb I hI n).mpr hn⟩

theorem Skel.consistent {H : HIRM F} (h : Skel H) : H.Consistent where
  codes := h.codes
  schema n := by rw [h.schema]; exact FMap.contains_iff
  customers c := by
    rw [← FMap.contains_iff, h.seated, FMap.contains_iff]
    exact ⟨fun ⟨n, hn⟩ => ⟨n, (h.codes n c).mpr hn⟩, fun ⟨n, hn⟩ => ⟨n, (h.codes n c).mp hn⟩⟩
  tables tb := (h.tables tb).symm
  one n hn := by
    obtain ⟨tb, ht⟩ := h.table_some hn
    obtain ⟨I, hI, hr⟩ := h.irm ht
    refine ⟨tb, I, ht, hI, hr, fun tb' I' hI' hr' => ?_⟩
    have := (h.place tb' I' hI' n).mp hr'
    rw [ht] at this
    exact (Option.some.inj this).symm
  known tb I n hI hn := by
    have h1 := h.specs tb I hI n hn
    obtain ⟨spec, hs⟩ := FMap.contains_iff.mp (tableOf_known h ((h.place tb I hI n).mp hn))
    exact ⟨spec, hs, by rw [h1]; exact hs⟩
  nonempty tb I hI := h.inhabited hI

/-! ### adding, removing and moving a relation -/

theorem table_iff {c : CRP} (h : c.WF) (tb : Int) : c.tables.contains tb = true ↔ ∃ i, c.assignments.find? i = some tb := by
  rw [FMap.contains_iff]
  constructor
  · rintro ⟨s, hs⟩
    obtain ⟨i, hi⟩ := h.nonempty tb s hs
    exact ⟨i, (h.mem i tb).mpr ⟨s, hs, hi⟩⟩
  · rintro ⟨i, hi⟩
    obtain ⟨s, hs, _⟩ := (h.mem i tb).mp hi
    exact ⟨s, hs⟩

theorem crp_incorporate {c c' : CRP} (h : c.WF) {i tb : Int} (hc : c.incorporate i tb = .ok c') :
    c'.WF ∧ c'.assignments = c.assignments.set i tb ∧ c'.alpha = c.alpha := by
  have hn : c.assignments.find? i = none := by
    cases hf : c.assignments.find? i with
    | none => rfl
    | some t' => rw [CRP.incorporate_of_mem hf] at hc; cases hc
  rw [CRP.incorporate_eq hn] at hc
  cases hc
  exact ⟨h.incState hn tb, rfl, rfl⟩

theorem crp_unincorporate {c c' : CRP} (h : c.WF) {i : Int} (hc : c.unincorporate i = .ok c') :
    c'.WF ∧ c'.assignments = c.assignments.erase i ∧ c'.alpha = c.alpha := by
  cases hf : c.assignments.find? i with
  | none => rw [CRP.unincorporate_of_not_mem hf] at hc; cases hc
  | some tb =>
    obtain ⟨s, hs, _⟩ := CRP.mem_table h hf
    rw [CRP.unincorporate_eq hf hs] at hc
    cases hc
    exact ⟨h.uninState hf hs, rfl, rfl⟩

/-- the tables agree if every relation's table has an IRM and no IRM is empty -/
theorem tables_of {H : HIRM F} (hw : H.crp.WF) (codes : ∀ n c, H.relToCode.find? n = some c ↔ H.codeToRel.find? c = some n)
    (seated : ∀ c, H.crp.assignments.contains c = H.codeToRel.contains c)
    (place : ∀ tb I, H.irms.find? tb = some I → ∀ n, I.rels.contains n = true ↔ H.tableOf n = some tb)
    (some_irm : ∀ n tb, H.tableOf n = some tb → H.irms.contains tb = true)
    (inhabited : ∀ tb I, H.irms.find? tb = some I → ∃ n, I.rels.contains n = true) (tb : Int) :
    H.irms.contains tb = H.crp.tables.contains tb := by
  rw [Bool.eq_iff_iff, table_iff hw]
  constructor
  · intro h
    obtain ⟨I, hI⟩ := FMap.contains_iff.mp h
    obtain ⟨n, hn⟩ := inhabited tb I hI
    obtain ⟨c, _, hc⟩ := Option.bind_eq_some_iff.mp ((place tb I hI n).mp hn)
    exact ⟨c, hc⟩
  · rintro ⟨c, hc⟩
    obtain ⟨n, hn⟩ := FMap.contains_iff.mp ((seated c).symm.trans (FMap.contains_iff.mpr ⟨tb, hc⟩))
    exact some_irm n tb (by unfold tableOf; rw [(codes n c).mpr hn]; exact hc)

/-- an HIRM after relation `r` with code `rc` went to `choice` -/
theorem Skel.moved {H H' : HIRM F} (h : Skel H) {r : String} {rc choice : Int} (hrc : H.relToCode.find? r = some rc) {c1 : CRP}
    (hs : H'.schema = H.schema) (hr : H'.relToCode = H.relToCode) (hcr : H'.codeToRel = H.codeToRel)
    (hu : H.crp.unincorporate rc = .ok c1) (hi : c1.incorporate rc choice = .ok H'.crp)
    (place : ∀ tb I, H'.irms.find? tb = some I → ∀ n, I.rels.contains n = true ↔ if n = r then tb = choice else H.tableOf n = some tb)
    (none_irm : ∀ tb, H'.irms.find? tb = none → tb ≠ choice ∧ ∀ n, n ≠ r → H.tableOf n ≠ some tb)
    (inhabited : ∀ tb I, H'.irms.find? tb = some I → ∃ n, I.rels.contains n = true)
    (specs : ∀ tb I, H'.irms.find? tb = some I → ∀ n, I.rels.contains n = true → I.schema.find? n = H.schema.find? n) :
    Skel H' ∧ ∀ n, H'.tableOf n = if n = r then some choice else H.tableOf n := by
  obtain ⟨hw1, ha1, _⟩ := crp_unincorporate h.crp hu
  obtain ⟨hw2, ha2, _⟩ := crp_incorporate hw1 hi
  have hassign : ∀ c, H'.crp.assignments.find? c = if c = rc then some choice else H.crp.assignments.find? c := by
    intro c
    rw [ha2, FMap.find?_set, ha1]
    split
    · rfl
    · rename_i hne; rw [FMap.find?_erase_ne _ hne]
  have htab : ∀ n, H'.tableOf n = if n = r then some choice else H.tableOf n := by
    intro n
    unfold tableOf
    rw [hr]
    by_cases hn : n = r
    · subst hn; rw [hrc, if_pos rfl]; simp [hassign]
    · rw [if_neg hn]
      cases hc : H.relToCode.find? n with
      | none => rfl
      | some c =>
        have : c ≠ rc := fun e => hn (h.code_inj hc (e ▸ hrc))
        simp [hassign, this]
  have codes' : ∀ n c, H'.relToCode.find? n = some c ↔ H'.codeToRel.find? c = some n := by rw [hr, hcr]; exact h.codes
  have seated' : ∀ c, H'.crp.assignments.contains c = H'.codeToRel.contains c := by
    intro c
    rw [hcr, ← h.seated c]
    simp only [FMap.contains, hassign]
    split
    · rename_i e
      subst e
      have := (h.seated c).trans (FMap.contains_iff.mpr ⟨r, (h.codes r c).mp hrc⟩)
      simpa [FMap.contains] using this.symm
    · rfl
  have place' : ∀ tb I, H'.irms.find? tb = some I → ∀ n, I.rels.contains n = true ↔ H'.tableOf n = some tb := by
    intro tb I hI n
    rw [place tb I hI n, htab]
    split
    · exact ⟨fun e => by rw [e], fun e => (Option.some.inj e).symm⟩
    · rfl
  refine ⟨⟨hw2, ?_, codes', seated', ?_, place', ?_⟩, htab⟩
  · refine tables_of hw2 codes' seated' place' ?_ inhabited
    intro n tb hn
    rw [htab] at hn
    cases hI : H'.irms.find? tb with
    | some I => exact FMap.contains_iff.mpr ⟨I, hI⟩
    | none =>
      obtain ⟨h1, h2⟩ := none_irm tb hI
      split at hn
      · exact absurd (Option.some.inj hn).symm h1
      · rename_i hne; exact absurd hn (h2 n hne)
  · rw [hs, hr]; exact h.schema
  · rw [hs]; exact specs

theorem fill_keys {env : Env V} {r : String} : ∀ (l : List (Items × V)) (I : IRM F) (t : Tape) (x : IRM F × Tape),
    fill env r l I t = .ok x → Keys I x.1 := by
  intro l
  induction l with
  | nil => intro I t x hc; cases hc; exact .refl I
  | cons e l ih =>
    obtain ⟨items, v⟩ := e
    intro I t x hc
    obtain ⟨⟨I1, t1⟩, h1, h2⟩ := bind_ok.mp hc
    exact (IRM.incorporate_keys h1).toKeys.trans (ih _ _ _ h2)

theorem addRelationToIrm_with {H : HIRM F} {I I' : IRM F} {r : String} {spec : RelSpec F} (hc : H.addRelationToIrm I r spec = .ok I') :
    With r spec ∅ I I' := by
  cases spec with
  | clean c ds o => exact IRM.addClean_with hc
  | noisy e ds b o =>
    obtain ⟨⟨p, rel⟩, _, h2⟩ := bind_ok.mp hc
    exact IRM.addWithBase_with h2

theorem fill_with {env : Env V} {r : String} {spec : RelSpec F} {I : IRM F} : ∀ (l : List (Items × V)) (d : FMap Items V) (I1 : IRM F) (t : Tape)
    (x : IRM F × Tape), With r spec d I I1 → fill env r l I1 t = .ok x →
    With r spec (l.foldl (fun m e => m.set e.1 e.2) d) I x.1 := by
  intro l
  induction l with
  | nil => intro d I1 t x hW hc; cases hc; exact hW
  | cons e l ih =>
    obtain ⟨items, v⟩ := e
    intro d I1 t x hW hc
    obtain ⟨⟨I2, t2⟩, h1, h2⟩ := bind_ok.mp hc
    refine ih (d.set items v) I2 _ _ ?_ h2
    have hk := IRM.incorporate_keys h1
    obtain ⟨d1, hd1, hd2⟩ := IRM.incorporate_data h1
    have hr := hW.data r
    rw [if_pos rfl, hd1] at hr
    cases hr
    refine ⟨hW.fresh, hk.schema.trans hW.schema, fun n => by rw [hk.rels]; exact hW.rels n, fun n => ?_⟩
    rw [hd2]
    split
    · rfl
    · rename_i hn; rw [hW.data, if_neg hn]

/-- entering the entries of a map one by one, in any order, gives the map -/
theorem foldl_entries {K W : Type} [Key K] : ∀ (l : List (K × W)) (m : FMap K W), (l.map Prod.fst).Nodup →
    ∀ k, (l.foldl (fun m e => m.set e.1 e.2) m).find? k = match l.find? (fun e => e.1 = k) with
      | some e => some e.2
      | none => m.find? k := by
  intro l
  induction l with
  | nil => intro m _ k; rfl
  | cons e l ih =>
    intro m hnd k
    rw [List.map_cons, List.nodup_cons] at hnd
    rw [List.foldl_cons, ih _ hnd.2]
    by_cases hk : e.1 = k
    · have : l.find? (fun e => e.1 = k) = none := by
        rw [List.find?_eq_none]
        intro x hx hxk
        simp only [decide_eq_true_eq] at hxk
        exact hnd.1 (List.mem_map.mpr ⟨x, hx, hxk.trans hk.symm⟩)
      rw [this, List.find?_cons_of_pos (by simpa using hk)]
      dsimp only
      rw [← hk, FMap.find?_set_self]
    · rw [List.find?_cons_of_neg (by simpa using hk)]
      split
      · rfl
      · rw [FMap.find?_set_ne _ (Ne.symm hk)]

theorem foldl_data {K W : Type} [Key K] (m : FMap K W) {l : List (K × W)} (hp : l.Perm m.entries) :
    l.foldl (fun m e => m.set e.1 e.2) ∅ = m := by
  have hnd : (l.map Prod.fst).Nodup := (hp.map _).nodup_iff.mpr (FMap.nodupKeys m)
  refine FMap.ext fun k => ?_
  rw [foldl_entries l ∅ hnd k]
  split
  · rename_i e he
    have h1 := List.find?_some he
    have h2 := hp.mem_iff.mp (List.mem_of_find?_eq_some he)
    simp only [decide_eq_true_eq] at h1
    subst h1
    exact (FMap.mem_entries.mp h2).symm
  · rename_i he
    cases hf : m.find? k with
    | none => rfl
    | some v =>
      have := List.find?_eq_none.mp he (k, v) (hp.mem_iff.mpr (FMap.mem_entries.mpr hf))
      simp at this

theorem putRelation_with {H : HIRM F} {I I' : IRM F} {r : String} {spec : RelSpec F} {data : FMap Items V} {t t' : Tape}
    (hc : H.putRelation I r spec data t = .ok (I', t')) : With r spec data I I' := by
  obtain ⟨I1, h1, h2⟩ := bind_ok.mp hc
  have := fill_with (shuffle data.entries t).1 _ _ _ _ (addRelationToIrm_with h1) h2
  rwa [foldl_data data (shuffle_perm data.entries t)] at this

theorem idxR_mem {α : Type _} {l : List α} {i : Nat} {a : α} (h : idxR l i = .ok a) : a ∈ l := by
  unfold idxR at h
  split at h
  · cases h; rename_i h1; exact List.mem_of_getElem? h1
  · cases h

/-- what the scoring loop leaves behind -/
structure Scored (r : String) (cur : Int) (spec : RelSpec F) (d : FMap Items V) (ks : List Int) (H H' : HIRM F) (aux : Option (Int × IRM F)) : Prop where
  schema : H'.schema = H.schema
  relToCode : H'.relToCode = H.relToCode
  codeToRel : H'.codeToRel = H.codeToRel
  baseToNoisy : H'.baseToNoisy = H.baseToNoisy
  crp : H'.crp = H.crp
  none_irm : ∀ tb, H.irms.find? tb = none → H'.irms.find? tb = none
  touched : ∀ tb I, H.irms.find? tb = some I → tb ∈ ks → tb ≠ cur → ∃ I', H'.irms.find? tb = some I' ∧ With r spec d I I'
  kept : ∀ tb I, H.irms.find? tb = some I → tb ∉ ks ∨ tb = cur → H'.irms.find? tb = some I
  aux_some : ∀ tb, tb ∈ ks → H.irms.find? tb = none → ∃ I, aux = some (tb, I) ∧ With r spec d {} I
  aux_none : ∀ tb I, aux = some (tb, I) → H.irms.find? tb = none

theorem scoreTables_inv {r : String} {cur : Int} {spec : RelSpec F} {data : FMap Items V} :
    ∀ (l : List (Int × ℝ)) (H : HIRM F) (aux : Option (Int × IRM F)) (t : Tape) (lps : List (Int × ℝ)) (H' : HIRM F)
      (aux' : Option (Int × IRM F)) (t' : Tape), (l.map Prod.fst).Nodup → (∀ tb I, aux = some (tb, I) → H.irms.find? tb = none) →
      scoreTables r cur spec data l H aux t = .ok (lps, H', aux', t') →
      lps.map Prod.fst = l.map Prod.fst ∧ Scored r cur spec data (l.map Prod.fst) H H' aux' ∧ (∀ x, aux = some x → aux' = some x) := by
  intro l
  induction l with
  | nil =>
    intro H aux t lps H' aux' t' _ haux hc
    cases hc
    exact ⟨rfl, ⟨rfl, rfl, rfl, rfl, rfl, fun _ h => h, fun _ _ _ h => (by cases h), fun _ _ h _ => h, fun _ h => (by cases h), haux⟩,
      fun _ h => h⟩
  | cons e l ih =>
    obtain ⟨tb, w⟩ := e
    intro H aux t lps H' aux' t' hnd haux hc
    rw [List.map_cons, List.nodup_cons] at hnd
    obtain ⟨hni, hnd⟩ := hnd
    unfold scoreTables at hc
    dsimp only at hc
    cases hI : H.irms.find? tb with
    | some I =>
      rw [hI] at hc
      have hcon : H.irms.contains tb = true := FMap.contains_iff.mpr ⟨I, hI⟩
      obtain ⟨J, h1, h2⟩ := bind_ok.mp hc
      cases h1
      by_cases hcur : tb = cur
      · rw [if_neg (by simpa using hcur)] at h2
        obtain ⟨x, h3, h4⟩ := bind_ok.mp h2
        cases h3
        obtain ⟨_, _, h5⟩ := bind_ok.mp h4
        simp only [hcon, if_true] at h5
        obtain ⟨⟨lps1, H1, aux1, t1⟩, h6, h7⟩ := bind_ok.mp h5
        cases h7
        have hset : H.irms.set tb I = H.irms := FMap.set_of_find hI
        rw [hset] at h6
        obtain ⟨ha, hb, hd⟩ := ih _ _ _ _ _ _ _ hnd haux h6
        refine ⟨by simp [ha], ⟨hb.schema, hb.relToCode, hb.codeToRel, hb.baseToNoisy, hb.crp, hb.none_irm, ?_, ?_, ?_, hb.aux_none⟩, hd⟩
        · intro u I' hu hm hne
          rcases List.mem_cons.mp hm with rfl | hm
          · exact absurd hcur hne
          · exact hb.touched u I' hu hm hne
        · intro u I' hu hm
          refine hb.kept u I' hu ?_
          rcases hm with hm | hm
          · exact .inl fun h' => hm (List.mem_cons_of_mem _ h')
          · exact .inr hm
        · intro u hm hu
          rcases List.mem_cons.mp hm with rfl | hm
          · simp_all
          · exact hb.aux_some u hm hu
      · rw [if_pos (by simpa using hcur)] at h2
        obtain ⟨⟨I1, t1⟩, h3, h4⟩ := bind_ok.mp h2
        have hW := putRelation_with h3
        obtain ⟨x, h5, h6⟩ := bind_ok.mp h4
        cases h5
        obtain ⟨_, _, h7⟩ := bind_ok.mp h6
        simp only [hcon, if_true] at h7
        obtain ⟨⟨lps1, H1, aux1, t1⟩, h8, h9⟩ := bind_ok.mp h7
        cases h9
        have hfind : ∀ u, (H.irms.set tb I1).find? u = if u = tb then some I1 else H.irms.find? u := fun u => FMap.find?_set _ _ _ _
        obtain ⟨ha, hb, hd⟩ := ih _ _ _ _ _ _ _ hnd (by
          intro u J hu
          have := haux u J hu
          dsimp only
          rw [hfind, if_neg (by rintro rfl; rw [hI] at this; cases this)]
          exact this) h8
        refine ⟨by simp [ha], ⟨hb.schema, hb.relToCode, hb.codeToRel, hb.baseToNoisy, hb.crp, ?_, ?_, ?_, ?_, ?_⟩, hd⟩
        · intro u hu
          refine hb.none_irm u ?_
          dsimp only
          rw [hfind, if_neg (by rintro rfl; rw [hI] at hu; cases hu)]
          exact hu
        · intro u I' hu hm hne
          rcases List.mem_cons.mp hm with e | hm'
          · change u = tb at e
            subst e
            rw [hI] at hu; cases hu
            exact ⟨I1, hb.kept u I1 (by dsimp only; rw [hfind, if_pos rfl]) (.inl hni), hW⟩
          · refine hb.touched u I' ?_ hm' hne
            dsimp only
            rw [hfind, if_neg (by rintro rfl; exact hni hm')]
            exact hu
        · intro u I' hu hm
          have hne : u ≠ tb := by
            rintro rfl
            rcases hm with hm | hm
            · exact hm List.mem_cons_self
            · exact hcur hm
          refine hb.kept u I' (by dsimp only; rw [hfind, if_neg hne]; exact hu) ?_
          rcases hm with hm | hm
          · exact .inl fun h' => hm (List.mem_cons_of_mem _ h')
          · exact .inr hm
        · intro u hm hu
          have hne : u ≠ tb := by rintro rfl; rw [hI] at hu; cases hu
          rcases List.mem_cons.mp hm with rfl | hm
          · exact absurd rfl hne
          · exact hb.aux_some u hm (by dsimp only; rw [hfind, if_neg hne]; exact hu)
        · intro u J hu
          have := hb.aux_none u J hu
          dsimp only at this
          rw [hfind] at this
          split at this
          · cases this
          · exact this
    | none =>
      rw [hI] at hc
      have hcon : H.irms.contains tb = false := FMap.contains_false.mpr hI
      obtain ⟨_, hassert, hc⟩ := bind_ok.mp hc
      have hnone : aux = none := by simpa using assertR_ok.mp hassert
      subst hnone
      obtain ⟨J, h1, h2⟩ := bind_ok.mp hc
      cases h1
      by_cases hcur : tb = cur
      · rw [if_neg (by simpa using hcur)] at h2
        obtain ⟨x, h3, h4⟩ := bind_ok.mp h2
        cases h3
        obtain ⟨_, h5, _⟩ := bind_ok.mp h4
        have := FMap.atKey_ok.mp h5
        cases this
      · rw [if_pos (by simpa using hcur)] at h2
        obtain ⟨⟨I1, t1⟩, h3, h4⟩ := bind_ok.mp h2
        have hW := putRelation_with h3
        obtain ⟨x, h5, h6⟩ := bind_ok.mp h4
        cases h5
        obtain ⟨_, _, h7⟩ := bind_ok.mp h6
        simp only [hcon] at h7
        obtain ⟨⟨lps1, H1, aux1, t1⟩, h8, h9⟩ := bind_ok.mp h7
        cases h9
        obtain ⟨ha, hb, hd⟩ := ih _ _ _ _ _ _ _ hnd (by
          intro u J hu
          cases hu
          exact hI) h8
        refine ⟨by simp [ha], ⟨hb.schema, hb.relToCode, hb.codeToRel, hb.baseToNoisy, hb.crp, hb.none_irm, ?_, ?_, ?_, hb.aux_none⟩,
          fun _ h => (by cases h)⟩
        · intro u I' hu hm hne
          rcases List.mem_cons.mp hm with rfl | hm
          · simp_all
          · exact hb.touched u I' hu hm hne
        · intro u I' hu hm
          refine hb.kept u I' hu ?_
          rcases hm with hm | hm
          · exact .inl fun h' => hm (List.mem_cons_of_mem _ h')
          · exact .inr hm
        · intro u hm hu
          rcases List.mem_cons.mp hm with rfl | hm
          · exact ⟨I1, hd _ rfl, hW⟩
          · exact hb.aux_some u hm hu

theorem dropOthers_inv {r : String} {cur choice : Int} {crp : CRP} : ∀ (l : List Int) (m m' : FMap Int (IRM F)), l.Nodup →
    dropOthers r cur choice crp l m = .ok m' →
    (∀ tb, tb ∉ l → m'.find? tb = m.find? tb) ∧
    ∀ tb, tb ∈ l → ∃ I I1, m.find? tb = some I ∧
      (if tb = choice then I1 = I else I.rels.contains r = true ∧ I.removeRelation r = .ok I1) ∧
      m'.find? tb = if I1.rels.size = 0 then none else some I1 := by
  intro l
  induction l with
  | nil => intro m m' _ hc; cases hc; exact ⟨fun _ _ => rfl, fun _ h => (by cases h)⟩
  | cons tb l ih =>
    intro m m' hnd hc
    rw [List.nodup_cons] at hnd
    obtain ⟨hni, hnd⟩ := hnd
    unfold dropOthers at hc
    obtain ⟨I, h1, h2⟩ := bind_ok.mp hc
    have hI := FMap.atKey_ok.mp h1
    dsimp only at h2
    -- the rest of the loop after the relation was removed or kept
    have key : ∀ I1 : IRM F, (if tb = choice then I1 = I else I.rels.contains r = true ∧ I.removeRelation r = .ok I1) →
        (if I1.rels.size = 0 then do
            let s ← crp.tables.atKey tb
            assertR (decide (s.size = 1))
            assertR (decide (tb = cur))
            dropOthers r cur choice crp l (m.erase tb)
          else dropOthers r cur choice crp l (m.set tb I1)) = .ok m' →
        (∀ u, u ∉ tb :: l → m'.find? u = m.find? u) ∧
        ∀ u, u ∈ tb :: l → ∃ I I1, m.find? u = some I ∧
          (if u = choice then I1 = I else I.rels.contains r = true ∧ I.removeRelation r = .ok I1) ∧
          m'.find? u = if I1.rels.size = 0 then none else some I1 := by
      intro I1 hrm h
      split at h
      · rename_i hz
        obtain ⟨_, _, h⟩ := bind_ok.mp h
        obtain ⟨_, _, h⟩ := bind_ok.mp h
        obtain ⟨_, _, h⟩ := bind_ok.mp h
        obtain ⟨ha, hb⟩ := ih _ _ hnd h
        refine ⟨fun u hu => ?_, fun u hu => ?_⟩
        · rw [List.mem_cons, not_or] at hu
          rw [ha u hu.2, FMap.find?_erase_ne _ hu.1]
        · rcases List.mem_cons.mp hu with rfl | hu'
          · exact ⟨I, I1, hI, hrm, by rw [ha _ hni, FMap.find?_erase_self, if_pos hz]⟩
          · obtain ⟨J, J1, hJ, hJ1, hf⟩ := hb u hu'
            rw [FMap.find?_erase_ne _ (by rintro rfl; exact hni hu')] at hJ
            exact ⟨J, J1, hJ, hJ1, hf⟩
      · rename_i hz
        obtain ⟨ha, hb⟩ := ih _ _ hnd h
        refine ⟨fun u hu => ?_, fun u hu => ?_⟩
        · rw [List.mem_cons, not_or] at hu
          rw [ha u hu.2, FMap.find?_set_ne _ hu.1]
        · rcases List.mem_cons.mp hu with rfl | hu'
          · exact ⟨I, I1, hI, hrm, by rw [ha _ hni, FMap.find?_set_self, if_neg hz]⟩
          · obtain ⟨J, J1, hJ, hJ1, hf⟩ := hb u hu'
            rw [FMap.find?_set_ne _ (by rintro rfl; exact hni hu')] at hJ
            exact ⟨J, J1, hJ, hJ1, hf⟩
    by_cases hch : tb = choice
    · rw [if_neg (by simpa using hch)] at h2
      obtain ⟨I1, h3, h4⟩ := bind_ok.mp h2
      cases h3
      exact key I (by rw [if_pos hch]) h4
    · rw [if_pos (by simpa using hch)] at h2
      obtain ⟨_, h3, h4⟩ := bind_ok.mp h2
      obtain ⟨I1, h5, h6⟩ := bind_ok.mp h4
      exact key I1 (by rw [if_neg hch]; exact ⟨by simpa using assertR_ok.mp h3, h5⟩) h6

theorem size_zero_iff {K W : Type} [Key K] {m : FMap K W} : m.size = 0 ↔ ∀ n, m.contains n = false := by
  constructor
  · intro h n
    rw [FMap.eq_empty_of_size h]; rfl
  · intro h
    have : m = ∅ := FMap.ext fun k => by rw [FMap.contains_false.mp (h k)]; rfl
    rw [this]; rfl

theorem contains_erase {K W : Type} [Key K] {m : FMap K W} {k n : K} : (m.erase k).contains n = true ↔ n ≠ k ∧ m.contains n = true := by
  simp only [FMap.contains_iff_mem, FMap.keys_erase_mem]

/-- adding and then removing a relation -/
theorem with_removed {r : String} {spec : RelSpec F} {d : FMap Items V} {I I1 I2 : IRM F} (h : With r spec d I I1) (hr : I1.removeRelation r = .ok I2) :
    (∀ n, I2.rels.contains n = I.rels.contains n) ∧ ∀ n, n ≠ r → I2.schema.find? n = I.schema.find? n ∧ I2.dataOf n = I.dataOf n := by
  obtain ⟨_, h2, h3⟩ := IRM.removeRelation_keys hr
  refine ⟨fun n => ?_, fun n hn => ?_⟩
  · rw [Bool.eq_iff_iff, h3, contains_erase, h.rels]
    constructor
    · rintro ⟨hne, rfl | hc⟩
      · exact absurd rfl hne
      · exact hc
    · intro hc
      have : n ≠ r := by rintro rfl; rw [h.fresh] at hc; cases hc
      exact ⟨this, .inr hc⟩
  · exact ⟨by rw [h2, FMap.find?_erase_ne _ hn, h.schema, FMap.find?_set_ne _ hn], by rw [IRM.removeRelation_data hr hn, h.data, if_neg hn]⟩

/-- the IRM and the HIRM agree about the relation's specification and observations -/
def Info (H : HIRM F) (I : IRM F) (n : String) : Prop := I.schema.find? n = H.schema.find? n ∧ I.dataOf n = H.dataOf n

theorem dataOf_irm {H : HIRM F} {tb : Int} {I : IRM F} (hI : H.irms.find? tb = some I) {n : String} (hT : H.tableOf n = some tb) :
    H.dataOf n = I.dataOf n := by
  unfold HIRM.dataOf HIRM.relOf IRM.dataOf
  rw [hT]
  simp only [Option.bind_eq_bind, Option.bind_some, hI]
  cases I.rels.find? n <;> rfl

theorem Skel.info {H : HIRM F} (h : Skel H) {tb : Int} {I : IRM F} (hI : H.irms.find? tb = some I) {n : String} (hn : I.rels.contains n = true) :
    H.Info I n := ⟨h.specs tb I hI n hn, (dataOf_irm hI ((h.place tb I hI n).mp hn)).symm⟩

/-- the auxiliary IRM becomes an IRM if its table is chosen -/
def withAux (aux : Option (Int × IRM F)) (choice : Int) (m : FMap Int (IRM F)) : FMap Int (IRM F) :=
  match aux with
  | some (tb, I) => if choice = tb then m.set choice I else m
  | none => m

/-- the map of IRMs after the relation went to `choice` -/
theorem settle_moved {H H1 : HIRM F} (h : Skel H) {r : String} {cur choice : Int} {spec : RelSpec F} {d : FMap Items V} {ks : List Int}
    {aux : Option (Int × IRM F)} (hcur : H.tableOf r = some cur) (hspec : H.schema.find? r = some spec) (hdata : H.dataOf r = some d)
    (hS : Scored r cur spec d ks H H1 aux) (hch : choice ∈ ks) {order : List Int} (ho : order.Perm H.crp.tables.keys)
    {m : FMap Int (IRM F)} (hd : dropOthers r cur choice H1.crp order H1.irms = .ok m) {irms : FMap Int (IRM F)}
    (hirms : irms = withAux aux choice m) :
    (∀ tb I, irms.find? tb = some I → ∀ n, I.rels.contains n = true ↔ if n = r then tb = choice else H.tableOf n = some tb) ∧
    (∀ tb, irms.find? tb = none → tb ≠ choice ∧ ∀ n, n ≠ r → H.tableOf n ≠ some tb) ∧
    (∀ tb I, irms.find? tb = some I → ∃ n, I.rels.contains n = true) ∧
    (∀ tb I, irms.find? tb = some I → ∀ n, I.rels.contains n = true → H.Info I n) := by
  have hnd : order.Nodup := ho.nodup_iff.mpr (FMap.nodupKeys _)
  obtain ⟨ha, hb⟩ := dropOthers_inv _ _ _ hnd hd
  have hmem : ∀ tb, tb ∈ order ↔ ∃ I, H.irms.find? tb = some I := by
    intro tb
    rw [ho.mem_iff, ← FMap.contains_iff_mem, ← h.tables, FMap.contains_iff]
  -- an IRM that gained the relation
  have gain : ∀ tb I I1, H.irms.find? tb = some I → With r spec d I I1 →
      (∀ n, I1.rels.contains n = true ↔ n = r ∨ H.tableOf n = some tb) ∧
      ∀ n, I1.rels.contains n = true → H.Info I1 n := by
    intro tb I I1 hI hW
    refine ⟨fun n => by rw [hW.rels, h.place tb I hI], fun n hn => ?_⟩
    unfold Info
    rw [hW.schema, FMap.find?_set, hW.data]
    split
    · rename_i e; rw [e, hspec, hdata]; exact ⟨rfl, rfl⟩
    · rename_i hne
      exact h.info hI (((hW.rels n).mp hn).resolve_left hne)
  -- the table of a live IRM that was not chosen
  have other : ∀ tb I1, tb ≠ choice → m.find? tb = some I1 →
      (∀ n, I1.rels.contains n = true ↔ n ≠ r ∧ H.tableOf n = some tb) ∧ I1.rels.size ≠ 0 ∧
      ∀ n, I1.rels.contains n = true → H.Info I1 n := by
    intro tb I1 hne hm
    by_cases ho' : tb ∈ order
    · obtain ⟨J, J1, hJ, hJ1, hf⟩ := hb tb ho'
      rw [if_neg hne] at hJ1
      obtain ⟨hJr, hJ1⟩ := hJ1
      rw [hm] at hf
      split at hf
      · cases hf
      rename_i hz
      cases hf
      obtain ⟨I, hI⟩ := (hmem tb).mp ho'
      obtain ⟨_, hk1, hk2⟩ := IRM.removeRelation_keys hJ1
      have hcase : (tb ∈ ks ∧ tb ≠ cur) ∨ (tb ∉ ks ∨ tb = cur) := by tauto
      rcases hcase with ⟨hk, hc⟩ | hk
      · obtain ⟨I', hI', hW⟩ := hS.touched tb I hI hk hc
        rw [hI'] at hJ; cases hJ
        obtain ⟨hr1, hr2⟩ := with_removed hW hJ1
        have hp : ∀ n, I1.rels.contains n = true ↔ n ≠ r ∧ H.tableOf n = some tb := by
          intro n
          rw [hr1, h.place tb I hI]
          refine ⟨fun hn => ⟨?_, hn⟩, fun hn => hn.2⟩
          rintro rfl
          rw [hcur] at hn
          exact hc (Option.some.inj hn).symm
        refine ⟨hp, hz, fun n hn => ?_⟩
        unfold Info
        rw [(hr2 n ((hp n).mp hn).1).1, (hr2 n ((hp n).mp hn).1).2]
        exact h.info hI (by rw [← hr1]; exact hn)
      · have := hS.kept tb I hI hk
        rw [this] at hJ; cases hJ
        have hp : ∀ n, I1.rels.contains n = true ↔ n ≠ r ∧ H.tableOf n = some tb := by
          intro n
          rw [hk2, contains_erase, h.place tb J hI]
        refine ⟨hp, hz, fun n hn => ?_⟩
        unfold Info
        rw [hk1, FMap.find?_erase_ne _ ((hp n).mp hn).1, IRM.removeRelation_data hJ1 ((hp n).mp hn).1]
        exact h.info hI ((h.place tb J hI n).mpr ((hp n).mp hn).2)
    · rw [ha tb ho'] at hm
      have : H.irms.find? tb = none := by
        cases hI : H.irms.find? tb with
        | none => rfl
        | some I => exact absurd ((hmem tb).mpr ⟨I, hI⟩) ho'
      rw [hS.none_irm tb this] at hm
      cases hm
  -- the chosen IRM
  have chosen : ∃ I1, irms.find? choice = some I1 ∧ (∀ n, I1.rels.contains n = true ↔ n = r ∨ H.tableOf n = some choice) ∧
      ∀ n, I1.rels.contains n = true → H.Info I1 n := by
    cases hI : H.irms.find? choice with
    | some I =>
      obtain ⟨J, J1, hJ, hJ1, hf⟩ := hb choice ((hmem choice).mpr ⟨I, hI⟩)
      rw [if_pos rfl] at hJ1
      subst hJ1
      have hirm : irms.find? choice = m.find? choice := by
        rw [hirms]
        unfold withAux
        split
        · rename_i tb Ia
          have := hS.aux_none tb Ia rfl
          rw [if_neg]
          rintro rfl
          rw [hI] at this; cases this
        · rfl
      have hp : (∀ n, J1.rels.contains n = true ↔ n = r ∨ H.tableOf n = some choice) ∧
          ∀ n, J1.rels.contains n = true → H.Info J1 n := by
        by_cases hc : choice = cur
        · rw [hS.kept choice I hI (.inr hc)] at hJ
          cases hJ
          refine ⟨fun n => ?_, fun n hn => h.info hI hn⟩
          rw [h.place choice _ hI]
          constructor
          · exact .inr
          · rintro (rfl | hn)
            · rw [hcur, hc]
            · exact hn
        · obtain ⟨I', hI', hW⟩ := hS.touched choice I hI hch hc
          rw [hI'] at hJ; cases hJ
          exact gain choice I _ hI hW
      refine ⟨J1, ?_, hp⟩
      rw [hirm, hf, if_neg]
      intro hz
      have := (hp.1 r).mpr (.inl rfl)
      rw [size_zero_iff.mp hz r] at this
      cases this
    | none =>
      obtain ⟨Ia, haux, hW⟩ := hS.aux_some choice hch hI
      subst haux
      have hno : ∀ n, H.tableOf n ≠ some choice := by
        intro n hn
        obtain ⟨I, hI', _⟩ := h.irm hn
        rw [hI] at hI'; cases hI'
      refine ⟨Ia, by rw [hirms]; simp [withAux], fun n => ?_, fun n hn => ?_⟩
      · rw [hW.rels]
        constructor
        · rintro (e | e)
          · exact .inl e
          · cases e
        · rintro (e | e)
          · exact .inl e
          · exact absurd e (hno n)
      · unfold Info
        rw [hW.schema, FMap.find?_set, hW.data]
        split
        · rename_i e; rw [e, hspec, hdata]; exact ⟨rfl, rfl⟩
        · rename_i hne
          rcases (hW.rels n).mp hn with e | e
          · exact absurd e hne
          · cases e
  have hother : ∀ tb, tb ≠ choice → irms.find? tb = m.find? tb := by
    intro tb hne
    rw [hirms]
    unfold withAux
    split
    · split
      · rw [FMap.find?_set_ne _ hne]
      · rfl
    · rfl
  obtain ⟨Ic, hIc, hc1, hc2⟩ := chosen
  refine ⟨fun tb I hI n => ?_, fun tb hI => ?_, fun tb I hI => ?_, fun tb I hI => ?_⟩
  · by_cases hne : tb = choice
    · subst hne
      rw [hIc] at hI; cases hI
      rw [hc1]
      split <;> simp_all
    · rw [hother tb hne] at hI
      rw [(other tb I hne hI).1]
      split <;> simp_all
  · have hne : tb ≠ choice := by rintro rfl; rw [hIc] at hI; cases hI
    refine ⟨hne, fun n hn hT => ?_⟩
    obtain ⟨I, hI', hIn⟩ := h.irm hT
    have ho' : tb ∈ order := (hmem tb).mpr ⟨I, hI'⟩
    rw [hother tb hne] at hI
    obtain ⟨J, J1, hJ, hJ1, hf⟩ := hb tb ho'
    rw [hI] at hf
    split at hf
    · rename_i hz
      rw [if_neg hne] at hJ1
      obtain ⟨hJr, hJ1⟩ := hJ1
      have hz' := size_zero_iff.mp hz n
      obtain ⟨_, _, hk2⟩ := IRM.removeRelation_keys hJ1
      have : J.rels.contains n = true := by
        by_cases hk : tb ∈ ks ∧ tb ≠ cur
        · obtain ⟨I', hI'', hW⟩ := hS.touched tb I hI' hk.1 hk.2
          rw [hI''] at hJ; cases hJ
          exact (hW.rels n).mpr (.inr hIn)
        · rw [hS.kept tb I hI' (by tauto)] at hJ
          cases hJ
          exact hIn
      have : J1.rels.contains n = true := by rw [hk2]; exact contains_erase.mpr ⟨hn, this⟩
      rw [hz'] at this; cases this
    · cases hf
  · by_cases hne : tb = choice
    · subst hne
      rw [hIc] at hI; cases hI
      exact ⟨r, (hc1 r).mpr (.inl rfl)⟩
    · rw [hother tb hne] at hI
      have hz := (other tb I hne hI).2.1
      by_contra hno
      push Not at hno
      exact hz (size_zero_iff.mpr fun n => by simpa using hno n)
  · by_cases hne : tb = choice
    · subst hne
      rw [hIc] at hI; cases hI
      exact hc2
    · rw [hother tb hne] at hI
      exact (other tb I hne hI).2.2

/-- setting a relation object with the same observations -/
theorem dataOf_setRel {H : HIRM F} {tb : Int} {I : IRM F} (hI : H.irms.find? tb = some I) {n : String} {x y : Nat × Rel F}
    (hx : I.rels.find? n = some x) (hd : y.2.data = x.2.data) (m : String) :
    dataOf { H with irms := H.irms.set tb { I with rels := I.rels.set n y } } m = H.dataOf m := by
  have ht : tableOf { H with irms := H.irms.set tb { I with rels := I.rels.set n y } } m = H.tableOf m := rfl
  unfold dataOf relOf
  rw [ht]
  cases H.tableOf m with
  | none => rfl
  | some u =>
    simp only [Option.bind_eq_bind, Option.bind_some, FMap.find?_set]
    by_cases hu : u = tb
    · subst hu
      simp only [if_true, hI, Option.bind_some, FMap.find?_set]
      by_cases hm : m = n
      · subst hm
        simp [hx, hd]
      · simp [hm]
    · simp [hu]

theorem updateLoop_data {r : String} : ∀ (l : List String) (H H' : HIRM F), updateLoop r l H = .ok H' → ∀ m, H'.dataOf m = H.dataOf m := by
  intro l
  induction l with
  | nil => intro H H' hc m; cases hc; rfl
  | cons n l ih =>
    intro H H' hc m
    obtain ⟨⟨tb, I⟩, h1, h2⟩ := bind_ok.mp hc
    obtain ⟨⟨id, rel⟩, h3, h4⟩ := bind_ok.mp h2
    cases rel with
    | clean c q => cases h4
    | noisy e p q =>
      obtain ⟨_, _, h5⟩ := bind_ok.mp h4
      rw [ih _ _ h5]
      have hI : H.irms.find? tb = some I := (relationToIrm_ok.mp h1).2
      exact dataOf_setRel hI (FMap.atKey_ok.mp h3) (by rfl) m

theorem updateBase_data {H H' : HIRM F} {r : String} (hc : H.updateBase r = .ok H') (m : String) : H'.dataOf m = H.dataOf m := by
  unfold updateBase at hc
  split at hc
  · cases hc; rfl
  · exact updateLoop_data _ _ _ hc m

/-- an HIRM whose IRMs agree with the old HIRM has the same observations -/
theorem Skel.sameData {H H' : HIRM F} (h : Skel H) (h' : Skel H') (hs : H'.schema = H.schema)
    (info : ∀ tb I, H'.irms.find? tb = some I → ∀ n, I.rels.contains n = true → H.Info I n) (n : String) : H'.dataOf n = H.dataOf n := by
  cases hn : H'.schema.contains n with
  | true =>
    obtain ⟨tb, hT⟩ := h'.table_some hn
    obtain ⟨I, hI, hr⟩ := h'.irm hT
    rw [dataOf_irm hI hT]
    exact (info tb I hI n hr).2
  | false =>
    have h1 : H'.tableOf n = none := by
      cases hT : H'.tableOf n with
      | none => rfl
      | some tb => rw [tableOf_known h' hT] at hn; cases hn
    have h2 : H.tableOf n = none := by
      cases hT : H.tableOf n with
      | none => rfl
      | some tb => rw [hs, tableOf_known h hT] at hn; cases hn
    unfold dataOf relOf
    rw [h1, h2]
    rfl

/-- what the end of a move leaves behind, besides the invariant -/
structure MovedTo (r : String) (tb : Int) (H H' : HIRM F) : Prop where
  schema : H'.schema = H.schema
  relToCode : H'.relToCode = H.relToCode
  baseToNoisy : H'.baseToNoisy = H.baseToNoisy
  data : ∀ n, H'.dataOf n = H.dataOf n
  tables : ∀ n, H'.tableOf n = if n = r then some tb else H.tableOf n

theorem transitionRelation_skel {H H' : HIRM F} (h : Skel H) {r : String} {t t' : Tape} (hc : H.transitionRelation r t = .ok (H', t')) :
    Skel H' ∧ ∃ tb, MovedTo r tb H H' := by
  obtain ⟨rc, h1, hc⟩ := bind_ok.mp hc
  obtain ⟨cur, h2, hc⟩ := bind_ok.mp hc
  obtain ⟨⟨p, rel⟩, h0, hc⟩ := bind_ok.mp hc
  obtain ⟨spec, h3, hc⟩ := bind_ok.mp hc
  obtain ⟨w, _, hc⟩ := bind_ok.mp hc
  obtain ⟨⟨lps, H1, aux, t1⟩, h4, hc⟩ := bind_ok.mp hc
  obtain ⟨ch, h5, hc⟩ := bind_ok.mp hc
  obtain ⟨H2, h6, hc⟩ := bind_ok.mp hc
  cases hc
  have hrc := FMap.atKey_ok.mp h1
  have hcur : H.tableOf r = some cur := by unfold tableOf; rw [hrc]; exact FMap.atKey_ok.mp h2
  have hdata : H.dataOf r = some rel.data := by
    obtain ⟨tb, id, h1, _⟩ := getRelation_ok.mp h0
    unfold dataOf; rw [h1]; rfl
  have hnd : ((shuffle w.entries t).1.map Prod.fst).Nodup :=
    ((shuffle_perm w.entries t).map _).nodup_iff.mpr (FMap.nodupKeys w)
  obtain ⟨hl, hS, _⟩ := scoreTables_inv _ _ _ _ _ _ _ _ hnd (fun _ _ h => by cases h) h4
  have hch : ch.1 ∈ (shuffle w.entries t).1.map Prod.fst := by
    rw [← hl]
    exact List.mem_map_of_mem (idxR_mem h5)
  obtain ⟨m, h7, hc⟩ := bind_ok.mp h6
  obtain ⟨c1, h8, hc⟩ := bind_ok.mp hc
  obtain ⟨c2, h9, hc⟩ := bind_ok.mp hc
  obtain ⟨_, _, hc⟩ := bind_ok.mp hc
  have hperm := shuffle_perm H1.crp.tables.keys (draw lps.length t1).2
  have h10 : (shuffle H1.crp.tables.keys (draw lps.length t1).2).1.Perm H.crp.tables.keys := by
    have e : H1.crp.tables.keys = H.crp.tables.keys := by rw [hS.crp]
    exact hperm.trans (by rw [e])
  obtain ⟨k1, k2, k3, k4⟩ := settle_moved h hcur (FMap.atKey_ok.mp h3) hdata hS hch h10 h7 rfl
  rw [hS.crp] at h8
  have hm := h.moved (H' := { H1 with irms := withAux aux ch.1 m, crp := c2 }) hrc hS.schema hS.relToCode hS.codeToRel h8 h9 k1 k2 k3
    (fun tb I hI n hn => (k4 tb I hI n hn).1)
  have hk := updateBase_keys hc
  refine ⟨hk.skel hm.1, ch.1, ⟨hk.schema.trans hS.schema, hk.relToCode.trans hS.relToCode, hk.baseToNoisy.trans hS.baseToNoisy, fun n => ?_,
    fun n => (hk.tableOf n).trans (hm.2 n)⟩⟩
  rw [updateBase_data hc]
  exact h.sameData hm.1 hS.schema k4 n

/-- the IRMs of `set_cluster_assignment_gibbs` before the relation is added again -/
def setIrms (m : FMap Int (IRM F)) (cur table : Int) (I1 : IRM F) : FMap Int (IRM F) :=
  let irms := if I1.rels.size = 0 then m.erase cur else m.set cur I1
  if irms.contains table then irms else irms.set table {}

/-- `set_cluster_assignment_gibbs` before the base pointers are updated -/
theorem set_moved {H : HIRM F} (h : Skel H) {r : String} {cur table rc : Int} {spec : RelSpec F} {d : FMap Items V} {I0 I1 I2 I3 : IRM F} {c1 c2 : CRP}
    (hrc : H.relToCode.find? r = some rc) (hcur : H.tableOf r = some cur) (hspec : H.schema.find? r = some spec) (hdata : H.dataOf r = some d)
    (hI0 : H.irms.find? cur = some I0) (h5 : I0.removeRelation r = .ok I1) (hI2 : (setIrms H.irms cur table I1).find? table = some I2)
    (hW : With r spec d I2 I3) (h8 : H.crp.unincorporate rc = .ok c1) (h9 : c1.incorporate rc table = .ok c2) :
    (Skel { H with irms := (setIrms H.irms cur table I1).set table I3, crp := c2, next := H.next + 1 } ∧
      ∀ n, tableOf { H with irms := (setIrms H.irms cur table I1).set table I3, crp := c2, next := H.next + 1 } n = if n = r then some table else H.tableOf n) ∧
    ∀ tb I, ((setIrms H.irms cur table I1).set table I3).find? tb = some I → ∀ n, I.rels.contains n = true → H.Info I n := by
  obtain ⟨_, hk1, hk2⟩ := IRM.removeRelation_keys h5
  have hse : setIrms H.irms cur table I1 = (if (if I1.rels.size = 0 then H.irms.erase cur else H.irms.set cur I1).contains table then
    (if I1.rels.size = 0 then H.irms.erase cur else H.irms.set cur I1) else
    (if I1.rels.size = 0 then H.irms.erase cur else H.irms.set cur I1).set table {}) := rfl
  rw [hse] at hI2 ⊢
  -- the IRMs without the relation
  set m1 : FMap Int (IRM F) := if I1.rels.size = 0 then H.irms.erase cur else H.irms.set cur I1 with hm1
  have hp1 : ∀ tb I, m1.find? tb = some I → (∀ n, I.rels.contains n = true ↔ n ≠ r ∧ H.tableOf n = some tb) ∧ I.rels.size ≠ 0 ∧
      ∀ n, I.rels.contains n = true → H.Info I n := by
    intro tb I hI
    have hcase : (tb = cur ∧ I = I1 ∧ I1.rels.size ≠ 0) ∨ (tb ≠ cur ∧ H.irms.find? tb = some I) := by
      rw [hm1] at hI
      split at hI
      · rw [FMap.find?_erase] at hI
        split at hI
        · cases hI
        · exact .inr ⟨by assumption, hI⟩
      · rw [FMap.find?_set] at hI
        split at hI
        · cases hI; exact .inl ⟨by assumption, rfl, by assumption⟩
        · exact .inr ⟨by assumption, hI⟩
    rcases hcase with ⟨rfl, rfl, hz⟩ | ⟨hne, hI'⟩
    · refine ⟨fun n => by rw [hk2, contains_erase, h.place _ _ hI0], hz, fun n hn => ?_⟩
      rw [hk2, contains_erase] at hn
      unfold Info
      rw [hk1, FMap.find?_erase_ne _ hn.1, IRM.removeRelation_data h5 hn.1]
      exact h.info hI0 hn.2
    · refine ⟨fun n => ?_, fun hz => ?_, fun n hn => h.info hI' hn⟩
      · rw [h.place tb I hI']
        refine ⟨fun hn => ⟨?_, hn⟩, fun hn => hn.2⟩
        rintro rfl
        rw [hcur] at hn
        exact hne (Option.some.inj hn).symm
      · obtain ⟨n, hn⟩ := h.inhabited hI'
        rw [size_zero_iff.mp hz n] at hn
        cases hn
  have hn1 : ∀ tb, m1.find? tb = none → ∀ n, n ≠ r → H.tableOf n ≠ some tb := by
    intro tb hI n hn hT
    obtain ⟨I, hI', hIn⟩ := h.irm hT
    rw [hm1] at hI
    split at hI
    · rename_i hz
      rw [FMap.find?_erase] at hI
      split at hI
      · rename_i e
        subst e
        rw [hI0] at hI'; cases hI'
        have : I1.rels.contains n = true := by rw [hk2]; exact contains_erase.mpr ⟨hn, hIn⟩
        rw [size_zero_iff.mp hz n] at this; cases this
      · rw [hI'] at hI; cases hI
    · rw [FMap.find?_set] at hI
      split at hI
      · cases hI
      · rw [hI'] at hI; cases hI
  set m2 : FMap Int (IRM F) := if m1.contains table then m1 else m1.set table {} with hm2
  have hfind : ∀ tb, tb ≠ table → m2.find? tb = m1.find? tb := by
    intro tb hne
    rw [hm2]
    split
    · rfl
    · rw [FMap.find?_set_ne _ hne]
  -- the relations of the target, before and after
  have htarget : (∀ n, I2.rels.contains n = true ↔ n ≠ r ∧ H.tableOf n = some table) ∧
      ∀ n, I2.rels.contains n = true → H.Info I2 n := by
    rw [hm2] at hI2
    split at hI2
    · exact ⟨(hp1 table I2 hI2).1, (hp1 table I2 hI2).2.2⟩
    · rename_i hcon
      rw [FMap.find?_set_self] at hI2
      cases hI2
      refine ⟨fun n => ⟨fun hn => (by cases hn), fun hn => ?_⟩, fun n hn => (by cases hn)⟩
      exact absurd hn.2 (hn1 table (FMap.contains_false.mp (by simpa using hcon)) n hn.1)
  have htarget' : (∀ n, I3.rels.contains n = true ↔ n = r ∨ H.tableOf n = some table) ∧
      ∀ n, I3.rels.contains n = true → H.Info I3 n := by
    refine ⟨fun n => ?_, fun n hn => ?_⟩
    · rw [hW.rels, htarget.1]
      tauto
    · unfold Info
      rw [hW.schema, FMap.find?_set, hW.data]
      split
      · rename_i e; rw [e, hspec, hdata]; exact ⟨rfl, rfl⟩
      · rename_i hne
        exact htarget.2 n (((hW.rels n).mp hn).resolve_left hne)
  have hinfo : ∀ tb I, (m2.set table I3).find? tb = some I → ∀ n, I.rels.contains n = true → H.Info I n := by
    intro tb I hI
    rw [FMap.find?_set] at hI
    split at hI
    · cases hI
      exact htarget'.2
    · rename_i hne
      rw [hfind tb hne] at hI
      exact (hp1 tb I hI).2.2
  have hm : Skel { H with irms := m2.set table I3, crp := c2, next := H.next + 1 } ∧
      ∀ n, tableOf { H with irms := m2.set table I3, crp := c2, next := H.next + 1 } n = if n = r then some table else H.tableOf n := by
    refine h.moved (choice := table) hrc rfl rfl rfl h8 h9 ?_ ?_ ?_ (fun tb I hI n hn => (hinfo tb I hI n hn).1)
    · intro tb I hI n
      dsimp only at hI
      rw [FMap.find?_set] at hI
      split at hI
      · rename_i e; subst e; cases hI
        rw [htarget'.1]
        by_cases e : n = r <;> simp [e]
      · rename_i hne
        rw [hfind tb hne] at hI
        rw [(hp1 tb I hI).1]
        by_cases e : n = r <;> simp [e, hne]
    · intro tb hI
      dsimp only at hI
      rw [FMap.find?_set] at hI
      split at hI
      · cases hI
      · rename_i hne
        rw [hfind tb hne] at hI
        exact ⟨hne, hn1 tb hI⟩
    · intro tb I hI
      dsimp only at hI
      rw [FMap.find?_set] at hI
      split at hI
      · cases hI
        exact ⟨r, (htarget'.1 r).mpr (.inl rfl)⟩
      · rename_i hne
        rw [hfind tb hne] at hI
        have hz := (hp1 tb I hI).2.1
        by_contra hno
        push Not at hno
        exact hz (size_zero_iff.mpr fun n => by simpa using hno n)
  exact ⟨hm, hinfo⟩

theorem setClusterAssignmentGibbs_skel {H H' : HIRM F} (h : Skel H) {r : String} {table : Int} {t t' : Tape}
    (hc : H.setClusterAssignmentGibbs r table t = .ok (H', t')) : Skel H' ∧ MovedTo r table H H' := by
  obtain ⟨_, _, hc⟩ := bind_ok.mp hc
  obtain ⟨rc, h1, hc⟩ := bind_ok.mp hc
  obtain ⟨cur, h2, hc⟩ := bind_ok.mp hc
  obtain ⟨⟨p, rel⟩, h0, hc⟩ := bind_ok.mp hc
  obtain ⟨spec, h3, hc⟩ := bind_ok.mp hc
  obtain ⟨I0, h4, hc⟩ := bind_ok.mp hc
  obtain ⟨I1, h5, hc⟩ := bind_ok.mp hc
  obtain ⟨I2, h6, hc⟩ := bind_ok.mp hc
  obtain ⟨⟨I3, t3⟩, h7, hc⟩ := bind_ok.mp hc
  obtain ⟨c1, h8, hc⟩ := bind_ok.mp hc
  obtain ⟨c2, h9, hc⟩ := bind_ok.mp hc
  obtain ⟨H2, h10, hc⟩ := bind_ok.mp hc
  obtain ⟨_, _, hc⟩ := bind_ok.mp hc
  cases hc
  have hrc := FMap.atKey_ok.mp h1
  have hcur : H.tableOf r = some cur := by unfold tableOf; rw [hrc]; exact FMap.atKey_ok.mp h2
  have hspec := FMap.atKey_ok.mp h3
  have hdata : H.dataOf r = some rel.data := by
    obtain ⟨tb, id, h1, _⟩ := getRelation_ok.mp h0
    unfold dataOf; rw [h1]; rfl
  have hI0 := FMap.atKey_ok.mp h4
  have hW := putRelation_with h7
  obtain ⟨hm, hinfo⟩ := set_moved h (table := table) hrc hcur hspec hdata hI0 h5 (FMap.atKey_ok.mp h6) hW h8 h9
  have hk := updateBase_keys h10
  refine ⟨hk.skel hm.1, ⟨hk.schema, hk.relToCode, hk.baseToNoisy, fun n => ?_, fun n => (hk.tableOf n).trans (hm.2 n)⟩⟩
  rw [updateBase_data h10]
  exact h.sameData hm.1 rfl hinfo n

/-- what `add_relation` does when it returns -/
theorem addRelation_inv {H H' : HIRM F} {name : String} {spec : RelSpec F} {t t' : Tape} (hc : H.addRelation name spec t = .ok (H', t')) :
    H.schema.contains name = false ∧ H'.schema = H.schema.set name spec ∧ H.relToCode.contains name = false ∧
    ∃ rc tb I c' J, rc = 1 + H.codeToRel.maxKey?.getD 0 ∧ tb ∈ H.crp.tablesWeights.keys ∧ H.codeToRel.contains rc = false ∧
      H.crp.incorporate rc tb = .ok c' ∧ H'.crp = c' ∧ H'.relToCode = H.relToCode.set name rc ∧ H'.codeToRel = H.codeToRel.set rc name ∧
      J = (H.irms.find? tb).getD {} ∧ With name spec ∅ J I ∧ H'.irms = H.irms.set tb I := by
  obtain ⟨_, h1, hc⟩ := bind_ok.mp hc
  have h1 : H.schema.contains name = false := by simpa using assertR_ok.mp h1
  obtain ⟨c', h2, hc⟩ := bind_ok.mp hc
  -- the rest, for whatever the table of noisy relations became
  have key : ∀ btn : FMap String (List String), (do
      let H2 : HIRM F := { H with
        schema := H.schema.set name spec, crp := c', baseToNoisy := btn,
        irms := if H.irms.contains (H.crp.sample t).1 then H.irms else H.irms.set (H.crp.sample t).1 {} }
      let I ← H2.irms.atKey (H.crp.sample t).1
      let I ← H2.addRelationToIrm I name spec
      assertR (!H2.relToCode.contains name)
      assertR (!H2.codeToRel.contains (1 + H.codeToRel.maxKey?.getD 0))
      .ok ({ H2 with
        irms := H2.irms.set (H.crp.sample t).1 I, relToCode := H2.relToCode.set name (1 + H.codeToRel.maxKey?.getD 0),
        codeToRel := H2.codeToRel.set (1 + H.codeToRel.maxKey?.getD 0) name, next := H2.next + 1 }, (H.crp.sample t).2) : Res (HIRM F × Tape)) =
        .ok (H', t') →
      H'.schema = H.schema.set name spec ∧ H.relToCode.contains name = false ∧
      ∃ rc tb I c' J, rc = 1 + H.codeToRel.maxKey?.getD 0 ∧ tb ∈ H.crp.tablesWeights.keys ∧ H.codeToRel.contains rc = false ∧
        H.crp.incorporate rc tb = .ok c' ∧ H'.crp = c' ∧ H'.relToCode = H.relToCode.set name rc ∧ H'.codeToRel = H.codeToRel.set rc name ∧
        J = (H.irms.find? tb).getD {} ∧ With name spec ∅ J I ∧ H'.irms = H.irms.set tb I := by
    intro btn hc
    obtain ⟨J, h3, hc⟩ := bind_ok.mp hc
    obtain ⟨I, h4, hc⟩ := bind_ok.mp hc
    obtain ⟨_, h5, hc⟩ := bind_ok.mp hc
    obtain ⟨_, h6, hc⟩ := bind_ok.mp hc
    cases hc
    refine ⟨rfl, by simpa using assertR_ok.mp h5, _, _, I, c', J, rfl, CRP.sample_mem _ _, by simpa using assertR_ok.mp h6, h2, rfl, rfl, rfl,
      ?_, addRelationToIrm_with h4, ?_⟩
    · have := FMap.atKey_ok.mp h3
      dsimp only at this
      split at this
      · rw [this]; rfl
      · rename_i hn
        rw [FMap.find?_set_self] at this
        cases this
        rw [FMap.contains_false.mp (by simpa using hn)]; rfl
    · dsimp only
      split
      · rfl
      · rw [FMap.set_set]
  cases spec with
  | clean c ds o =>
    dsimp only at hc
    obtain ⟨b, hb, hc⟩ := bind_ok.mp hc
    cases hb
    exact ⟨h1, key _ hc⟩
  | noisy e ds b o =>
    dsimp only at hc
    split at hc
    · obtain ⟨_, _, hc⟩ := bind_ok.mp hc
      cases hc
    · obtain ⟨b, hb, hc⟩ := bind_ok.mp hc
      cases hb
      exact ⟨h1, key _ hc⟩

theorem addRelation_skel {H H' : HIRM F} (h : Skel H) {name : String} {spec : RelSpec F} {t t' : Tape}
    (hc : H.addRelation name spec t = .ok (H', t')) : Skel H' := by
  obtain ⟨h1, hs, h2, rc, tb, I, c', J, _, _, h3, h4, hcr, h5, h6, hJ, hW, hir⟩ := addRelation_inv hc
  obtain ⟨hw, ha, _⟩ := crp_incorporate h.crp h4
  have h2' := FMap.contains_false.mp h2
  have h3' := FMap.contains_false.mp h3
  have hassign : ∀ c, H'.crp.assignments.find? c = if c = rc then some tb else H.crp.assignments.find? c := by
    intro c; rw [hcr, ha, FMap.find?_set]
  have htab : ∀ n, H'.tableOf n = if n = name then some tb else H.tableOf n := by
    intro n
    unfold tableOf
    rw [h5, FMap.find?_set]
    split
    · simp [hassign]
    · rename_i hn
      cases hf : H.relToCode.find? n with
      | none => rfl
      | some c =>
        have : c ≠ rc := by
          rintro rfl
          rw [(h.codes n c).mp hf] at h3'; cases h3'
        simp [hassign, this]
  have codes' : ∀ n c, H'.relToCode.find? n = some c ↔ H'.codeToRel.find? c = some n := by
    intro n c
    rw [h5, h6, FMap.find?_set, FMap.find?_set]
    by_cases hn : n = name
    · subst hn
      by_cases hcc : c = rc
      · subst hcc; simp
      · rw [if_pos rfl, if_neg hcc, ← h.codes, h2']
        simp [Ne.symm hcc]
    · rw [if_neg hn]
      by_cases hcc : c = rc
      · subst hcc
        rw [if_pos rfl, h.codes, h3']
        simp [Ne.symm hn]
      · rw [if_neg hcc, h.codes]
  have seated' : ∀ c, H'.crp.assignments.contains c = H'.codeToRel.contains c := by
    intro c
    have := h.seated c
    simp only [FMap.contains] at this ⊢
    rw [hassign, h6, FMap.find?_set]
    split
    · rfl
    · exact this
  have hno : H.tableOf name = none := by unfold tableOf; rw [h2']; rfl
  have hJp : (∀ n, J.rels.contains n = true ↔ H.tableOf n = some tb) ∧ ∀ n, J.rels.contains n = true → J.schema.find? n = H.schema.find? n := by
    cases hf : H.irms.find? tb with
    | some I0 =>
      rw [hf] at hJ
      subst hJ
      exact ⟨h.place tb _ hf, h.specs tb _ hf⟩
    | none =>
      rw [hf] at hJ
      subst hJ
      refine ⟨fun n => ⟨fun hn => (by cases hn), fun hn => ?_⟩, fun n hn => (by cases hn)⟩
      obtain ⟨I0, hI0, _⟩ := h.irm hn
      rw [hf] at hI0; cases hI0
  have place' : ∀ tb I, H'.irms.find? tb = some I → ∀ n, I.rels.contains n = true ↔ H'.tableOf n = some tb := by
    intro u K hK n
    rw [hir, FMap.find?_set] at hK
    rw [htab]
    split at hK
    · rename_i e; subst e; cases hK
      rw [hW.rels, hJp.1]
      split <;> simp_all
    · rename_i hne
      rw [h.place u K hK]
      split
      · rename_i e; subst e
        rw [hno]
        simp [Ne.symm hne]
      · rfl
  refine ⟨by rw [hcr]; exact hw, ?_, codes', seated', ?_, place', ?_⟩
  · refine tables_of (by rw [hcr]; exact hw) codes' seated' place' ?_ ?_
    · intro n u hn
      rw [hir]
      rw [htab] at hn
      refine IRM.contains_set.mpr ?_
      split at hn
      · exact .inl (Option.some.inj hn).symm
      · obtain ⟨K, hK, _⟩ := h.irm hn
        exact .inr (FMap.contains_iff.mpr ⟨K, hK⟩)
    · intro u K hK
      rw [hir, FMap.find?_set] at hK
      split at hK
      · cases hK; exact ⟨name, (hW.rels name).mpr (.inl rfl)⟩
      · exact h.inhabited hK
  · intro n
    have := h.schema n
    simp only [FMap.contains] at this ⊢
    rw [hs, h5, FMap.find?_set, FMap.find?_set]
    split
    · rfl
    · exact this
  · intro u K hK n hn
    rw [hir, FMap.find?_set] at hK
    have hold : ∀ K : IRM F, n ≠ name → K.schema.find? n = H.schema.find? n → K.schema.find? n = H'.schema.find? n := by
      intro K hne hK; rw [hs, FMap.find?_set_ne _ hne]; exact hK
    split at hK
    · rename_i e; subst e; cases hK
      by_cases hne : n = name
      · subst hne; rw [hW.schema, hs, FMap.find?_set_self, FMap.find?_set_self]
      · refine hold _ hne ?_
        rw [hW.schema, FMap.find?_set_ne _ hne]
        exact hJp.2 n (((hW.rels n).mp hn).resolve_left hne)
    · have hne : n ≠ name := by
        rintro rfl
        rw [h.place u K hK, hno] at hn; cases hn
      exact hold K hne (h.specs u K hK n hn)

/-- what `remove_relation` does when it returns -/
theorem removeRelation_inv {H H' : HIRM F} {name : String} (hc : H.removeRelation name = .ok H') :
    ∃ rc tb s c' I I', H.relToCode.find? name = some rc ∧ H.crp.assignments.find? rc = some tb ∧ H.crp.tables.find? tb = some s ∧
      H.crp.unincorporate rc = .ok c' ∧ H.irms.find? tb = some I ∧ I.removeRelation name = .ok I' ∧
      (s.size = 1 → I'.rels.size = 0) ∧
      H' = { H with
        schema := H.schema.erase name, crp := c', relToCode := H.relToCode.erase name, codeToRel := H.codeToRel.erase rc,
        irms := if s.size = 1 then H.irms.erase tb else H.irms.set tb I' } := by
  obtain ⟨rc, h1, hc⟩ := bind_ok.mp hc
  obtain ⟨tb, h2, hc⟩ := bind_ok.mp hc
  obtain ⟨s, h3, hc⟩ := bind_ok.mp hc
  obtain ⟨c', h4, hc⟩ := bind_ok.mp hc
  obtain ⟨I, h5, hc⟩ := bind_ok.mp hc
  obtain ⟨I', h6, hc⟩ := bind_ok.mp hc
  dsimp only at hc
  refine ⟨rc, tb, s, c', I, I', FMap.atKey_ok.mp h1, FMap.atKey_ok.mp h2, FMap.atKey_ok.mp h3, h4, FMap.atKey_ok.mp h5, h6, ?_⟩
  split at hc
  · rename_i hz
    obtain ⟨_, h7, hc⟩ := bind_ok.mp hc
    obtain ⟨m, h8, hc⟩ := bind_ok.mp hc
    cases h8; cases hc
    exact ⟨fun _ => by simpa using assertR_ok.mp h7, by rw [if_pos hz]⟩
  · rename_i hz
    obtain ⟨m, h8, hc⟩ := bind_ok.mp hc
    cases h8; cases hc
    exact ⟨fun h => absurd h hz, by rw [if_neg hz]⟩

theorem removeRelation_skel {H H' : HIRM F} (h : Skel H) {name : String} (hc : H.removeRelation name = .ok H') : Skel H' := by
  obtain ⟨rc, tb, s, c', I, I', hrc, htb, hs, hu, hI, hI', hsz, rfl⟩ := removeRelation_inv hc
  obtain ⟨hw, ha, _⟩ := crp_unincorporate h.crp hu
  obtain ⟨_, hk1, hk2⟩ := IRM.removeRelation_keys hI'
  have hT : H.tableOf name = some tb := by unfold tableOf; rw [hrc]; exact htb
  have hassign : ∀ c, c'.assignments.find? c = if c = rc then none else H.crp.assignments.find? c := by
    intro c; rw [ha, FMap.find?_erase]
  -- the table is a singleton exactly when the relation is alone
  have hsingle : s.size = 1 → ∀ n, n ≠ name → H.tableOf n ≠ some tb := by
    intro h1 n hn hT'
    have := size_zero_iff.mp (hsz h1) n
    rw [hk2] at this
    have h2 := contains_erase.mpr ⟨hn, (h.place tb I hI n).mpr hT'⟩
    rw [this] at h2; cases h2
  have hmany : s.size ≠ 1 → ∃ n, n ≠ name ∧ H.tableOf n = some tb := by
    intro h1
    have hm : rc ∈ s.keys := by
      obtain ⟨s', hs', hm⟩ := (h.crp.mem rc tb).mp htb
      rw [hs] at hs'; cases hs'; exact hm
    obtain ⟨u, hu'⟩ := FMap.mem_keys.mp hm
    have hsz := FMap.size_erase hu'
    have : (FMap.erase s rc).size ≠ 0 := by omega
    rw [Ne, size_zero_iff] at this
    push Not at this
    obtain ⟨c, hc⟩ := this
    have hc : (FMap.erase s rc).contains c = true := by simpa using hc
    obtain ⟨hne, hc⟩ := contains_erase.mp hc
    obtain ⟨n, hn, hnT⟩ := h.name ((h.crp.mem c tb).mpr ⟨s, hs, FMap.contains_iff_mem.mp hc⟩)
    exact ⟨n, by rintro rfl; rw [hrc] at hn; exact hne (Option.some.inj hn).symm, hnT⟩
  set H' : HIRM F := { H with
        schema := H.schema.erase name, crp := c', relToCode := H.relToCode.erase name, codeToRel := H.codeToRel.erase rc,
        irms := if s.size = 1 then H.irms.erase tb else H.irms.set tb I' } with hH'
  have htab : ∀ n, H'.tableOf n = if n = name then none else H.tableOf n := by
    intro n
    unfold tableOf
    rw [hH']
    dsimp only
    rw [FMap.find?_erase]
    split
    · rfl
    · rename_i hn
      cases hf : H.relToCode.find? n with
      | none => rfl
      | some c =>
        have : c ≠ rc := fun e => hn (h.code_inj hf (e ▸ hrc))
        simp [hassign, this]
  have hfind : ∀ u K, H'.irms.find? u = some K → (u = tb ∧ K = I' ∧ s.size ≠ 1) ∨ (u ≠ tb ∧ H.irms.find? u = some K) := by
    intro u K hK
    rw [hH'] at hK
    dsimp only at hK
    split at hK
    · rw [FMap.find?_erase] at hK
      split at hK
      · cases hK
      · exact .inr ⟨by assumption, hK⟩
    · rw [FMap.find?_set] at hK
      split at hK
      · cases hK; exact .inl ⟨by assumption, rfl, by assumption⟩
      · exact .inr ⟨by assumption, hK⟩
  have codes' : ∀ n c, H'.relToCode.find? n = some c ↔ H'.codeToRel.find? c = some n := by
    intro n c
    rw [hH']
    dsimp only
    rw [FMap.find?_erase, FMap.find?_erase]
    by_cases hn : n = name
    · subst hn
      by_cases hcc : c = rc
      · subst hcc; simp
      · rw [if_pos rfl, if_neg hcc, ← h.codes, hrc]
        simp [Ne.symm hcc]
    · rw [if_neg hn]
      by_cases hcc : c = rc
      · subst hcc
        rw [if_pos rfl]
        refine ⟨fun e => absurd (h.code_inj e hrc) hn, fun e => by cases e⟩
      · rw [if_neg hcc, h.codes]
  have seated' : ∀ c, H'.crp.assignments.contains c = H'.codeToRel.contains c := by
    intro c
    have := h.seated c
    simp only [FMap.contains] at this ⊢
    rw [hH']
    dsimp only
    rw [hassign, FMap.find?_erase]
    split
    · rfl
    · exact this
  have place' : ∀ tb I, H'.irms.find? tb = some I → ∀ n, I.rels.contains n = true ↔ H'.tableOf n = some tb := by
    intro u K hK n
    rw [htab]
    rcases hfind u K hK with ⟨rfl, rfl, _⟩ | ⟨hne, hK'⟩
    · rw [hk2, contains_erase, h.place _ _ hI]
      split <;> simp_all
    · rw [h.place u K hK']
      split
      · rename_i e; subst e
        rw [hT]
        simp [Ne.symm hne]
      · rfl
  refine ⟨hw, ?_, codes', seated', ?_, place', ?_⟩
  · refine tables_of hw codes' seated' place' ?_ ?_
    · intro n u hn
      rw [htab] at hn
      split at hn
      · cases hn
      · rename_i hne
        obtain ⟨K, hK, _⟩ := h.irm hn
        have hKc : H.irms.contains u = true := FMap.contains_iff.mpr ⟨K, hK⟩
        rw [hH']
        dsimp only
        split
        · rename_i h1
          exact contains_erase.mpr ⟨by rintro rfl; exact hsingle h1 n hne hn, hKc⟩
        · exact IRM.contains_set.mpr (.inr hKc)
    · intro u K hK
      rcases hfind u K hK with ⟨rfl, rfl, h1⟩ | ⟨_, hK'⟩
      · obtain ⟨n, hn, hnT⟩ := hmany h1
        exact ⟨n, by rw [hk2]; exact contains_erase.mpr ⟨hn, (h.place _ _ hI n).mpr hnT⟩⟩
      · exact h.inhabited hK'
  · intro n
    have := h.schema n
    simp only [FMap.contains] at this ⊢
    rw [hH']
    dsimp only
    rw [FMap.find?_erase, FMap.find?_erase]
    split
    · rfl
    · exact this
  · intro u K hK n hn
    have hne : n ≠ name := by
      rintro rfl
      rw [place' u K hK, htab, if_pos rfl] at hn; cases hn
    have e : H'.schema.find? n = H.schema.find? n := by
      rw [hH']; exact FMap.find?_erase_ne _ hne
    rw [e]
    rcases hfind u K hK with ⟨rfl, rfl, h1⟩ | ⟨_, hK'⟩
    · rw [hk1, FMap.find?_erase_ne _ hne]
      rw [hk2, contains_erase] at hn
      exact h.specs _ _ hI n hn.2
    · exact h.specs u K hK' n hn

theorem History.skel {H : HIRM F} (h : History H) : Skel H := by
  induction h with
  | empty => exact skel_empty
  | add _ hc ih => exact addRelation_skel ih hc
  | remove _ hc ih => exact removeRelation_skel ih hc
  | incorporate _ hc ih => exact (incorporate_keys hc).skel ih
  | unincorporate _ hc ih => exact (unincorporate_keys hc).skel ih
  | move _ hc ih => exact (transitionRelation_skel ih hc).1
  | set _ hc ih => exact (setClusterAssignmentGibbs_skel ih hc).1
  | latent _ hc ih => exact (transitionLatentRelation_keys hc).skel ih
  | item _ hI hc ih => exact (SameKeys.setIrm hI (IRM.transitionItem_keys hc).toKeys).skel ih
  | step _ hc ih => exact (stepIrms_keys _ _ _ _ hc).skel ih
  | logp _ hc ih => exact (logp_keys hc).skel ih
  | sampleOne _ hc ih => exact (sampleRelation_keys _ _ _ _ _ _ hc).skel ih
  | @seat H tb I d dom dom' i table t t' _ hI _ _ ih =>
    exact (SameKeys.setIrm (I' := { I with doms := I.doms.set d dom' }) hI ⟨rfl, fun _ => rfl⟩).skel ih
  | sample _ hc ih => exact (sampleAndIncorporate_keys hc).skel ih
  | cleanup _ hc ih => exact (cleanupLoop_keys _ _ _ hc).skel ih

end HIRM
end
end Verif
