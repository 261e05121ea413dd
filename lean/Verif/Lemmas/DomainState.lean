import Verif.Lemmas.HIRMNext
/-!
Properties of the single domains that every operation on an IRM or HIRM keeps.
-/
namespace Verif
noncomputable section
variable {V : Type}

/-- a property of domains that a new domain has and that the operations on domains keep, if the entities that come in have the property `Q` -/
structure DomClosed (P : String → Domain → Prop) (Q : String → Int → Prop) : Prop where
  new : ∀ d, P d { name := d }
  incorporate : ∀ {d dom dom' i table t t'}, Q d i → P d dom → dom.incorporate i t table = .ok (dom', t') → P d dom'
  unincorporate : ∀ {d dom dom' i}, P d dom → dom.unincorporate i = .ok dom' → P d dom'
  move : ∀ {d dom dom' i w tb}, P d dom → dom.tablesWeightsGibbs i = .ok w → tb ∈ w.keys → dom.setClusterAssignmentGibbs i tb = .ok dom' → P d dom'
  alpha : ∀ {d dom} (t : Tape), P d dom → P d { dom with crp := (dom.crp.transitionAlpha t).1 }

/-- every domain of the store has the property -/
def DomAll (P : String → Domain → Prop) (σ : Doms) : Prop := ∀ d dom, σ.find? d = some dom → P d dom

variable {P : String → Domain → Prop} {Q : String → Int → Prop}

theorem DomAll.set {σ : Doms} (h : DomAll P σ) {d : String} {dom : Domain} (hd : P d dom) : DomAll P (σ.set d dom) := by
  intro d' dom' h'
  rw [FMap.find?_set] at h'
  split at h'
  · rename_i he
    cases h'
    subst he
    exact hd
  · exact h _ _ h'

theorem DomAll.erase {σ : Doms} (h : DomAll P σ) (d : String) : DomAll P (σ.erase d) := by
  intro d' dom' h'
  rw [FMap.find?_erase] at h'
  split at h'
  · cases h'
  · exact h _ _ h'

theorem CleanRel.incLoop_keeps (hP : DomClosed P Q) {items : Items} : ∀ (ds : List String) (is : Items) (σ : Doms) (m : RevIndex) (t : Tape)
    (x : Doms × RevIndex × Tape), CleanRel.incLoop items ds is σ m t = .ok x → (∀ d i, Uses ds d i is → Q d i) → DomAll P σ → DomAll P x.1 := by
  intro ds
  induction ds with
  | nil => intro is σ m t x hc _ h; cases hc; exact h
  | cons d ds ih =>
    intro is σ m t x hc hQ h
    cases is with
    | nil => cases hc
    | cons i is =>
      obtain ⟨dom, h1, h2⟩ := bind_ok.mp hc
      obtain ⟨⟨dom', t1⟩, h3, h4⟩ := bind_ok.mp h2
      obtain ⟨m', _, h6⟩ := bind_ok.mp h4
      exact ih _ _ _ _ _ h6 (fun d i hu => hQ d i (List.mem_cons_of_mem _ hu)) (h.set (hP.incorporate (hQ _ _ List.mem_cons_self) (h _ _ (Doms.get_ok h1)) h3))

theorem CleanRel.incorporateItems_keeps (hP : DomClosed P Q) {W : Type} {D : DistOps W} {σ : Doms} {r : CleanRel D} {items : Items} {t : Tape}
    {x : Items × Doms × CleanRel D × Tape} (hc : CleanRel.incorporateItems σ r items t = .ok x) (hQ : ∀ d i, Uses r.doms d i items → Q d i) (h : DomAll P σ) : DomAll P x.2.1 := by
  obtain ⟨_, _, h1⟩ := bind_ok.mp hc
  obtain ⟨y, h2, h3⟩ := bind_ok.mp h1
  obtain ⟨z, _, h4⟩ := bind_ok.mp h3
  have := CleanRel.incLoop_keeps hP _ _ _ _ _ _ h2 hQ h
  dsimp only at h4
  split at h4 <;> · cases h4; exact this

theorem CleanRel.incorporate_keeps (hP : DomClosed P Q) {W : Type} {D : DistOps W} {σ : Doms} {r : CleanRel D} {items : Items} {v : W} {t : Tape}
    {x : Doms × CleanRel D × Tape} (hc : CleanRel.incorporate σ r items v t = .ok x) (hQ : ∀ d i, Uses r.doms d i items → Q d i) (h : DomAll P σ) : DomAll P x.1 := by
  obtain ⟨y, h1, h2⟩ := bind_ok.mp hc
  obtain ⟨_, _, h3⟩ := bind_ok.mp h2
  obtain ⟨_, _, h4⟩ := bind_ok.mp h3
  cases h4
  exact CleanRel.incorporateItems_keeps hP h1 hQ h

/-- the domains in which `incorporate` seats the entities -/
def Rel.inner {F : Family V} : Rel F → List String
  | .clean _ r => r.doms
  | .noisy _ _ r => r.emission.doms

theorem Rel.Indexed.inner {F : Family V} {r : Rel F} (h : r.Indexed) : r.inner = r.doms := by
  cases r with
  | clean c r => rfl
  | noisy e p r => exact NoisyRel.Indexed.doms h

theorem Rel.incorporate_keeps (hP : DomClosed P Q) {F : Family V} {σ : Doms} {b : Option (BaseView V)} {r : Rel F} {items : Items} {v : V} {t : Tape}
    {x : Doms × Rel F × Tape} (hc : r.incorporate σ b items v t = .ok x) (hQ : ∀ d i, Uses r.inner d i items → Q d i) (h : DomAll P σ) : DomAll P x.1 := by
  cases r with
  | clean c r =>
    obtain ⟨y, h1, h2⟩ := bind_ok.mp hc
    cases h2
    exact CleanRel.incorporate_keeps hP h1 hQ h
  | noisy e p r =>
    obtain ⟨_, _, h0⟩ := bind_ok.mp hc
    obtain ⟨y, h1, h2⟩ := bind_ok.mp h0
    cases h2
    obtain ⟨_, _, h3⟩ := bind_ok.mp h1
    obtain ⟨_, _, h4⟩ := bind_ok.mp h3
    obtain ⟨y, h5, h6⟩ := bind_ok.mp h4
    cases h6
    exact CleanRel.incorporate_keeps hP h5 hQ h

theorem Rel.sampleAndIncorporate_keeps (hP : DomClosed P Q) {F : Family V} {σ : Doms} {b : Option (BaseView V)} {r : Rel F} {items : Items} {t : Tape}
    {x : V × Doms × Rel F × Tape} (hc : r.sampleAndIncorporate σ b items t = .ok x) (hQ : ∀ d i, Q d i) (h : DomAll P σ) : DomAll P x.2.1 := by
  cases r with
  | clean c r =>
    obtain ⟨y, h1, h2⟩ := bind_ok.mp hc
    cases h2
    obtain ⟨z, h3, h4⟩ := bind_ok.mp h1
    obtain ⟨_, _, h5⟩ := bind_ok.mp h4
    obtain ⟨_, _, h6⟩ := bind_ok.mp h5
    obtain ⟨_, _, h7⟩ := bind_ok.mp h6
    cases h7
    exact CleanRel.incorporateItems_keeps hP h3 (fun d i _ => hQ d i) h
  | noisy e p r =>
    obtain ⟨_, _, h0⟩ := bind_ok.mp hc
    obtain ⟨y, h1, h2⟩ := bind_ok.mp h0
    cases h2
    obtain ⟨z, h3, h4⟩ := bind_ok.mp h1
    obtain ⟨_, _, h5⟩ := bind_ok.mp h4
    obtain ⟨_, _, h6⟩ := bind_ok.mp h5
    obtain ⟨_, _, h7⟩ := bind_ok.mp h6
    obtain ⟨_, _, h8⟩ := bind_ok.mp h7
    obtain ⟨_, _, h9⟩ := bind_ok.mp h8
    cases h9
    exact CleanRel.incorporateItems_keeps hP h3 (fun d i _ => hQ d i) h

namespace IRM
variable {F : Family V}

/-- if the domains of the first have the property, then so do those of the second -/
structure Keeps (P : String → Domain → Prop) (I I' : IRM F) : Prop where
  all : DomAll P I.doms → DomAll P I'.doms

theorem Keeps.refl (I : IRM F) : Keeps P I I := ⟨fun h => h⟩

theorem Keeps.trans {I I1 I2 : IRM F} (h : Keeps P I I1) (h' : Keeps P I1 I2) : Keeps P I I2 := ⟨fun x => h'.all (h.all x)⟩

theorem Keeps.same {I I' : IRM F} (h : I'.doms = I.doms) : Keeps P I I' := ⟨fun x => by rw [h]; exact x⟩

theorem incorporate_keeps (hP : DomClosed P Q) {env : Env V} {I I' : IRM F} {r : String} {items : Items} {v : V} {t t' : Tape}
    (hc : incorporate env I r items v t = .ok (I', t')) (hQ : ∀ x, I.rels.find? r = some x → ∀ d i, Uses x.2.inner d i items → Q d i) :
    Keeps P I I' := by
  obtain ⟨⟨id, rel⟩, h1, h2⟩ := bind_ok.mp hc
  obtain ⟨y, h4, h3⟩ := bind_ok.mp h2
  cases h3
  exact ⟨Rel.incorporate_keeps hP h4 (hQ _ (FMap.atKey_ok.mp h1))⟩

theorem dropLoop_keeps (hP : DomClosed P Q) : ∀ (ds : List String) (is : Items) (m : FMap (String × Int) Bool) (σ σ' : Doms),
    dropLoop ds is m σ = .ok σ' → DomAll P σ → DomAll P σ' := by
  intro ds
  induction ds with
  | nil => intro is m σ σ' hc h; cases hc; exact h
  | cons d ds ih =>
    intro is m σ σ' hc h
    cases is with
    | nil => cases hc
    | cons i is =>
      obtain ⟨b, _, h1⟩ := bind_ok.mp hc
      split at h1
      · exact ih _ _ _ _ h1 h
      · obtain ⟨dom, h2, h3⟩ := bind_ok.mp h1
        obtain ⟨dom', h4, h5⟩ := bind_ok.mp h3
        exact ih _ _ _ _ h5 (h.set (hP.unincorporate (h _ _ (Doms.get_ok h2)) h4))

theorem unincorporate_keeps (hP : DomClosed P Q) {env : Env V} {I I' : IRM F} {r : String} {items : Items}
    (hc : unincorporate env I r items = .ok I') : Keeps P I I' := by
  obtain ⟨⟨id, rel⟩, h1, h2⟩ := bind_ok.mp hc
  obtain ⟨_, _, h3⟩ := bind_ok.mp h2
  obtain ⟨_, _, h4⟩ := bind_ok.mp h3
  obtain ⟨_, _, h5⟩ := bind_ok.mp h4
  obtain ⟨_, _, h6⟩ := bind_ok.mp h5
  obtain ⟨_, h8, h7⟩ := bind_ok.mp h6
  cases h7
  exact ⟨dropLoop_keeps hP _ _ _ _ _ h8⟩

theorem scoreItem_doms {d : String} {item : Int} {tables : List Int} : ∀ (l : List String) (I : IRM F) (lps : List ℝ) (t : Tape)
    (x : List ℝ × IRM F × Tape), scoreItem d item tables l I lps t = .ok x → x.2.1.doms = I.doms := by
  intro l
  induction l with
  | nil => intro I lps t x hc; cases hc; rfl
  | cons r l ih =>
    intro I lps t x hc
    obtain ⟨⟨id, rel⟩, h1, h2⟩ := bind_ok.mp hc
    obtain ⟨b, _, h3⟩ := bind_ok.mp h2
    split at h3
    · obtain ⟨_, _, h4⟩ := bind_ok.mp h3
      obtain ⟨_, _, h5⟩ := bind_ok.mp h4
      obtain ⟨_, _, h6⟩ := bind_ok.mp h5
      exact (ih _ _ _ _ h6).trans rfl
    · exact ih _ _ _ _ h3

theorem moveRels_doms {d : String} {item table : Int} : ∀ (l : List String) (I : IRM F) (t : Tape)
    (x : IRM F × Tape), moveRels d item table l I t = .ok x → x.1.doms = I.doms := by
  intro l
  induction l with
  | nil => intro I t x hc; cases hc; rfl
  | cons r l ih =>
    intro I t x hc
    obtain ⟨⟨id, rel⟩, h1, h2⟩ := bind_ok.mp hc
    obtain ⟨b, _, h3⟩ := bind_ok.mp h2
    split at h3
    · obtain ⟨_, _, h4⟩ := bind_ok.mp h3
      exact (ih _ _ _ h4).trans rfl
    · exact ih _ _ _ h3

theorem transitionItem_keeps (hP : DomClosed P Q) {I I' : IRM F} {d : String} {item : Int} {t t' : Tape}
    (hc : transitionItem I d item t = .ok (I', t')) : Keeps P I I' := by
  obtain ⟨⟨tables, lps, order, I1, t1⟩, h1, h2⟩ := bind_ok.mp hc
  obtain ⟨dom0, h3, h1⟩ := bind_ok.mp h1
  obtain ⟨w, h4, h1⟩ := bind_ok.mp h1
  obtain ⟨_, _, h1⟩ := bind_ok.mp h1
  obtain ⟨y, h6, h1⟩ := bind_ok.mp h1
  cases h1
  have hd1 := scoreItem_doms _ _ _ _ _ h6
  obtain ⟨_, _, h2⟩ := bind_ok.mp h2
  obtain ⟨z, h5, h2⟩ := bind_ok.mp h2
  obtain ⟨dom, h7, h2⟩ := bind_ok.mp h2
  have h7 : y.2.1.doms.atKey d = .ok dom := h7
  rw [hd1, h3] at h7
  cases h7
  obtain ⟨cur, _, h2⟩ := bind_ok.mp h2
  split at h2
  · obtain ⟨⟨I2, t2⟩, h8, h2⟩ := bind_ok.mp h2
    obtain ⟨dom', h9, h2⟩ := bind_ok.mp h2
    cases h2
    have hd2 := moveRels_doms _ _ _ _ h8
    refine ⟨fun h => ?_⟩
    have h10 : DomAll P I2.doms := by
      have : I2.doms = I.doms := hd2.trans hd1
      rw [this]; exact h
    exact h10.set (hP.move (h _ _ (FMap.atKey_ok.mp h3)) h4 (HIRM.idxR_mem h5) h9)
  · cases h2
    exact Keeps.same hd1

theorem transitionItems_keeps (hP : DomClosed P Q) {d : String} : ∀ (l : List Int) (I : IRM F) (t : Tape) (x : IRM F × Tape),
    transitionItems d l I t = .ok x → Keeps P I x.1 := by
  intro l
  induction l with
  | nil => intro I t x hc; cases hc; exact .refl _
  | cons r l ih =>
    intro I t x hc
    obtain ⟨⟨I1, t1⟩, h1, h2⟩ := bind_ok.mp hc
    exact (transitionItem_keeps hP h1).trans (ih _ _ _ h2)

theorem transitionDomains_keeps (hP : DomClosed P Q) : ∀ (l : List String) (I : IRM F) (t : Tape) (x : IRM F × Tape),
    transitionDomains l I t = .ok x → Keeps P I x.1 := by
  intro l
  induction l with
  | nil => intro I t x hc; cases hc; exact .refl _
  | cons r l ih =>
    intro I t x hc
    obtain ⟨dom, _, h1⟩ := bind_ok.mp hc
    obtain ⟨⟨I1, t1⟩, h2, h3⟩ := bind_ok.mp h1
    exact (transitionItems_keeps hP _ _ _ _ h2).trans (ih _ _ _ h3)

theorem hparamsSweep_keeps {n : Nat} : ∀ (l : List String) (I : IRM F) (t : Tape) (x : IRM F × Tape),
    hparamsSweep n l I t = .ok x → Keeps P I x.1 := by
  intro l
  induction l with
  | nil => intro I t x hc; cases hc; exact .refl _
  | cons r l ih =>
    intro I t x hc
    obtain ⟨⟨id, rel⟩, h1, h2⟩ := bind_ok.mp hc
    refine Keeps.trans ?_ (ih _ _ _ h2)
    exact Keeps.same rfl

theorem alphaSweep_keeps (hP : DomClosed P Q) : ∀ (l : List String) (I : IRM F) (t : Tape) (x : IRM F × Tape),
    alphaSweep l I t = .ok x → Keeps P I x.1 := by
  intro l
  induction l with
  | nil => intro I t x hc; cases hc; exact .refl _
  | cons r l ih =>
    intro I t x hc
    obtain ⟨dom, h1, h2⟩ := bind_ok.mp hc
    exact Keeps.trans ⟨fun h => h.set (hP.alpha _ (h _ _ (FMap.atKey_ok.mp h1)))⟩ (ih _ _ _ h2)

theorem singleStep_keeps (hP : DomClosed P Q) {I I' : IRM F} {n : Nat} {t t' : Tape} (hc : singleStep I n false t = .ok (I', t')) : Keeps P I I' := by
  obtain ⟨⟨I0, t0⟩, h0, h1⟩ := bind_ok.mp hc
  cases h0
  obtain ⟨⟨I1, t1⟩, h2, h3⟩ := bind_ok.mp h1
  obtain ⟨⟨I2, t2⟩, h4, h5⟩ := bind_ok.mp h3
  exact (transitionDomains_keeps hP _ _ _ _ h2).trans ((hparamsSweep_keeps _ _ _ _ h4).trans (alphaSweep_keeps hP _ _ _ _ h5))

theorem combLogp_keeps {ss : List Slot} {ix : List Int} : ∀ (obs : List (String × Items × V)) (I : IRM F) (t : Tape)
    (x : ℝ × IRM F × Tape), combLogp ss ix obs I t = .ok x → Keeps P I x.2.1 := by
  intro obs
  induction obs with
  | nil => intro I t x hc; cases hc; exact .refl _
  | cons o obs ih =>
    obtain ⟨r, items, v⟩ := o
    intro I t x hc
    obtain ⟨⟨id, rel⟩, h1, h2⟩ := bind_ok.mp hc
    obtain ⟨_, _, h3⟩ := bind_ok.mp h2
    obtain ⟨_, _, h4⟩ := bind_ok.mp h3
    obtain ⟨y, h5, h6⟩ := bind_ok.mp h4
    cases h6
    refine Keeps.trans ?_ (ih _ _ y h5)
    exact Keeps.same rfl

theorem logpLoop_keeps {ss : List Slot} {obs : List (String × Items × V)} : ∀ (l : List (List Int)) (I : IRM F) (t : Tape)
    (x : List (WithBot ℝ) × IRM F × Tape), logpLoop ss obs l I t = .ok x → Keeps P I x.2.1 := by
  intro l
  induction l with
  | nil => intro I t x hc; cases hc; exact .refl _
  | cons ix l ih =>
    intro I t x hc
    obtain ⟨_, _, h2⟩ := bind_ok.mp hc
    obtain ⟨_, h3, h4⟩ := bind_ok.mp h2
    obtain ⟨y, h5, h6⟩ := bind_ok.mp h4
    cases h6
    exact (combLogp_keeps _ _ _ _ h3).trans (ih _ _ y h5)

theorem logp_keeps {I I' : IRM F} {obs : List (String × Items × V)} {lp : WithBot ℝ} {t t' : Tape}
    (hc : logp I obs t = .ok (lp, I', t')) : Keeps P I I' := by
  obtain ⟨_, _, h2⟩ := bind_ok.mp hc
  obtain ⟨_, _, h4⟩ := bind_ok.mp h2
  obtain ⟨_, h5, h6⟩ := bind_ok.mp h4
  obtain ⟨_, _, h8⟩ := bind_ok.mp h6
  cases h8
  exact logpLoop_keeps _ _ _ _ h5

/-! ### adding and removing a relation -/

theorem addDomains_keeps (hP : DomClosed P Q) {name : String} : ∀ (ds : List String) (I I' : IRM F), addDomains name ds I = .ok I' → Keeps P I I' := by
  intro ds
  induction ds with
  | nil => intro I I' hc; cases hc; exact .refl _
  | cons d ds ih =>
    intro I I' hc
    unfold addDomains at hc
    dsimp only at hc
    split at hc
    · obtain ⟨J, h1, h2⟩ := bind_ok.mp hc
      cases h1
      obtain ⟨s, _, h3⟩ := bind_ok.mp h2
      refine Keeps.trans ?_ (ih _ _ h3)
      exact Keeps.same rfl
    · obtain ⟨_, _, h1⟩ := bind_ok.mp hc
      obtain ⟨J, h2, h3⟩ := bind_ok.mp h1
      cases h2
      obtain ⟨s, _, h4⟩ := bind_ok.mp h3
      exact Keeps.trans ⟨fun h => h.set (hP.new d)⟩ (ih _ _ h4)

theorem dropDomains_keeps {name : String} : ∀ (ds : List String) (I I' : IRM F), dropDomains name ds I = .ok I' → Keeps P I I' := by
  intro ds
  induction ds with
  | nil => intro I I' hc; cases hc; exact .refl _
  | cons d ds ih =>
    intro I I' hc
    obtain ⟨s, _, h1⟩ := bind_ok.mp hc
    dsimp only at h1
    split at h1
    · obtain ⟨_, _, h2⟩ := bind_ok.mp h1
      exact Keeps.trans ⟨fun h => h.erase d⟩ (ih _ _ h2)
    · refine Keeps.trans ?_ (ih _ _ h1)
      exact Keeps.same rfl

theorem removeRelation_keeps {I I' : IRM F} {name : String} (hc : removeRelation I name = .ok I') : Keeps P I I' := by
  obtain ⟨⟨id, rel⟩, h1, h2⟩ := bind_ok.mp hc
  obtain ⟨I1, h3, h4⟩ := bind_ok.mp h2
  cases h4
  exact (dropDomains_keeps _ _ _ h3).trans (Keeps.same rfl)

theorem addClean_keeps (hP : DomClosed P Q) {id : Nat} {I I' : IRM F} {name : String} {c : F.C} {ds : List String} {o : Bool}
    (hc : addClean id I name c ds o = .ok I') : Keeps P I I' := by
  obtain ⟨_, _, h1⟩ := bind_ok.mp hc
  obtain ⟨_, _, h2⟩ := bind_ok.mp h1
  obtain ⟨I1, h3, h4⟩ := bind_ok.mp h2
  obtain ⟨_, _, h5⟩ := bind_ok.mp h4
  cases h5
  exact (addDomains_keeps hP _ _ _ h3).trans (Keeps.same rfl)

theorem addWithBase_keeps (hP : DomClosed P Q) {id : Nat} {I I' : IRM F} {name : String} {e : F.E} {ds : List String} {b : String} {o : Bool} {p : Ptr}
    (hc : addWithBase id I name e ds b o p = .ok I') : Keeps P I I' := by
  obtain ⟨_, _, h1⟩ := bind_ok.mp hc
  obtain ⟨_, _, h2⟩ := bind_ok.mp h1
  obtain ⟨I1, h3, h4⟩ := bind_ok.mp h2
  obtain ⟨_, _, h5⟩ := bind_ok.mp h4
  cases h5
  exact (addDomains_keeps hP _ _ _ h3).trans (Keeps.same rfl)

theorem addNoisy_keeps (hP : DomClosed P Q) {id : Nat} {I I' : IRM F} {name : String} {e : F.E} {ds : List String} {b : String} {o : Bool}
    (hc : addNoisy id I name e ds b o = .ok I') : Keeps P I I' := by
  obtain ⟨_, _, h1⟩ := bind_ok.mp hc
  obtain ⟨_, _, h2⟩ := bind_ok.mp h1
  obtain ⟨I1, h3, h4⟩ := bind_ok.mp h2
  dsimp only at h4
  split at h4
  · obtain ⟨_, _, h5⟩ := bind_ok.mp h4
    cases h5
  · obtain ⟨_, _, h5⟩ := bind_ok.mp h4
    obtain ⟨_, _, h6⟩ := bind_ok.mp h5
    cases h6
    exact (addDomains_keeps hP _ _ _ h3).trans (Keeps.same rfl)

theorem addRelation_keeps (hP : DomClosed P Q) {id : Nat} {I I' : IRM F} {name : String} {spec : RelSpec F}
    (hc : addRelation id I name spec = .ok I') : Keeps P I I' := by
  cases spec with
  | clean c ds o => exact addClean_keeps hP hc
  | noisy e ds b o => exact addNoisy_keeps hP hc

theorem Reach.domains (hP : DomClosed P Q) (hQ : ∀ d i, Q d i) {L : FamilyLaws F} {rm st : Prop} {n : Nat} {I : IRM F} (h : Reach L rm st n I) : DomAll P I.doms := by
  induction h with
  | empty => intro d dom h; cases h
  | add _ _ hc ih => exact (addRelation_keeps hP hc).all ih
  | remove _ _ _ hc ih => exact (removeRelation_keeps hc).all ih
  | seat _ _ hd hc ih => exact ih.set (hP.incorporate (hQ _ _) (ih _ _ hd) hc)
  | incorporate _ _ hc ih => exact (incorporate_keeps hP hc (fun _ _ d i _ => hQ d i)).all ih
  | unincorporate _ hc ih => exact (unincorporate_keeps hP hc).all ih
  | item _ hc ih => exact (transitionItem_keeps hP hc).all ih
  | hparams _ hc ih => exact (hparamsSweep_keeps _ _ _ _ hc).all ih
  | alpha _ hc ih => exact (alphaSweep_keeps hP _ _ _ _ hc).all ih
  | logp _ _ hc ih => exact (logp_keeps hc).all ih

end IRM
namespace HIRM
variable {F : Family V}

/-- if the domains of the first have the property, then so do those of the second -/
structure HKeeps (P : String → Domain → Prop) (H H' : HIRM F) : Prop where
  all : (∀ tb I, H.irms.find? tb = some I → DomAll P I.doms) → ∀ tb I, H'.irms.find? tb = some I → DomAll P I.doms

theorem HKeeps.refl (H : HIRM F) : HKeeps P H H := ⟨fun h => h⟩

theorem HKeeps.trans {H H1 H2 : HIRM F} (h : HKeeps P H H1) (h' : HKeeps P H1 H2) : HKeeps P H H2 := ⟨fun x => h'.all (h.all x)⟩

theorem HKeeps.setIrm {H : HIRM F} {tb : Int} {I I' : IRM F} (hI : H.irms.find? tb = some I) (hk : IRM.Keeps P I I') :
    HKeeps P H { H with irms := H.irms.set tb I' } := by
  refine ⟨fun h tb' J hJ => ?_⟩
  dsimp only at hJ
  rw [FMap.find?_set] at hJ
  split at hJ
  · cases hJ; exact hk.all (h _ _ hI)
  · exact h _ _ hJ

theorem incorporate_keeps (hP : DomClosed P Q) {H H' : HIRM F} {r : String} {items : Items} {v : V} {t t' : Tape}
    (hc : H.incorporate r items v t = .ok (H', t')) (hQ : ∀ x, H.relOf r = some x → ∀ d i, Uses x.2.2.inner d i items → Q d i) :
    HKeeps P H H' := by
  obtain ⟨⟨tb, I⟩, h1, h2⟩ := bind_ok.mp hc
  obtain ⟨⟨I', t1⟩, h3, h4⟩ := bind_ok.mp h2
  cases h4
  obtain ⟨hT, hI⟩ := relationToIrm_ok.mp h1
  exact .setIrm hI (IRM.incorporate_keeps hP h3 (fun x hx => hQ (tb, x) (relOf_some.mpr ⟨hT, I, hI, hx⟩)))

theorem unincorporate_keeps (hP : DomClosed P Q) {H H' : HIRM F} {r : String} {items : Items}
    (hc : H.unincorporate r items = .ok H') : HKeeps P H H' := by
  obtain ⟨⟨tb, I⟩, h1, h2⟩ := bind_ok.mp hc
  obtain ⟨I', h3, h4⟩ := bind_ok.mp h2
  cases h4
  exact .setIrm (relationToIrm_ok.mp h1).2 (IRM.unincorporate_keeps hP h3)

theorem updateLoop_keeps {r : String} : ∀ (l : List String) (H H' : HIRM F), updateLoop r l H = .ok H' → HKeeps P H H' := by
  intro l
  induction l with
  | nil => intro H H' hc; cases hc; exact .refl H
  | cons n l ih =>
    intro H H' hc
    obtain ⟨⟨tb, I⟩, h1, h2⟩ := bind_ok.mp hc
    obtain ⟨⟨id, rel⟩, h3, h4⟩ := bind_ok.mp h2
    cases rel with
    | clean c q => cases h4
    | noisy e p q =>
      obtain ⟨_, _, h5⟩ := bind_ok.mp h4
      refine HKeeps.trans ?_ (ih _ _ h5)
      exact HKeeps.setIrm (relationToIrm_ok.mp h1).2 (.same rfl)

theorem updateBase_keeps {H H' : HIRM F} {r : String} (hc : H.updateBase r = .ok H') : HKeeps P H H' := by
  unfold updateBase at hc
  split at hc
  · cases hc; exact .refl H
  · exact updateLoop_keeps _ _ _ hc

theorem storeNoisy_keeps {p : Ptr} : ∀ (l : List (LatentNoisy F)) (H H' : HIRM F), storeNoisy p l H = .ok H' → HKeeps P H H' := by
  intro l
  induction l with
  | nil => intro H H' hc; cases hc; exact .refl H
  | cons x l ih =>
    intro H H' hc
    obtain ⟨⟨tb, I⟩, h1, h2⟩ := bind_ok.mp hc
    obtain ⟨⟨id, rel⟩, h3, h4⟩ := bind_ok.mp h2
    refine HKeeps.trans ?_ (ih _ _ h4)
    exact HKeeps.setIrm (relationToIrm_ok.mp h1).2 (.same rfl)

theorem transitionLatentRelation_keeps {H H' : HIRM F} {r : String} {t t' : Tape}
    (hc : H.transitionLatentRelation r t = .ok (H', t')) : HKeeps P H H' := by
  obtain ⟨⟨tb, I⟩, h1, h2⟩ := bind_ok.mp hc
  obtain ⟨⟨id, rel⟩, h3, h4⟩ := bind_ok.mp h2
  obtain ⟨_, _, h5⟩ := bind_ok.mp h4
  obtain ⟨_, _, h6⟩ := bind_ok.mp h5
  obtain ⟨_, _, h7⟩ := bind_ok.mp h6
  obtain ⟨_, h8, h9⟩ := bind_ok.mp h7
  cases h9
  refine HKeeps.trans ?_ (storeNoisy_keeps _ _ _ h8)
  exact HKeeps.setIrm (relationToIrm_ok.mp h1).2 (.same rfl)

theorem stepIrms_keeps (hP : DomClosed P Q) : ∀ (l : List Int) (H : HIRM F) (t : Tape) (x : HIRM F × Tape), stepIrms l H t = .ok x → HKeeps P H x.1 := by
  intro l
  induction l with
  | nil => intro H t x hc; cases hc; exact .refl H
  | cons tb l ih =>
    intro H t x hc
    obtain ⟨I, h1, h2⟩ := bind_ok.mp hc
    obtain ⟨⟨I', t1⟩, h3, h4⟩ := bind_ok.mp h2
    exact (HKeeps.setIrm (FMap.atKey_ok.mp h1) (IRM.singleStep_keeps hP h3)).trans (ih _ _ _ h4)

theorem logpGroups_keeps : ∀ (l : List (Int × List (String × Items × V))) (H : HIRM F) (t : Tape) (x : WithBot ℝ × HIRM F × Tape),
    logpGroups l H t = .ok x → HKeeps P H x.2.1 := by
  intro l
  induction l with
  | nil => intro H t x hc; cases hc; exact .refl H
  | cons e l ih =>
    obtain ⟨tb, o⟩ := e
    intro H t x hc
    obtain ⟨I, h1, h2⟩ := bind_ok.mp hc
    obtain ⟨⟨lp, I', t1⟩, h3, h4⟩ := bind_ok.mp h2
    obtain ⟨⟨s, H1, t2⟩, h5, h6⟩ := bind_ok.mp h4
    cases h6
    exact (HKeeps.setIrm (FMap.atKey_ok.mp h1) (IRM.logp_keeps h3)).trans (ih _ _ (s, H1, t2) h5)

theorem logp_keeps {H H' : HIRM F} {obs : List (String × Items × V)} {lp : WithBot ℝ} {t t' : Tape}
    (hc : H.logp obs t = .ok (lp, H', t')) : HKeeps P H H' := by
  obtain ⟨m, _, h2⟩ := bind_ok.mp hc
  exact logpGroups_keeps _ _ _ _ h2

theorem sampleOne_keeps (hP : DomClosed P Q) {H H' : HIRM F} {r : String} {items : Items} {v : V} {t t' : Tape}
    (hc : H.sampleOne r items t = .ok (v, H', t')) (hQ : ∀ d i, Q d i) : HKeeps P H H' := by
  obtain ⟨⟨tb, I⟩, h1, h2⟩ := bind_ok.mp hc
  obtain ⟨⟨id, rel⟩, h3, h4⟩ := bind_ok.mp h2
  obtain ⟨y, h6, h5⟩ := bind_ok.mp h4
  cases h5
  exact .setIrm (relationToIrm_ok.mp h1).2 ⟨Rel.sampleAndIncorporate_keeps hP h6 hQ⟩

theorem sampleRelation_keeps (hP : DomClosed P Q) (hQ : ∀ d i, Q d i) : ∀ (k : Nat) (H : HIRM F) (r : String) (items : Items) (t : Tape) (x : V × HIRM F × Tape),
    sampleRelation k H r items t = .ok x → HKeeps P H x.2.1 := by
  intro k
  induction k with
  | zero => intro H r items t x hc; cases hc
  | succ k ih =>
    intro H r items t x hc
    obtain ⟨spec, _, h1⟩ := bind_ok.mp hc
    dsimp only at h1
    cases spec with
    | clean c ds o =>
      obtain ⟨y, h2, h3⟩ := bind_ok.mp h1
      cases h2
      exact sampleOne_keeps hP h3 hQ
    | noisy e ds base o =>
      obtain ⟨⟨p, rel⟩, _, h2⟩ := bind_ok.mp h1
      obtain ⟨b, _, h3⟩ := bind_ok.mp h2
      obtain ⟨bi, _, h4⟩ := bind_ok.mp h3
      split at h4
      · obtain ⟨y, h5, h6⟩ := bind_ok.mp h4
        cases h5
        exact sampleOne_keeps hP h6 hQ
      · obtain ⟨⟨v, H1, t1⟩, h5, h6⟩ := bind_ok.mp h4
        obtain ⟨y, h7, h8⟩ := bind_ok.mp h6
        cases h7
        exact (ih _ _ _ _ _ h5).trans (sampleOne_keeps hP h8 hQ)

theorem sampleLoop_keeps (hP : DomClosed P Q) (hQ : ∀ d i, Q d i) {r : String} {ds : List String} {n : Nat} : ∀ (k num : Nat) (s : Sampling F) (t : Tape) (s' : Sampling F) (t' : Tape),
    sampleLoop r ds n k num s t = .ok (some (s', t')) → HKeeps P s.H s'.H := by
  intro k
  induction k with
  | zero =>
    intro num s t s' t' hc
    unfold sampleLoop at hc
    split at hc
    · cases hc
    · cases hc; exact .refl _
  | succ k ih =>
    intro num s t s' t' hc
    unfold sampleLoop at hc
    split at hc
    · obtain ⟨_, _, h1⟩ := bind_ok.mp hc
      obtain ⟨_, _, h2⟩ := bind_ok.mp h1
      dsimp only at h2
      split at h2
      · obtain ⟨_, _, h3⟩ := bind_ok.mp h2
        have := ih _ _ _ _ _ h3
        exact this
      · obtain ⟨_, h3, h4⟩ := bind_ok.mp h2
        have := ih _ _ _ _ _ h4
        exact (sampleRelation_keeps hP hQ _ _ _ _ _ _ h3).trans this
    · cases hc; exact .refl _

theorem sampleLeaves_keeps (hP : DomClosed P Q) (hQ : ∀ d i, Q d i) {n k : Nat} : ∀ (l : List (String × RelSpec F)) (s : Sampling F) (t : Tape) (s' : Sampling F) (t' : Tape),
    sampleLeaves n k l s t = .ok (some (s', t')) → HKeeps P s.H s'.H := by
  intro l
  induction l with
  | nil => intro s t s' t' hc; cases hc; exact .refl _
  | cons e l ih =>
    obtain ⟨r, spec⟩ := e
    intro s t s' t' hc
    unfold sampleLeaves at hc
    split at hc
    · exact ih _ _ _ _ hc
    · obtain ⟨o, h1, h2⟩ := bind_ok.mp hc
      cases o with
      | none => cases h2
      | some x => exact (sampleLoop_keeps hP hQ _ _ _ _ _ _ h1).trans (ih _ _ _ _ h2)

theorem sampleAndIncorporate_keeps (hP : DomClosed P Q) (hQ : ∀ d i, Q d i) {H : HIRM F} {n k : Nat} {s : Sampling F} {t t' : Tape}
    (hc : H.sampleAndIncorporate n k t = .ok (some (s, t'))) : HKeeps P H s.H := by
  obtain ⟨crps, _, h1⟩ := bind_ok.mp hc
  exact sampleLeaves_keeps hP hQ _ _ _ _ _ h1

theorem cleanupLoop_keeps : ∀ (l : List String) (H H' : HIRM F), cleanupLoop l H = .ok H' → HKeeps P H H' := by
  intro l
  induction l with
  | nil => intro H H' hc; cases hc; exact .refl H
  | cons n l ih =>
    intro H H' hc
    obtain ⟨⟨tb, I⟩, h1, h2⟩ := bind_ok.mp hc
    obtain ⟨⟨id, rel⟩, h3, h4⟩ := bind_ok.mp h2
    refine HKeeps.trans ?_ (ih _ _ h4)
    exact HKeeps.setIrm (relationToIrm_ok.mp h1).2 (.same rfl)


theorem HKeeps.same {H H' : HIRM F} (h : H'.irms = H.irms) : HKeeps P H H' := ⟨fun x => by rw [h]; exact x⟩

theorem fill_keeps (hP : DomClosed P Q) {env : Env V} {r : String} {ds : List String} : ∀ (l : List (Items × V)) (I : IRM F) (t : Tape) (x : IRM F × Tape),
    fill env r l I t = .ok x → (∀ x, I.rels.find? r = some x → x.2.Indexed ∧ x.2.doms = ds) → (∀ e ∈ l, ∀ d i, Uses ds d i e.1 → Q d i) → IRM.Keeps P I x.1 := by
  intro l
  induction l with
  | nil => intro I t x hc _ _; cases hc; exact .refl _
  | cons e l ih =>
    obtain ⟨items, v⟩ := e
    intro I t x hc hd hQ
    obtain ⟨⟨I1, t1⟩, h1, h2⟩ := bind_ok.mp hc
    refine (IRM.incorporate_keeps hP h1 (fun x hx => by rw [(hd x hx).1.inner, (hd x hx).2]; exact hQ _ List.mem_cons_self)).trans (ih _ _ _ h2 ?_ (fun e he => hQ e (List.mem_cons_of_mem _ he)))
    intro y hy
    obtain ⟨⟨id, rel⟩, h3, h4⟩ := bind_ok.mp h1
    obtain ⟨⟨σ, rel', t2⟩, h5, h4⟩ := bind_ok.mp h4
    cases h4
    have hy : (I.rels.set r (id, rel')).find? r = some y := hy
    rw [FMap.find?_set_self] at hy
    cases hy
    have hn := (Rel.incorporate_next h5).1
    obtain ⟨a, b⟩ := hd _ (FMap.atKey_ok.mp h3)
    exact ⟨hn.idx a, hn.doms.trans b⟩

theorem addRelationToIrm_doms {H : HIRM F} {I I' : IRM F} {r : String} {spec : RelSpec F} (hc : H.addRelationToIrm I r spec = .ok I') :
    ∀ x, I'.rels.find? r = some x → x.2.Indexed ∧ x.2.doms = spec.doms := by
  intro x hx
  cases spec with
  | clean c ds o =>
    obtain ⟨_, _, hc⟩ := bind_ok.mp hc
    obtain ⟨_, _, hc⟩ := bind_ok.mp hc
    obtain ⟨I1, h1, hc⟩ := bind_ok.mp hc
    obtain ⟨q, h2, hc⟩ := bind_ok.mp hc
    cases hc
    have hx : (I1.rels.set r (H.next, .clean c q)).find? r = some x := hx
    rw [FMap.find?_set_self] at hx
    cases hx
    exact CleanRel.Indexed.fresh h2
  | noisy e ds b o =>
    obtain ⟨⟨p, _⟩, _, hc⟩ := bind_ok.mp hc
    obtain ⟨_, _, hc⟩ := bind_ok.mp hc
    obtain ⟨_, _, hc⟩ := bind_ok.mp hc
    obtain ⟨I1, h1, hc⟩ := bind_ok.mp hc
    obtain ⟨q, h2, hc⟩ := bind_ok.mp hc
    cases hc
    have hx : (I1.rels.set r (H.next, .noisy e p q)).find? r = some x := hx
    rw [FMap.find?_set_self] at hx
    cases hx
    exact NoisyRel.Indexed.fresh h2

/-- the entities of the tuples have the property -/
def AllIn (Q : String → Int → Prop) (ds : List String) (data : FMap Items V) : Prop :=
  ∀ k, data.contains k = true → ∀ d i, Uses ds d i k → Q d i

theorem addRelationToIrm_keeps (hP : DomClosed P Q) {H : HIRM F} {I I' : IRM F} {r : String} {spec : RelSpec F}
    (hc : H.addRelationToIrm I r spec = .ok I') : IRM.Keeps P I I' := by
  cases spec with
  | clean c ds o => exact IRM.addClean_keeps hP hc
  | noisy e ds b o =>
    obtain ⟨_, _, h1⟩ := bind_ok.mp hc
    exact IRM.addWithBase_keeps hP h1

theorem putRelation_keeps (hP : DomClosed P Q) {H : HIRM F} {I : IRM F} {r : String} {spec : RelSpec F} {data : FMap Items V} {t : Tape}
    {x : IRM F × Tape} (hc : H.putRelation I r spec data t = .ok x) (hQ : AllIn Q spec.doms data) : IRM.Keeps P I x.1 := by
  obtain ⟨I1, h1, h2⟩ := bind_ok.mp hc
  refine (addRelationToIrm_keeps hP h1).trans (fill_keeps hP _ _ _ _ h2 (addRelationToIrm_doms h1) (fun e he => hQ e.1 ?_))
  exact FMap.contains_iff.mpr ⟨e.2, FMap.mem_entries.mp ((shuffle_perm _ _).mem_iff.mp he)⟩

theorem scoreTables_keeps (hP : DomClosed P Q) {r : String} {cur : Int} {spec : RelSpec F} {data : FMap Items V} (hQ : AllIn Q spec.doms data) :
    ∀ (l : List (Int × ℝ)) (H : HIRM F) (aux : Option (Int × IRM F)) (t : Tape) (x : List (Int × ℝ) × HIRM F × Option (Int × IRM F) × Tape),
      scoreTables r cur spec data l H aux t = .ok x →
      (∀ tb I, H.irms.find? tb = some I → DomAll P I.doms) → (∀ tb I, aux = some (tb, I) → DomAll P I.doms) →
      (∀ tb I, x.2.1.irms.find? tb = some I → DomAll P I.doms) ∧ ∀ tb I, x.2.2.1 = some (tb, I) → DomAll P I.doms := by
  intro l
  induction l with
  | nil => intro H aux t x hc h h'; cases hc; exact ⟨h, h'⟩
  | cons e l ih =>
    obtain ⟨tb, w⟩ := e
    intro H aux t x hc h h'
    -- what follows, for the state of the IRM at that table
    have key : ∀ (I : IRM F) (H1 : HIRM F) (t1 : Tape), H1.irms = H.irms → DomAll P I.doms → (do
        let (_, rel) ← I.rels.atKey r
        let lp := Real.log w + rel.logpScore
        let (H', aux) := if H.irms.contains tb then ({ H1 with irms := H1.irms.set tb I }, aux) else (H1, some (tb, I))
        let (lps, H', aux, t) ← scoreTables r cur spec data l H' aux t1
        Except.ok ((tb, lp) :: lps, H', aux, t)) = .ok x →
        (∀ tb I, x.2.1.irms.find? tb = some I → DomAll P I.doms) ∧ ∀ tb I, x.2.2.1 = some (tb, I) → DomAll P I.doms := by
      intro I H1 t1 hirm hI hc
      obtain ⟨_, _, hc⟩ := bind_ok.mp hc
      dsimp only at hc
      split at hc
      · obtain ⟨y, h1, h2⟩ := bind_ok.mp hc
        cases h2
        refine ih _ _ _ y h1 ?_ h'
        intro u J hJ
        dsimp only at hJ
        rw [FMap.find?_set] at hJ
        split at hJ
        · cases hJ; exact hI
        · exact h _ _ (hirm ▸ hJ)
      · obtain ⟨y, h1, h2⟩ := bind_ok.mp hc
        cases h2
        refine ih _ _ _ y h1 (fun u J hJ => h _ _ (hirm ▸ hJ)) ?_
        intro u J hJ
        cases hJ; exact hI
    unfold scoreTables at hc
    dsimp only at hc
    have key2 : ∀ I : IRM F, DomAll P I.doms → (do
        let (I, H', t) ← if tb ≠ cur then do
            let (I, t) ← H.putRelation I r spec data t
            .ok (I, { H with next := H.next + 1 }, t)
          else Except.ok (I, H, t)
        let (_, rel) ← I.rels.atKey r
        let lp := Real.log w + rel.logpScore
        let (H', aux) := if H.irms.contains tb then ({ H' with irms := H'.irms.set tb I }, aux) else (H', some (tb, I))
        let (lps, H', aux, t) ← scoreTables r cur spec data l H' aux t
        Except.ok ((tb, lp) :: lps, H', aux, t)) = .ok x →
        (∀ tb I, x.2.1.irms.find? tb = some I → DomAll P I.doms) ∧ ∀ tb I, x.2.2.1 = some (tb, I) → DomAll P I.doms := by
      intro I hI hc
      dsimp only at hc
      split at hc
      · obtain ⟨⟨I1, t1⟩, h1, h2⟩ := bind_ok.mp hc
        obtain ⟨y, h3, h4⟩ := bind_ok.mp h2
        cases h3
        exact key I1 { H with next := H.next + 1 } t1 rfl ((putRelation_keeps hP h1 hQ).all hI) h4
      · obtain ⟨y, h3, h4⟩ := bind_ok.mp hc
        cases h3
        exact key I H t rfl hI h4
    cases hI : H.irms.find? tb with
    | some I =>
      rw [hI] at hc
      obtain ⟨J, h1, h2⟩ := bind_ok.mp hc
      cases h1
      exact key2 I (h _ _ hI) h2
    | none =>
      rw [hI] at hc
      obtain ⟨_, _, h0⟩ := bind_ok.mp hc
      obtain ⟨J, h1, h2⟩ := bind_ok.mp h0
      cases h1
      exact key2 {} (fun d dom h => by cases h) h2

theorem dropOthers_keeps {r : String} {cur choice : Int} {crp : CRP} : ∀ (l : List Int) (m m' : FMap Int (IRM F)),
    dropOthers r cur choice crp l m = .ok m' → (∀ tb I, m.find? tb = some I → DomAll P I.doms) →
    ∀ tb I, m'.find? tb = some I → DomAll P I.doms := by
  intro l
  induction l with
  | nil => intro m m' hc h; cases hc; exact h
  | cons tb l ih =>
    intro m m' hc h
    unfold dropOthers at hc
    obtain ⟨I, h1, h2⟩ := bind_ok.mp hc
    have hI := h _ _ (FMap.atKey_ok.mp h1)
    dsimp only at h2
    have key : ∀ I1 : IRM F, DomAll P I1.doms →
        (if I1.rels.size = 0 then do
            let s ← crp.tables.atKey tb
            assertR (decide (s.size = 1))
            assertR (decide (tb = cur))
            dropOthers r cur choice crp l (m.erase tb)
          else dropOthers r cur choice crp l (m.set tb I1)) = .ok m' → ∀ tb I, m'.find? tb = some I → DomAll P I.doms := by
      intro I1 hI1 hc
      split at hc
      · obtain ⟨_, _, hc⟩ := bind_ok.mp hc
        obtain ⟨_, _, hc⟩ := bind_ok.mp hc
        obtain ⟨_, _, hc⟩ := bind_ok.mp hc
        refine ih _ _ hc (fun u J hJ => ?_)
        rw [FMap.find?_erase] at hJ
        split at hJ
        · cases hJ
        · exact h _ _ hJ
      · refine ih _ _ hc (fun u J hJ => ?_)
        rw [FMap.find?_set] at hJ
        split at hJ
        · cases hJ; exact hI1
        · exact h _ _ hJ
    split at h2
    · obtain ⟨_, _, h3⟩ := bind_ok.mp h2
      obtain ⟨I1, h4, h5⟩ := bind_ok.mp h3
      exact key I1 ((IRM.removeRelation_keeps h4).all hI) h5
    · obtain ⟨I1, h4, h5⟩ := bind_ok.mp h2
      cases h4
      exact key I hI h5

theorem transitionRelation_keeps (hP : DomClosed P Q) {H H' : HIRM F} {r : String} {t t' : Tape} (hc : H.transitionRelation r t = .ok (H', t'))
    (hQ : ∀ spec x, H.schema.find? r = some spec → H.relOf r = some x → AllIn Q spec.doms x.2.2.data) : HKeeps P H H' := by
  obtain ⟨rc, h1, hc⟩ := bind_ok.mp hc
  obtain ⟨cur, h2, hc⟩ := bind_ok.mp hc
  obtain ⟨⟨p, rel⟩, h0, hc⟩ := bind_ok.mp hc
  obtain ⟨spec, h3, hc⟩ := bind_ok.mp hc
  obtain ⟨w, _, hc⟩ := bind_ok.mp hc
  obtain ⟨⟨lps, H1, aux, t1⟩, h4, hc⟩ := bind_ok.mp hc
  obtain ⟨ch, h5, hc⟩ := bind_ok.mp hc
  obtain ⟨H2, h6, hc⟩ := bind_ok.mp hc
  cases hc
  obtain ⟨m, h7, hc⟩ := bind_ok.mp h6
  obtain ⟨c1, h8, hc⟩ := bind_ok.mp hc
  obtain ⟨c2, h9, hc⟩ := bind_ok.mp hc
  obtain ⟨_, _, hc⟩ := bind_ok.mp hc
  refine ⟨fun h => (updateBase_keeps hc).all ?_⟩
  obtain ⟨ha, hb⟩ := scoreTables_keeps hP (by obtain ⟨tb, id, g, _⟩ := getRelation_ok.mp h0; exact hQ spec _ (FMap.atKey_ok.mp h3) g) _ _ _ _ _ h4 h (fun _ _ h => by cases h)
  have hm := dropOthers_keeps _ _ _ h7 ha
  intro tb I hI
  dsimp only at hI
  split at hI
  · split at hI
    · rw [FMap.find?_set] at hI
      split at hI
      · cases hI; exact hb _ _ rfl
      · exact hm _ _ hI
    · exact hm _ _ hI
  · exact hm _ _ hI

theorem setClusterAssignmentGibbs_keeps (hP : DomClosed P Q) {H H' : HIRM F} {r : String} {table : Int} {t t' : Tape}
    (hc : H.setClusterAssignmentGibbs r table t = .ok (H', t'))
    (hQ : ∀ spec x, H.schema.find? r = some spec → H.relOf r = some x → AllIn Q spec.doms x.2.2.data) : HKeeps P H H' := by
  obtain ⟨_, _, hc⟩ := bind_ok.mp hc
  obtain ⟨rc, h1, hc⟩ := bind_ok.mp hc
  obtain ⟨cur, h2, hc⟩ := bind_ok.mp hc
  obtain ⟨⟨p, rel⟩, h0, hc⟩ := bind_ok.mp hc
  obtain ⟨spec, h3, hc⟩ := bind_ok.mp hc
  obtain ⟨I0, h4, hc⟩ := bind_ok.mp hc
  obtain ⟨I1, h5, hc⟩ := bind_ok.mp hc
  obtain ⟨I2, h6, hc⟩ := bind_ok.mp hc
  obtain ⟨⟨I3, t3⟩, h7, hc⟩ := bind_ok.mp hc
  obtain ⟨c1, h8, hc⟩ := bind_ok.mp hc
  obtain ⟨c2, h9, hc⟩ := bind_ok.mp hc
  obtain ⟨H2, h10, hc⟩ := bind_ok.mp hc
  obtain ⟨_, _, hc⟩ := bind_ok.mp hc
  cases hc
  refine ⟨fun h => (updateBase_keeps h10).all ?_⟩
  have hI1 : DomAll P I1.doms := (IRM.removeRelation_keeps h5).all (h _ _ (FMap.atKey_ok.mp h4))
  have ha : ∀ tb I, (if I1.rels.size = 0 then H.irms.erase cur else H.irms.set cur I1).find? tb = some I → DomAll P I.doms := by
    intro tb I hI
    split at hI
    · rw [FMap.find?_erase] at hI
      split at hI
      · cases hI
      · exact h _ _ hI
    · rw [FMap.find?_set] at hI
      split at hI
      · cases hI; exact hI1
      · exact h _ _ hI
  have hb : ∀ m : FMap Int (IRM F), (∀ tb I, m.find? tb = some I → DomAll P I.doms) →
      ∀ tb I, (if m.contains table then m else m.set table {}).find? tb = some I → DomAll P I.doms := by
    intro m hm tb I hI
    split at hI
    · exact hm _ _ hI
    · rw [FMap.find?_set] at hI
      split at hI
      · cases hI; intro d dom h; cases h
      · exact hm _ _ hI
  have hI3 : DomAll P I3.doms := (putRelation_keeps hP h7 (by obtain ⟨tb, id, g, _⟩ := getRelation_ok.mp h0; exact hQ spec _ (FMap.atKey_ok.mp h3) g)).all (hb _ ha _ _ (FMap.atKey_ok.mp h6))
  intro tb I hI
  dsimp only at hI
  rw [FMap.find?_set] at hI
  split at hI
  · cases hI; exact hI3
  · exact hb _ ha _ _ hI

theorem addRelation_keeps (hP : DomClosed P Q) {H H' : HIRM F} {name : String} {spec : RelSpec F} {t t' : Tape}
    (hc : H.addRelation name spec t = .ok (H', t')) : HKeeps P H H' := by
  obtain ⟨_, h1, hc⟩ := bind_ok.mp hc
  obtain ⟨c', h2, hc⟩ := bind_ok.mp hc
  have key : ∀ btn : FMap String (List String), (do
      let H2 : HIRM F := { H with
        schema := H.schema.set name spec, crp := c', baseToNoisy := btn,
        irms := if H.irms.contains (H.crp.sample t).1 then H.irms else H.irms.set (H.crp.sample t).1 {} }
      let I ← H2.irms.atKey (H.crp.sample t).1
      let I ← H2.addRelationToIrm I name spec
      assertR (!H2.relToCode.contains name)
      assertR (!H2.codeToRel.contains (1 + H.codeToRel.maxKey?.getD 0))
      .ok ({ H2 with
        irms := H2.irms.set (H.crp.sample t).1 I, relToCode := H2.relToCode.set name (1 + H.codeToRel.maxKey?.getD 0),
        codeToRel := H2.codeToRel.set (1 + H.codeToRel.maxKey?.getD 0) name, next := H2.next + 1 }, (H.crp.sample t).2) : Res (HIRM F × Tape)) =
        .ok (H', t') → HKeeps P H H' := by
    intro btn hc
    obtain ⟨J, h3, hc⟩ := bind_ok.mp hc
    obtain ⟨I, h4, hc⟩ := bind_ok.mp hc
    obtain ⟨_, h5, hc⟩ := bind_ok.mp hc
    obtain ⟨_, h6, hc⟩ := bind_ok.mp hc
    cases hc
    refine ⟨fun h => ?_⟩
    have ha : ∀ tb I, (if H.irms.contains (H.crp.sample t).1 then H.irms else H.irms.set (H.crp.sample t).1 {}).find? tb = some I → DomAll P I.doms := by
      intro tb I hI
      split at hI
      · exact h _ _ hI
      · rw [FMap.find?_set] at hI
        split at hI
        · cases hI; intro d dom h; cases h
        · exact h _ _ hI
    intro tb K hK
    dsimp only at hK
    rw [FMap.find?_set] at hK
    split at hK
    · cases hK; exact (addRelationToIrm_keeps hP h4).all (ha _ _ (FMap.atKey_ok.mp h3))
    · exact ha _ _ hK
  cases spec with
  | clean c ds o =>
    dsimp only at hc
    obtain ⟨b, hb, hc⟩ := bind_ok.mp hc
    cases hb
    exact key _ hc
  | noisy e ds b o =>
    dsimp only at hc
    split at hc
    · obtain ⟨_, _, hc⟩ := bind_ok.mp hc
      cases hc
    · obtain ⟨b, hb, hc⟩ := bind_ok.mp hc
      cases hb
      exact key _ hc

theorem removeRelation_keeps {H H' : HIRM F} {name : String} (hc : H.removeRelation name = .ok H') : HKeeps P H H' := by
  obtain ⟨rc, tb, s, c', I, I', _, _, _, _, hI, hr, _, rfl⟩ := removeRelation_inv hc
  refine ⟨fun h u K hK => ?_⟩
  dsimp only at hK
  split at hK
  · rw [FMap.find?_erase] at hK
    split at hK
    · cases hK
    · exact h _ _ hK
  · rw [FMap.find?_set] at hK
    split at hK
    · cases hK; exact (IRM.removeRelation_keeps hr).all (h _ _ hI)
    · exact h _ _ hK

theorem History.domains (hP : DomClosed P Q) (hQ : ∀ d i, Q d i) {H : HIRM F} (h : History H) : ∀ tb I, H.irms.find? tb = some I → DomAll P I.doms := by
  induction h with
  | empty => intro tb I h; cases h
  | add _ hc ih => exact (addRelation_keeps hP hc).all ih
  | remove _ hc ih => exact (removeRelation_keeps hc).all ih
  | incorporate _ hc ih => exact (incorporate_keeps hP hc (fun _ _ d i _ => hQ d i)).all ih
  | unincorporate _ hc ih => exact (unincorporate_keeps hP hc).all ih
  | move _ hc ih => exact (transitionRelation_keeps hP hc (fun _ _ _ _ _ _ d i _ => hQ d i)).all ih
  | set _ hc ih => exact (setClusterAssignmentGibbs_keeps hP hc (fun _ _ _ _ _ _ d i _ => hQ d i)).all ih
  | latent _ hc ih => exact (transitionLatentRelation_keeps hc).all ih
  | item _ hI hc ih => exact (HKeeps.setIrm hI (IRM.transitionItem_keeps hP hc)).all ih
  | step _ hc ih => exact (stepIrms_keeps hP _ _ _ _ hc).all ih
  | logp _ hc ih => exact (logp_keeps hc).all ih
  | sampleOne _ hc ih => exact (sampleRelation_keeps hP hQ _ _ _ _ _ _ hc).all ih
  | sample _ hc ih => exact (sampleAndIncorporate_keeps hP hQ hc).all ih
  | @seat H tb I d dom dom' i table t t' _ hI hd hc ih =>
    intro u J hJ
    dsimp only at hJ
    rw [FMap.find?_set] at hJ
    split at hJ
    · cases hJ
      exact (ih tb I hI).set (hP.incorporate (hQ d i) (ih tb I hI d dom hd) hc)
    · exact ih u J hJ
  | cleanup _ hc ih => exact (cleanupLoop_keeps _ _ _ hc).all ih

end HIRM
end
end Verif
