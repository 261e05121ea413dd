import Verif.Lemmas.TidyDom
import Verif.Lemmas.Known
import Verif.Lemmas.KnownLoad
/-!
The invariant that needs nothing about the distributions and that every operation keeps: the domains are consistent, the relations of a domain are listed,
and every entity of a stored tuple is seated.
-/
namespace Verif
noncomputable section
variable {V : Type} {F : Family V}

/-! ### Nothing leaves its domain -/

/-- the entity is in the domain -/
def Seated (σ : Doms) (d : String) (i : Int) : Prop := ∃ dom, σ.find? d = some dom ∧ dom.items.contains i = true

/-- the same domains, and every entity stays -/
structure SeatsIn (σ σ' : Doms) : Prop where
  here : ∀ d dom, σ.find? d = some dom → ∃ dom', σ'.find? d = some dom' ∧ ∀ i, dom.items.contains i = true → dom'.items.contains i = true
  gone : ∀ d, σ.find? d = none → σ'.find? d = none

theorem SeatsIn.refl (σ : Doms) : SeatsIn σ σ := ⟨fun _ dom h => ⟨dom, h, fun _ h => h⟩, fun _ h => h⟩

theorem SeatsIn.trans {σ σ₁ σ₂ : Doms} (h : SeatsIn σ σ₁) (h' : SeatsIn σ₁ σ₂) : SeatsIn σ σ₂ := by
  refine ⟨fun d dom hd => ?_, fun d hd => h'.gone d (h.gone d hd)⟩
  obtain ⟨dom₁, h1, h2⟩ := h.here d dom hd
  obtain ⟨dom₂, h3, h4⟩ := h'.here d dom₁ h1
  exact ⟨dom₂, h3, fun i hi => h4 i (h2 i hi)⟩

theorem SeatsIn.seated {σ σ' : Doms} (h : SeatsIn σ σ') {d : String} {i : Int} (hs : Seated σ d i) : Seated σ' d i := by
  obtain ⟨dom, h1, h2⟩ := hs
  obtain ⟨dom', h3, h4⟩ := h.here d dom h1
  exact ⟨dom', h3, h4 i h2⟩

theorem SeatsIn.contains {σ σ' : Doms} (h : SeatsIn σ σ') (d : String) : σ'.contains d = σ.contains d := by
  cases hd : σ.find? d with
  | none => rw [FMap.contains_false.mpr hd, FMap.contains_false.mpr (h.gone d hd)]
  | some dom =>
    obtain ⟨dom', h1, _⟩ := h.here d dom hd
    rw [FMap.contains_iff.mpr ⟨_, hd⟩, FMap.contains_iff.mpr ⟨_, h1⟩]

theorem SeatsIn.set {σ : Doms} {d : String} {dom dom' : Domain} (hd : σ.find? d = some dom) (h : ∀ i, dom.items.contains i = true → dom'.items.contains i = true) :
    SeatsIn σ (σ.set d dom') := by
  refine ⟨fun e x hx => ?_, fun e hx => ?_⟩
  · rw [FMap.find?_set]
    split
    · rename_i he; subst he; rw [hd] at hx; cases hx; exact ⟨dom', rfl, h⟩
    · exact ⟨x, hx, fun _ h => h⟩
  · rw [FMap.find?_set, if_neg (fun he => by subst he; rw [hd] at hx; cases hx)]
    exact hx

theorem Domain.incorporate_items {dom dom' : Domain} {i table : Int} {t t' : Tape} (h : dom.incorporate i t table = .ok (dom', t')) :
    dom'.items.contains i = true ∧ ∀ j, dom.items.contains j = true → dom'.items.contains j = true := by
  unfold Domain.incorporate at h
  split at h
  · rename_i hi
    obtain ⟨_, _, h⟩ := bind_ok.mp h
    cases h
    exact ⟨hi, fun _ h => h⟩
  · dsimp only at h
    obtain ⟨crp, _, h⟩ := bind_ok.mp h
    cases h
    refine ⟨FMap.contains_iff_mem.mpr (FSet.mem_insert.mpr (.inl rfl)), fun j hj => ?_⟩
    exact FMap.contains_iff_mem.mpr (FSet.mem_insert.mpr (.inr (FMap.contains_iff_mem.mp hj)))

theorem CleanRel.incLoop_seats {items : Items} : ∀ (ds : List String) (is : Items) (σ : Doms) (m : RevIndex) (t : Tape)
    (x : Doms × RevIndex × Tape), CleanRel.incLoop items ds is σ m t = .ok x → SeatsIn σ x.1 ∧ ∀ d i, Uses ds d i is → Seated x.1 d i := by
  intro ds
  induction ds with
  | nil => intro is σ m t x hc; cases hc; exact ⟨.refl _, fun d i h => by cases h⟩
  | cons d ds ih =>
    intro is σ m t x hc
    cases is with
    | nil => cases hc
    | cons i is =>
      obtain ⟨dom, h1, h2⟩ := bind_ok.mp hc
      obtain ⟨⟨dom', t1⟩, h3, h4⟩ := bind_ok.mp h2
      obtain ⟨m', _, h6⟩ := bind_ok.mp h4
      obtain ⟨a, b⟩ := Domain.incorporate_items h3
      obtain ⟨c, e⟩ := ih _ _ _ _ _ h6
      refine ⟨(SeatsIn.set (Doms.get_ok h1) b).trans c, fun d' i' hu => ?_⟩
      rcases List.mem_cons.mp hu with hu | hu
      · cases hu
        exact c.seated ⟨dom', FMap.find?_set_self _ _ _, a⟩
      · exact e d' i' hu

theorem CleanRel.incorporateItems_seats {W : Type} {D : DistOps W} {σ : Doms} {r : CleanRel D} {items : Items} {t : Tape}
    {x : Items × Doms × CleanRel D × Tape} (hc : CleanRel.incorporateItems σ r items t = .ok x) : SeatsIn σ x.2.1 ∧ ∀ d i, Uses r.doms d i items → Seated x.2.1 d i := by
  obtain ⟨_, _, h1⟩ := bind_ok.mp hc
  obtain ⟨y, h2, h3⟩ := bind_ok.mp h1
  obtain ⟨z, _, h4⟩ := bind_ok.mp h3
  have := CleanRel.incLoop_seats _ _ _ _ _ _ h2
  dsimp only at h4
  split at h4 <;> · cases h4; exact this

theorem CleanRel.incorporate_seats {W : Type} {D : DistOps W} {σ : Doms} {r : CleanRel D} {items : Items} {v : W} {t : Tape}
    {x : Doms × CleanRel D × Tape} (hc : CleanRel.incorporate σ r items v t = .ok x) : SeatsIn σ x.1 ∧ ∀ d i, Uses r.doms d i items → Seated x.1 d i := by
  obtain ⟨y, h1, h2⟩ := bind_ok.mp hc
  obtain ⟨_, _, h3⟩ := bind_ok.mp h2
  obtain ⟨_, _, h4⟩ := bind_ok.mp h3
  cases h4
  exact CleanRel.incorporateItems_seats h1

theorem Rel.incorporate_seats {σ : Doms} {b : Option (BaseView V)} {r : Rel F} {items : Items} {v : V} {t : Tape}
    {x : Doms × Rel F × Tape} (hc : r.incorporate σ b items v t = .ok x) : SeatsIn σ x.1 ∧ ∀ d i, Uses r.inner d i items → Seated x.1 d i := by
  cases r with
  | clean c r =>
    obtain ⟨y, h1, h2⟩ := bind_ok.mp hc
    cases h2
    exact CleanRel.incorporate_seats h1
  | noisy e p r =>
    obtain ⟨_, _, h0⟩ := bind_ok.mp hc
    obtain ⟨y, h1, h2⟩ := bind_ok.mp h0
    cases h2
    obtain ⟨_, _, h3⟩ := bind_ok.mp h1
    obtain ⟨_, _, h4⟩ := bind_ok.mp h3
    obtain ⟨y, h5, h6⟩ := bind_ok.mp h4
    cases h6
    exact CleanRel.incorporate_seats h5

theorem Rel.sampleAndIncorporate_seats {σ : Doms} {b : Option (BaseView V)} {r : Rel F} {items : Items} {t : Tape}
    {x : V × Doms × Rel F × Tape} (hc : r.sampleAndIncorporate σ b items t = .ok x) : SeatsIn σ x.2.1 ∧ ∀ d i, Uses r.inner d i items → Seated x.2.1 d i := by
  cases r with
  | clean c r =>
    obtain ⟨y, h1, h2⟩ := bind_ok.mp hc
    cases h2
    obtain ⟨z, h3, h4⟩ := bind_ok.mp h1
    obtain ⟨_, _, h5⟩ := bind_ok.mp h4
    obtain ⟨_, _, h6⟩ := bind_ok.mp h5
    obtain ⟨_, _, h7⟩ := bind_ok.mp h6
    cases h7
    exact CleanRel.incorporateItems_seats h3
  | noisy e p r =>
    obtain ⟨_, _, h0⟩ := bind_ok.mp hc
    obtain ⟨y, h1, h2⟩ := bind_ok.mp h0
    cases h2
    obtain ⟨z, h3, h4⟩ := bind_ok.mp h1
    obtain ⟨_, _, h5⟩ := bind_ok.mp h4
    obtain ⟨_, _, h6⟩ := bind_ok.mp h5
    obtain ⟨_, _, h7⟩ := bind_ok.mp h6
    obtain ⟨_, _, h8⟩ := bind_ok.mp h7
    obtain ⟨_, _, h9⟩ := bind_ok.mp h8
    cases h9
    exact CleanRel.incorporateItems_seats h3

namespace IRM

/-- the same lists of relations, the same domains, and every entity stays -/
structure Stays (I I' : IRM F) : Prop where
  index : I'.domToRels = I.domToRels
  seats : SeatsIn I.doms I'.doms

theorem Stays.refl (I : IRM F) : Stays I I := ⟨rfl, .refl _⟩

theorem Stays.trans {I I₁ I₂ : IRM F} (h : Stays I I₁) (h' : Stays I₁ I₂) : Stays I I₂ := ⟨h'.index.trans h.index, h.seats.trans h'.seats⟩

theorem scoreItem_stays {d : String} {item : Int} {tables : List Int} : ∀ (l : List String) (I : IRM F) (lps : List ℝ) (t : Tape)
    (x : List ℝ × IRM F × Tape), scoreItem d item tables l I lps t = .ok x → Stays I x.2.1 := by
  intro l
  induction l with
  | nil => intro I lps t x hc; cases hc; exact .refl _
  | cons r l ih =>
    intro I lps t x hc
    obtain ⟨⟨id, rel⟩, h1, h2⟩ := bind_ok.mp hc
    obtain ⟨b, _, h3⟩ := bind_ok.mp h2
    split at h3
    · obtain ⟨_, _, h4⟩ := bind_ok.mp h3
      obtain ⟨_, _, h5⟩ := bind_ok.mp h4
      obtain ⟨_, _, h6⟩ := bind_ok.mp h5
      refine Stays.trans ?_ (ih _ _ _ _ h6)
      exact ⟨rfl, .refl _⟩
    · exact ih _ _ _ _ h3

theorem moveRels_stays {d : String} {item table : Int} : ∀ (l : List String) (I : IRM F) (t : Tape)
    (x : IRM F × Tape), moveRels d item table l I t = .ok x → Stays I x.1 := by
  intro l
  induction l with
  | nil => intro I t x hc; cases hc; exact .refl _
  | cons r l ih =>
    intro I t x hc
    obtain ⟨⟨id, rel⟩, h1, h2⟩ := bind_ok.mp hc
    obtain ⟨b, _, h3⟩ := bind_ok.mp h2
    split at h3
    · obtain ⟨_, _, h4⟩ := bind_ok.mp h3
      refine Stays.trans ?_ (ih _ _ _ h4)
      exact ⟨rfl, .refl _⟩
    · exact ih _ _ _ h3

theorem transitionItem_stays {I I' : IRM F} {d : String} {item : Int} {t t' : Tape} (hc : transitionItem I d item t = .ok (I', t')) : Stays I I' := by
  obtain ⟨⟨tables, lps, order, I1, t1⟩, h1, h2⟩ := bind_ok.mp hc
  obtain ⟨dom0, h3, h1⟩ := bind_ok.mp h1
  obtain ⟨w, h4, h1⟩ := bind_ok.mp h1
  obtain ⟨_, _, h1⟩ := bind_ok.mp h1
  obtain ⟨y, h6, h1⟩ := bind_ok.mp h1
  cases h1
  have hd1 := scoreItem_stays _ _ _ _ _ h6
  obtain ⟨_, _, h2⟩ := bind_ok.mp h2
  obtain ⟨z, h5, h2⟩ := bind_ok.mp h2
  obtain ⟨dom, h7, h2⟩ := bind_ok.mp h2
  obtain ⟨cur, _, h2⟩ := bind_ok.mp h2
  split at h2
  · obtain ⟨⟨I2, t2⟩, h8, h2⟩ := bind_ok.mp h2
    obtain ⟨dom', h9, h2⟩ := bind_ok.mp h2
    cases h2
    have hd2 := moveRels_stays _ _ _ _ h8
    refine hd1.trans (hd2.trans ⟨rfl, ?_⟩)
    have hi : dom'.items = dom.items := by
      obtain ⟨_, _, hc⟩ := bind_ok.mp h9
      obtain ⟨_, _, hc⟩ := bind_ok.mp hc
      obtain ⟨_, _, hc⟩ := bind_ok.mp hc
      obtain ⟨_, _, hc⟩ := bind_ok.mp hc
      obtain ⟨_, _, hc⟩ := bind_ok.mp hc
      cases hc
      rfl
    refine SeatsIn.set (dom := dom) ?_ (fun i h => by rw [hi]; exact h)
    have : I2.doms = y.2.1.doms := moveRels_doms _ _ _ _ h8
    rw [this]
    exact FMap.atKey_ok.mp h7
  · cases h2
    exact hd1

theorem transitionItems_stays {d : String} : ∀ (l : List Int) (I : IRM F) (t : Tape) (x : IRM F × Tape), transitionItems d l I t = .ok x → Stays I x.1 := by
  intro l
  induction l with
  | nil => intro I t x hc; cases hc; exact .refl _
  | cons r l ih =>
    intro I t x hc
    obtain ⟨⟨I1, t1⟩, h1, h2⟩ := bind_ok.mp hc
    exact (transitionItem_stays h1).trans (ih _ _ _ h2)

theorem transitionDomains_stays : ∀ (l : List String) (I : IRM F) (t : Tape) (x : IRM F × Tape), transitionDomains l I t = .ok x → Stays I x.1 := by
  intro l
  induction l with
  | nil => intro I t x hc; cases hc; exact .refl _
  | cons r l ih =>
    intro I t x hc
    obtain ⟨dom, _, h1⟩ := bind_ok.mp hc
    obtain ⟨⟨I1, t1⟩, h2, h3⟩ := bind_ok.mp h1
    exact (transitionItems_stays _ _ _ _ h2).trans (ih _ _ _ h3)

theorem hparamsSweep_stays {n : Nat} : ∀ (l : List String) (I : IRM F) (t : Tape) (x : IRM F × Tape), hparamsSweep n l I t = .ok x → Stays I x.1 := by
  intro l
  induction l with
  | nil => intro I t x hc; cases hc; exact .refl _
  | cons r l ih =>
    intro I t x hc
    obtain ⟨⟨id, rel⟩, h1, h2⟩ := bind_ok.mp hc
    refine Stays.trans ?_ (ih _ _ _ h2)
    exact ⟨rfl, .refl _⟩

theorem alphaSweep_stays : ∀ (l : List String) (I : IRM F) (t : Tape) (x : IRM F × Tape), alphaSweep l I t = .ok x → Stays I x.1 := by
  intro l
  induction l with
  | nil => intro I t x hc; cases hc; exact .refl _
  | cons r l ih =>
    intro I t x hc
    obtain ⟨dom, h1, h2⟩ := bind_ok.mp hc
    refine Stays.trans ?_ (ih _ _ _ h2)
    exact ⟨rfl, SeatsIn.set (FMap.atKey_ok.mp h1) (fun _ h => h)⟩

theorem singleStep_stays {I I' : IRM F} {n : Nat} {t t' : Tape} (hc : singleStep I n false t = .ok (I', t')) : Stays I I' := by
  obtain ⟨⟨I0, t0⟩, h0, h1⟩ := bind_ok.mp hc
  cases h0
  obtain ⟨⟨I1, t1⟩, h2, h3⟩ := bind_ok.mp h1
  obtain ⟨⟨I2, t2⟩, h4, h5⟩ := bind_ok.mp h3
  exact (transitionDomains_stays _ _ _ _ h2).trans ((hparamsSweep_stays _ _ _ _ h4).trans (alphaSweep_stays _ _ _ _ h5))

/-! ### The invariant -/

/-- The relations are indexed, the relations of each domain are listed, the domains are consistent, and the entities of the stored tuples are seated. -/
structure Sound (I : IRM F) : Prop where
  tidy : I.Tidy
  names : ∀ d, I.domToRels.contains d = I.doms.contains d
  index : ∀ n x, I.rels.find? n = some x → ∀ d ∈ x.2.doms, ∃ s, I.domToRels.find? d = some s ∧ n ∈ s.keys
  doms : DomAll TidyDom I.doms
  seated : ∀ n x, I.rels.find? n = some x → ∀ k, x.2.data.contains k = true → ∀ d i, Uses x.2.doms d i k → Seated I.doms d i

theorem Sound.empty : Sound ({} : IRM F) :=
  ⟨.empty, fun _ => rfl, (fun _ _ h => by cases h), (fun _ _ h => by cases h), (fun _ _ h => by cases h)⟩

theorem Sound.next {P : String → Prop} {I I' : IRM F} (h : Sound I) (hn : Next P I I') (hs : Stays I I') (ht : DomAll TidyDom I.doms → DomAll TidyDom I'.doms)
    (hk : ∀ n x y, I.rels.find? n = some x → I'.rels.find? n = some y → ∀ k, y.2.data.contains k = true →
      x.2.data.contains k = true ∨ ∀ d i, Uses x.2.doms d i k → Seated I'.doms d i) : Sound I' where
  tidy := hn.tidy h.tidy
  names d := by rw [hs.index, hs.seats.contains]; exact h.names d
  index n y hy d hd := by
    cases hx : I.rels.find? n with
    | none => rw [hn.none n hx] at hy; cases hy
    | some x =>
      obtain ⟨y', h1, h2, _⟩ := hn.some n x hx
      rw [hy] at h1; cases h1
      rw [h2.doms] at hd
      rw [hs.index]
      exact h.index n x hx d hd
  doms := ht h.doms
  seated n y hy k hc d i hu := by
    cases hx : I.rels.find? n with
    | none => rw [hn.none n hx] at hy; cases hy
    | some x =>
      obtain ⟨y', h1, h2, _⟩ := hn.some n x hx
      rw [hy] at h1; cases h1
      rw [h2.doms] at hu
      rcases hk n x y hx hy k hc with h3 | h3
      · exact hs.seats.seated (h.seated n x hx k h3 d i hu)
      · exact h3 d i hu

theorem Sound.singleStep {I I' : IRM F} (h : Sound I) {n : Nat} {t t' : Tape} (hc : singleStep I n false t = .ok (I', t')) : Sound I' := by
  have hn := singleStep_next (P := fun _ => False) hc
  refine h.next hn (singleStep_stays hc) (singleStep_keeps tidyDom_closed hc).all (fun m x y hx hy k hk => .inl ?_)
  obtain ⟨y', h1, _, h3⟩ := hn.some m x hx
  rw [hy] at h1; cases h1
  rw [← h3 id]; exact hk

/-- one relation and the domains change -/
theorem Sound.put {I : IRM F} (h : Sound I) {r : String} {id id' : Nat} {rel rel' : Rel F} {σ : Doms} (hr : I.rels.find? r = some (id, rel)) (hn : Rel.Next rel rel')
    (hs : SeatsIn I.doms σ) (ht : DomAll TidyDom σ)
    (hk : ∀ k, rel'.data.contains k = true → rel.data.contains k = true ∨ ∀ d i, Uses rel.doms d i k → Seated σ d i) :
    Sound { I with doms := σ, rels := I.rels.set r (id', rel') } := by
  have hnx : Next (fun n => n = r) I { I with doms := σ, rels := I.rels.set r (id', rel') } := by
    refine ⟨rfl, fun n hx => ?_, fun n x hx => ?_⟩
    · show (I.rels.set r (id', rel')).find? n = none
      rw [FMap.find?_set, if_neg (fun e => by subst e; rw [hr] at hx; cases hx)]
      exact hx
    · by_cases e : n = r
      · subst e
        rw [hr] at hx; cases hx
        exact ⟨(id', rel'), FMap.find?_set_self _ _ _, hn, fun h => absurd rfl h⟩
      · exact ⟨x, (FMap.find?_set_ne _ e _).trans hx, .refl _, fun _ => rfl⟩
  refine h.next hnx ⟨rfl, hs⟩ (fun _ => ht) (fun n x y hx hy k hc => ?_)
  replace hy : (I.rels.set r (id', rel')).find? n = some y := hy
  rw [FMap.find?_set] at hy
  split at hy
  · rename_i e
    cases hy
    rw [e, hr] at hx; cases hx
    exact hk k hc
  · rw [hx] at hy; cases hy
    exact .inl hc

theorem Sound.incorporate {I I' : IRM F} (h : Sound I) {env : Env V} {r : String} {items : Items} {v : V} {t t' : Tape}
    (hc : incorporate env I r items v t = .ok (I', t')) : Sound I' := by
  have hk := (incorporate_keeps (Q := fun _ _ => True) tidyDom_closed hc (fun _ _ _ _ _ => trivial)).all h.doms
  obtain ⟨⟨id, rel⟩, h1, h2⟩ := bind_ok.mp hc
  obtain ⟨⟨σ, rel', t1⟩, h4, h3⟩ := bind_ok.mp h2
  cases h3
  have hr := FMap.atKey_ok.mp h1
  obtain ⟨a, b⟩ := Rel.incorporate_next h4
  obtain ⟨c, d⟩ := Rel.incorporate_seats h4
  refine h.put hr a c hk (fun k hk => ?_)
  rw [b, FMap.contains_iff_mem, FMap.keys_set_mem] at hk
  rcases hk with rfl | hk
  · refine .inr ?_
    have := (h.tidy r _ hr).1.inner
    rw [← this]
    exact d
  · exact .inl (FMap.contains_iff_mem.mpr hk)

/-! ### An entity leaves -/

theorem anyHas_false {I : IRM F} {d : String} {i : Int} : ∀ (l : List String) (b : Bool), anyHas I d i l b = .ok false →
    b = false ∧ ∀ n ∈ l, ∃ x, I.rels.find? n = some x ∧ x.2.hasObservation d i = .ok false := by
  intro l
  induction l with
  | nil => intro b hc; cases hc; exact ⟨rfl, fun n h => by cases h⟩
  | cons r l ih =>
    intro b hc
    obtain ⟨⟨id, rel⟩, h1, h2⟩ := bind_ok.mp hc
    obtain ⟨h, h3, h4⟩ := bind_ok.mp h2
    obtain ⟨h5, h6⟩ := ih _ h4
    rw [Bool.or_eq_false_iff] at h5
    refine ⟨h5.1, fun n hn => ?_⟩
    rcases List.mem_cons.mp hn with rfl | hn
    · exact ⟨_, FMap.atKey_ok.mp h1, by rw [← h5.2]; exact h3⟩
    · exact h6 n hn

theorem _root_.Verif.Rel.hasObservation_false {r : Rel F} (hi : r.Indexed) {d : String} {i : Int} (h : r.hasObservation d i = .ok false) {k : Items}
    (hk : r.data.contains k = true) (hu : Uses r.doms d i k) : False := by
  have key : ∀ {W : Type} {D : DistOps W} {q : CleanRel D}, q.Indexed → q.hasObservation d i = .ok false → q.data.contains k = true → Uses q.doms d i k → False := by
    intro W D q hi h hk hu
    obtain ⟨m, h1, h2⟩ := bind_ok.mp h
    have h2 : m.contains i = false := Except.ok.inj h2
    obtain ⟨s, hs, _⟩ := (hi.idx.mem d m i k (FMap.atKey_ok.mp h1)).mpr ⟨hk, hu⟩
    rw [FMap.contains_false] at h2
    rw [h2] at hs; cases hs
  cases r with
  | clean c q => exact key hi h hk hu
  | noisy e p q =>
    replace hi : q.Indexed := hi
    refine key hi.em h ?_ ?_
    · rw [hi.keys]; exact hk
    · rw [hi.doms]; exact hu

theorem Sound.leave {I : IRM F} (h : Sound I) {d : String} {i : Int} {dom dom' : Domain} (hd : I.doms.find? d = some dom) (ho : I.hasObservation d i = .ok false)
    (hc : dom.unincorporate i = .ok dom') : Sound { I with doms := I.doms.set d dom' } where
  tidy := h.tidy
  names e := by
    show I.domToRels.contains e = (I.doms.set d dom').contains e
    rw [h.names e, Bool.eq_iff_iff, FMap.contains_iff_mem, FMap.contains_iff_mem, FMap.keys_set_mem]
    constructor
    · exact Or.inr
    · rintro (rfl | h)
      · exact FMap.mem_keys.mpr ⟨_, hd⟩
      · exact h
  index := h.index
  doms := h.doms.set (tidyDom_closed.unincorporate (h.doms _ _ hd) hc)
  seated n x hx k hk e j hu := by
    obtain ⟨dm, h1, h2⟩ := h.seated n x hx k hk e j hu
    show Seated (I.doms.set d dom') e j
    by_cases he : e = d
    · subst he
      rw [hd] at h1; cases h1
      refine ⟨dom', FMap.find?_set_self _ _ _, ?_⟩
      have hji : j ≠ i := by
        rintro rfl
        obtain ⟨s, h3, h4⟩ := h.index n x hx e (List.of_mem_zip hu).1
        obtain ⟨names, h5, ho⟩ := bind_ok.mp ho
        obtain ⟨_, _, ho⟩ := bind_ok.mp ho
        rw [FMap.atKey_ok.mp h5] at h3; cases h3
        obtain ⟨x', h6, h7⟩ := (anyHas_false _ _ ho).2 n h4
        rw [hx] at h6; cases h6
        exact Rel.hasObservation_false (h.tidy n x hx).1 h7 hk hu
      obtain ⟨_, _, hc⟩ := bind_ok.mp hc
      obtain ⟨crp, _, hc⟩ := bind_ok.mp hc
      cases hc
      show (dom.items.erase i).contains j = true
      rw [FMap.contains_iff_mem, FMap.keys_erase_mem]
      exact ⟨hji, FMap.contains_iff_mem.mp h2⟩
    · exact ⟨dm, (FMap.find?_set_ne _ he _).trans h1, h2⟩

/-! ### An entity comes back -/

theorem _root_.Verif.TidyDom.join {d : String} {dom dom' : Domain} {i table : Int} {t t' : Tape} (h : TidyDom d dom)
    (hc : dom.incorporate i t table = .ok (dom', t')) : TidyDom d dom' := tidyDom_closed.incorporate trivial h hc

theorem Sound.join {I : IRM F} (h : Sound I) {d : String} {i table : Int} {dom dom' : Domain} {t t' : Tape} (hd : I.doms.find? d = some dom)
    (hi : dom.items.contains i = false) (hc : dom.incorporate i t table = .ok (dom', t')) : Sound { I with doms := I.doms.set d dom' } := by
  have hs := SeatsIn.set hd (Domain.incorporate_items hc).2
  exact h.next (P := fun _ => False) ⟨rfl, fun _ h => h, fun _ x hx => ⟨x, hx, .refl _, fun _ => rfl⟩⟩ ⟨rfl, hs⟩ (fun ha => ha.set ((ha _ _ hd).join hc))
    (fun n x y hx hy k hk => .inl (by
      replace hy : I.rels.find? n = some y := hy
      rw [hx] at hy; cases hy; exact hk))

/-! ### Relations come and go -/

theorem Sound.add {I : IRM F} (h : Sound I) {σ : Doms} {m : FMap String (FSet String)} {name : String} {ds : List String} {id : Nat} {rel : Rel F} {spec : RelSpec F}
    {b : FMap String (List String)}
    (hσ : ∀ d, σ.find? d = if d ∈ ds ∧ I.doms.find? d = none then some { name := d } else I.doms.find? d)
    (hm : ∀ d, m.find? d = if d ∈ ds then some (FSet.insert ((I.domToRels.find? d).getD ∅) name) else I.domToRels.find? d)
    (hi : rel.Indexed) (hd : rel.doms = ds) (hs : spec.doms = ds) (hdata : rel.data = ∅) :
    Sound { schema := I.schema.set name spec, doms := σ, rels := I.rels.set name (id, rel), domToRels := m, baseToNoisy := b } where
  tidy := by
    intro n x hx
    replace hx : (I.rels.set name (id, rel)).find? n = some x := hx
    show x.2.Indexed ∧ ∃ sp, (I.schema.set name spec).find? n = some sp ∧ x.2.doms = sp.doms
    rw [FMap.find?_set] at hx ⊢
    split at hx
    · rename_i e
      cases hx
      rw [if_pos e]
      exact ⟨hi, spec, rfl, hd.trans hs.symm⟩
    · rename_i e
      rw [if_neg e]
      exact h.tidy n x hx
  names d := by
    show m.contains d = σ.contains d
    have hn := h.names d
    rw [Bool.eq_iff_iff, FMap.contains_iff, FMap.contains_iff] at hn ⊢
    rw [hm, hσ]
    by_cases hds : d ∈ ds
    · rw [if_pos hds]
      cases hdd : I.doms.find? d with
      | none => rw [if_pos ⟨hds, rfl⟩]; exact ⟨fun _ => ⟨_, rfl⟩, fun _ => ⟨_, rfl⟩⟩
      | some dom => rw [if_neg (by simp)]; exact ⟨fun _ => ⟨_, rfl⟩, fun _ => ⟨_, rfl⟩⟩
    · rw [if_neg hds, if_neg (fun x => hds x.1)]
      exact hn
  index n x hx d hdx := by
    replace hx : (I.rels.set name (id, rel)).find? n = some x := hx
    show ∃ s, m.find? d = some s ∧ n ∈ s.keys
    rw [hm]
    rw [FMap.find?_set] at hx
    split at hx
    · rename_i e
      cases hx
      rw [hd] at hdx
      rw [if_pos hdx]
      exact ⟨_, rfl, FSet.mem_insert.mpr (.inl e)⟩
    · obtain ⟨s, h1, h2⟩ := h.index n x hx d hdx
      split
      · refine ⟨_, rfl, FSet.mem_insert.mpr (.inr ?_)⟩
        rw [h1]; exact h2
      · exact ⟨s, h1, h2⟩
  doms := by
    intro d dom hdm
    replace hdm : σ.find? d = some dom := hdm
    rw [hσ] at hdm
    split at hdm
    · cases hdm; exact tidyDom_closed.new d
    · exact h.doms d dom hdm
  seated n x hx k hk d i hu := by
    replace hx : (I.rels.set name (id, rel)).find? n = some x := hx
    show Seated σ d i
    rw [FMap.find?_set] at hx
    split at hx
    · cases hx
      rw [hdata] at hk
      cases hk
    · obtain ⟨dom, h1, h2⟩ := h.seated n x hx k hk d i hu
      refine ⟨dom, ?_, h2⟩
      rw [hσ, if_neg (by rw [h1]; simp)]
      exact h1

theorem _root_.Verif.CleanRel.mk'_data {W : Type} {D : DistOps W} {ds : List String} {r : CleanRel D} (h : CleanRel.mk' D ds = .ok r) : r.data = ∅ := by
  obtain ⟨_, _, h⟩ := bind_ok.mp h
  cases h
  rfl

theorem _root_.Verif.NoisyRel.mk'_data {E : DistOps (V × V)} {ds : List String} {r : NoisyRel E} (h : NoisyRel.mk' E ds = .ok r) : r.data = ∅ := by
  obtain ⟨_, _, h⟩ := bind_ok.mp h
  cases h
  rfl

theorem Sound.addClean {I I' : IRM F} (h : Sound I) {id : Nat} {name : String} {c : F.C} {ds : List String} {o : Bool}
    (hc : addClean id I name c ds o = .ok I') : Sound I' := by
  obtain ⟨_, _, hc⟩ := bind_ok.mp hc
  obtain ⟨_, _, hc⟩ := bind_ok.mp hc
  obtain ⟨I1, h1, hc⟩ := bind_ok.mp hc
  obtain ⟨r, h2, hc⟩ := bind_ok.mp hc
  cases hc
  obtain ⟨σ, m, h3, h4, h5⟩ := addDomains_ok (name := name) ds I h.names
  rw [h3] at h1; cases h1
  obtain ⟨i, d⟩ := CleanRel.Indexed.fresh h2
  exact h.add (rel := .clean c r) h4 h5 i d rfl (CleanRel.mk'_data h2)

theorem Sound.addWithBase {I I' : IRM F} (h : Sound I) {id : Nat} {name : String} {e : F.E} {ds : List String} {b : String} {o : Bool} {p : Ptr}
    (hc : addWithBase id I name e ds b o p = .ok I') : Sound I' := by
  obtain ⟨_, _, hc⟩ := bind_ok.mp hc
  obtain ⟨_, _, hc⟩ := bind_ok.mp hc
  obtain ⟨I1, h1, hc⟩ := bind_ok.mp hc
  obtain ⟨r, h2, hc⟩ := bind_ok.mp hc
  cases hc
  obtain ⟨σ, m, h3, h4, h5⟩ := addDomains_ok (name := name) ds I h.names
  rw [h3] at h1; cases h1
  obtain ⟨i, d⟩ := NoisyRel.Indexed.fresh h2
  exact h.add (rel := .noisy e p r) h4 h5 i d rfl (NoisyRel.mk'_data h2)

theorem Sound.remove {I I' : IRM F} (h : Sound I) {name : String} (hc : removeRelation I name = .ok I') : Sound I' := by
  have ht := removeRelation_tidy hc h.tidy
  obtain ⟨⟨id, rel⟩, h1, hc⟩ := bind_ok.mp hc
  obtain ⟨I1, h2, hc⟩ := bind_ok.mp hc
  cases hc
  have hr := FMap.atKey_ok.mp h1
  obtain ⟨σ, m, h3, h4, h5⟩ := dropDomains_ok (name := name) rel.doms.dedup I (List.nodup_dedup _) (by
    intro d hd
    obtain ⟨s, a, _⟩ := h.index name _ hr d (List.mem_dedup.mp hd)
    have := FMap.contains_iff.mpr ⟨_, a⟩
    exact ⟨this, by rw [← h.names]; exact this⟩)
  rw [h3] at h2; cases h2
  -- the domains of the relations that stay
  have hstay : ∀ n x, n ≠ name → I.rels.find? n = some x → ∀ d ∈ x.2.doms, σ.find? d = I.doms.find? d ∧ ∃ s, m.find? d = some s ∧ n ∈ s.keys := by
    intro n x hn hx d hd
    obtain ⟨s, a, b⟩ := h.index n x hx d hd
    by_cases hdr : d ∈ rel.doms.dedup
    · have := h5 d hdr s a
      have hne : n ∈ (s.erase name).keys := FMap.keys_erase_mem.mpr ⟨hn, b⟩
      rw [if_neg (by
        intro h0
        have : (s.erase name).keys = [] := List.length_eq_zero_iff.mp (by rw [← h0]; simp [FMap.size, FMap.keys])
        rw [this] at hne; cases hne)] at this
      exact ⟨this.1, _, this.2, hne⟩
    · obtain ⟨c, e⟩ := h4 d hdr
      exact ⟨c, s, e.trans a, b⟩
  refine ⟨ht, fun d => ?_, fun n x hx d hd => ?_, fun d dom hd => ?_, fun n x hx k hk d i hu => ?_⟩
  · show m.contains d = σ.contains d
    have hn := h.names d
    rw [Bool.eq_iff_iff, FMap.contains_iff, FMap.contains_iff] at hn ⊢
    by_cases hdr : d ∈ rel.doms.dedup
    · obtain ⟨s, a, _⟩ := h.index name _ hr d (List.mem_dedup.mp hdr)
      have := h5 d hdr s a
      split at this
      · rw [this.1, this.2]; simp
      · rw [this.1, this.2]
        exact ⟨fun _ => hn.mp ⟨_, a⟩, fun _ => ⟨_, rfl⟩⟩
    · obtain ⟨c, e⟩ := h4 d hdr
      rw [c, e]; exact hn
  · replace hx : (I.rels.erase name).find? n = some x := hx
    rw [FMap.find?_erase] at hx
    split at hx
    · cases hx
    · rename_i e
      exact (hstay n x e hx d hd).2
  · replace hd : σ.find? d = some dom := hd
    by_cases hdr : d ∈ rel.doms.dedup
    · obtain ⟨s, a, _⟩ := h.index name _ hr d (List.mem_dedup.mp hdr)
      have := h5 d hdr s a
      split at this
      · rw [this.1] at hd; cases hd
      · rw [this.1] at hd; exact h.doms d dom hd
    · rw [(h4 d hdr).1] at hd; exact h.doms d dom hd
  · replace hx : (I.rels.erase name).find? n = some x := hx
    rw [FMap.find?_erase] at hx
    split at hx
    · cases hx
    · rename_i e
      obtain ⟨dom, a, b⟩ := h.seated n x hx k hk d i hu
      exact ⟨dom, (hstay n x e hx d (List.of_mem_zip hu).1).1.trans a, b⟩

end IRM
end
end Verif
