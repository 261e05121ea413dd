import Verif.Lemmas.Reach
import Verif.Lemmas.NoisyRelation
import Verif.Spec.IRM
/-! Helper lemmas: the invariant of a relation of an IRM, and what each operation does to it. -/
namespace Verif
open Spec
noncomputable section
variable {V : Type}

namespace NoisyRel
variable {E : DistOps (V × V)} {supp : V × V → Prop}

/-- the part of `LinkInv` that does not speak about the base relation's values; `n` is its arity -/
structure LinkCore (n : Nat) (r : NoisyRel E) : Prop where
  doms : r.emission.doms = r.doms
  arity : n ≤ r.doms.length
  data : ∀ k, r.data.find? k = (r.emission.data.find? k).map Prod.snd
  map : MultiMap (fun bi k => r.data.contains k = true ∧ k.take n = bi) r.baseToNoisy

theorem LinkCore.contains {n : Nat} {r : NoisyRel E} (h : LinkCore n r) (k : Items) :
    r.emission.data.contains k = r.data.contains k := by
  simp [FMap.contains, h.data k]

theorem LinkCore.setEmission {n : Nat} {r : NoisyRel E} (h : LinkCore n r) {em : CleanRel E} (hd : em.doms = r.emission.doms)
    (he : em.data = r.emission.data) : LinkCore n { r with emission := em } where
  doms := hd.trans h.doms
  arity := h.arity
  data k := by dsimp only; rw [he]; exact h.data k
  map := h.map

theorem core_fresh {σ : Doms} {n : Nat} {doms : List String} {r : NoisyRel E} (hd : ∀ d ∈ doms, σ.contains d = true)
    (ha : n ≤ doms.length) (h : mk' E doms = .ok r) :
    CleanRel.Inv supp σ r.emission ∧ LinkCore n r ∧ r.doms = doms ∧ r.data = ∅ := by
  have := inv_fresh (supp := supp) (b := { arity := n, data := ∅ }) hd ha h
  refine ⟨this.em, ⟨this.link.doms, this.link.arity, this.link.data, this.link.map⟩, ?_⟩
  unfold mk' at h
  cases hm : CleanRel.mk' E doms with
  | error e => rw [hm] at h; cases h
  | ok em => rw [hm] at h; cases h; exact ⟨rfl, rfl⟩

theorem incorporate_core (L : Lawful E supp) {σ : Doms} (hσ : StoreWF σ) {b : BaseView V} {r : NoisyRel E}
    (hem : CleanRel.Inv supp σ r.emission) (h : LinkCore b.arity r)
    {items : Items} (hl : items.length = r.doms.length) (hn : r.data.find? items = none) {v bv : V}
    (hb : b.data.find? (items.take b.arity) = some bv) (hv : supp (bv, v)) (t : Tape) :
    ∃ σ' r' t', incorporate σ b r items v t = .ok (σ', r', t') ∧ StoreWF σ' ∧
      Grows (fun d i => Uses r.doms d i items) σ σ' ∧ CleanRel.Inv supp σ' r'.emission ∧ LinkCore b.arity r' ∧
      r'.doms = r.doms ∧ r'.data = r.data.set items v ∧ r'.emission.data = r.emission.data.set items (bv, v) := by
  have hn' : r.emission.data.find? items = none := by
    have := h.data items
    rw [hn] at this
    cases hp : r.emission.data.find? items with
    | none => rfl
    | some p => rw [hp] at this; cases this
  obtain ⟨σ', em', t', h1, h2, h3, h4, h5, h6, _⟩ :=
    CleanRel.incorporate_spec L hσ hem (by rw [h.doms]; exact hl) hn' hv t
  have ha : b.arity ≤ items.length := by rw [hl]; exact h.arity
  refine ⟨σ', { r with emission := em', data := r.data.set items v, baseToNoisy := link r.baseToNoisy (items.take b.arity) items }, t',
    ?_, h2, by rw [← h.doms]; exact h3, h4, ?_, rfl, rfl, h6⟩
  · simp [incorporate, baseItems, ha, bind, Except.bind, BaseView.getValue_eq hb, h1]
  · refine ⟨h5.trans h.doms, h.arity, ?_, ?_⟩
    · intro k
      dsimp only
      rw [h6, FMap.find?_set, FMap.find?_set]
      split
      · rfl
      · exact h.data k
    · refine (h.map.link (items.take b.arity) items).congr ?_
      intro bi k
      dsimp only
      simp only [FMap.contains, FMap.find?_set]
      by_cases hk : k = items
      · subst hk; simp [hn, eq_comm]
      · simp [hk]

theorem unincorporate_core (L : Lawful E supp) {σ : Doms} (hσ : StoreWF σ) {b : BaseView V} {r : NoisyRel E}
    (hem : CleanRel.Inv supp σ r.emission) (h : LinkCore b.arity r) {items : Items} {v : V} (hk : r.data.find? items = some v) :
    ∃ r', unincorporate σ b r items = .ok r' ∧ CleanRel.Inv supp σ r'.emission ∧ LinkCore b.arity r' ∧
      r'.doms = r.doms ∧ r'.data = r.data.erase items ∧ r'.emission.data = r.emission.data.erase items := by
  have hc : r.data.contains items = true := FMap.contains_iff.mpr ⟨v, hk⟩
  obtain ⟨p, hp⟩ := FMap.contains_iff.mp ((h.contains items).trans hc)
  obtain ⟨em', h1, h2, h3, h4, _⟩ := CleanRel.unincorporate_spec L hσ hem hp
  have ha : b.arity ≤ items.length := by rw [hem.length hp, h.doms]; exact h.arity
  obtain ⟨m', h5, h6⟩ := h.map.unlink ha ⟨hc, rfl⟩
  refine ⟨{ r with emission := em', data := r.data.erase items, baseToNoisy := m' }, ?_, h2, ?_, rfl, rfl, h4⟩
  · simp [unincorporate, hc, h1, h5, bind, Except.bind]
  · refine ⟨h3.trans h.doms, h.arity, ?_, ?_⟩
    · intro k
      dsimp only
      rw [h4, FMap.find?_erase, FMap.find?_erase]
      split
      · rfl
      · exact h.data k
    · refine h6.congr ?_
      intro bi k
      dsimp only
      simp only [FMap.contains, FMap.find?_erase]
      by_cases hk : k = items
      · subst hk
        simp only [if_true]
        exact ⟨fun ⟨⟨_, h1⟩, h2⟩ => absurd ⟨h1.symm, trivial⟩ h2, fun ⟨h, _⟩ => by cases h⟩
      · simp [hk]

end NoisyRel

namespace Rel
variable {F : Family V}

theorem SameData.refl (r : Rel F) : r.SameData r := ⟨rfl, rfl, rfl, rfl, rfl, rfl⟩

theorem SameData.trans {r r1 r2 : Rel F} (h : r.SameData r1) (h' : r1.SameData r2) : r.SameData r2 :=
  ⟨h'.kind.trans h.kind, h'.base.trans h.base, h'.doms.trans h.doms, h'.data.trans h.data, h'.pairs.trans h.pairs,
    h'.links.trans h.links⟩

theorem SameData.shape {r r' : Rel F} (h : r.SameData r') : r.SameShape r' := ⟨h.kind, h.base, h.doms⟩

theorem SameShape.refl (r : Rel F) : r.SameShape r := ⟨rfl, rfl, rfl⟩

theorem SameShape.trans {r r1 r2 : Rel F} (h : r.SameShape r1) (h' : r1.SameShape r2) : r.SameShape r2 :=
  ⟨h'.kind.trans h.kind, h'.base.trans h.base, h'.doms.trans h.doms⟩

/-- the invariant of a relation; `ar` gives the arity of the relation a base pointer points to -/
def Inv (L : FamilyLaws F) (ar : Ptr → Option Nat) (σ : Doms) : Rel F → Prop
  | .clean c r => CleanRel.Inv (L.suppC c) σ r
  | .noisy e p r => CleanRel.Inv (L.suppE e) σ r.emission ∧ ∃ n, ar p = some n ∧ NoisyRel.LinkCore n r

variable {L : FamilyLaws F} {ar : Ptr → Option Nat} {σ : Doms}

theorem Inv.doms {r : Rel F} (h : r.Inv L ar σ) : ∀ d ∈ r.doms, σ.contains d = true := by
  cases r with
  | clean c r => exact CleanRel.Inv.doms h
  | noisy e p r =>
    obtain ⟨h, n, _, h'⟩ := h
    intro d hd
    exact h.doms d (by rw [h'.doms]; exact hd)

theorem Inv.arity {r : Rel F} {ar' : Ptr → Option Nat} (h : r.Inv L ar σ) (ha : ∀ p, r.base? = some p → ar' p = ar p) :
    r.Inv L ar' σ := by
  cases r with
  | clean c r => exact h
  | noisy e p r =>
    obtain ⟨h, n, h1, h'⟩ := h
    exact ⟨h, n, (ha p rfl).trans h1, h'⟩

theorem Inv.store {σ' : Doms} {r : Rel F} (h : r.Inv L ar σ) (hd : ∀ d ∈ r.doms, σ'.contains d = true)
    (hs : ∀ k v, r.data.find? k = some v → tupleSeat σ' r.doms k = tupleSeat σ r.doms k) : r.Inv L ar σ' := by
  cases r with
  | clean c r => exact CleanRel.Inv.store h hd hs
  | noisy e p r =>
    obtain ⟨h, n, h1, h'⟩ := h
    refine ⟨h.store (fun d hd' => hd d (by rw [h'.doms] at hd'; exact hd')) (fun k v hk => ?_), n, h1, h'⟩
    rw [h'.doms]
    refine hs k v.2 ?_
    show r.data.find? k = _
    rw [h'.data, hk]; rfl

theorem Inv.grows {σ' : Doms} {r : Rel F} {new : String → Int → Prop} (h : r.Inv L ar σ) (g : Grows new σ σ') : r.Inv L ar σ' := by
  cases r with
  | clean c r => exact CleanRel.Inv.grows h g
  | noisy e p r =>
    obtain ⟨h, h'⟩ := h
    exact ⟨h.grows g, h'⟩

theorem Inv.seated {r : Rel F} (h : r.Inv L ar σ) {k : Items} (hk : r.data.contains k = true) : ∃ z, tupleSeat σ r.doms k = some z := by
  cases r with
  | clean c r =>
    obtain ⟨v, hv⟩ := FMap.contains_iff.mp hk
    exact (CleanRel.Inv.seated h k v hv).2
  | noisy e p r =>
    obtain ⟨h, n, _, h'⟩ := h
    obtain ⟨v, hv⟩ := FMap.contains_iff.mp ((h'.contains k).trans hk)
    have := (h.seated k v hv).2
    rw [h'.doms] at this
    exact this

theorem Inv.ne {r : Rel F} (h : r.Inv L ar σ) : r.doms ≠ [] := by
  cases r with
  | clean c r => exact CleanRel.Inv.ne h
  | noisy e p r =>
    obtain ⟨h, n, _, h'⟩ := h
    have := h.ne
    rw [h'.doms] at this
    exact this

theorem Inv.length {r : Rel F} (h : r.Inv L ar σ) {k : Items} (hk : r.data.contains k = true) : k.length = r.doms.length := by
  obtain ⟨z, hz⟩ := h.seated hk
  exact (tupleSeat_length hz).1

/-- an item of a stored tuple is seated -/
theorem Inv.seat_of_uses {r : Rel F} (h : r.Inv L ar σ) {k : Items} (hk : r.data.contains k = true) {d : String} {i : Int}
    (hu : Uses r.doms d i k) : ∃ z, seatOf σ d i = some z := by
  obtain ⟨z, hz⟩ := h.seated hk
  exact (tupleSeat_isSome (tupleSeat_length hz).1).mp ⟨z, hz⟩ d i hu

/-- the store may change where it does not seat an item of a stored tuple -/
theorem Inv.reseat {σ' : Doms} {r : Rel F} (h : r.Inv L ar σ) (hd : ∀ d ∈ r.doms, σ'.contains d = true)
    (hs : ∀ k, r.data.contains k = true → ∀ d i, Uses r.doms d i k → seatOf σ' d i = seatOf σ d i) : r.Inv L ar σ' :=
  h.store hd (fun k v hk => tupleSeat_congr (fun d i hm => hs k (FMap.contains_iff.mpr ⟨v, hk⟩) d i hm))

theorem Inv.hasObservation {r : Rel F} (h : r.Inv L ar σ) {d : String} (hd : d ∈ r.doms) (i : Int) :
    ∃ b, r.hasObservation d i = .ok b ∧ (b = true ↔ ∃ k, r.data.contains k = true ∧ Uses r.doms d i k) := by
  cases r with
  | clean c r =>
    obtain ⟨b, h1, h2, _⟩ := CleanRel.Inv.observationsOf h hd (item := i)
    exact ⟨b, h1, h2⟩
  | noisy e p r =>
    obtain ⟨h, n, _, h'⟩ := h
    obtain ⟨b, h1, h2, _⟩ := CleanRel.Inv.observationsOf h (d := d) (by rw [h'.doms]; exact hd) (item := i)
    refine ⟨b, h1, h2.trans ?_⟩
    simp only [h'.contains, h'.doms]
    rfl

theorem _root_.Verif.CleanRel.Inv.exact {D : DistOps V} {supp : V → Prop} {r : CleanRel D} (h : CleanRel.Inv supp σ r) :
    CleanRel.ClustersExact supp σ r ∧ CleanRel.IndexExact r := by
  refine ⟨⟨fun z => ?_, fun z c hc => ?_⟩, ?_⟩
  · exact h.cl.exact.1 z
  · exact h.cl.exact.2 z c hc
  · intro d hd i
    obtain ⟨b, h1, h2, h3, _⟩ := h.observationsOf hd (item := i)
    exact ⟨b, h1, h2, h3⟩

/-! ### the operations -/

/-- the base tuple of `items` has a value, if the relation is noisy -/
def HasBase (b : Option (BaseView V)) (r : Rel F) (items : Items) : Prop :=
  ∀ p, r.base? = some p → ∃ b' bv, b = some b' ∧ b'.data.find? (items.take b'.arity) = some bv

theorem Inv.incorporate_ok (hσ : StoreWF σ) {r : Rel F} (h : r.Inv L ar σ) {b : Option (BaseView V)}
    (hb : ∀ p, r.base? = some p → ∀ b', b = some b' → ar p = some b'.arity) {items : Items} {v : V}
    (hv : r.Supports L b items v) (hl : items.length = r.doms.length) (hn : r.data.find? items = none)
    (hbase : r.HasBase b items) (t : Tape) :
    ∃ σ' r' t', r.incorporate σ b items v t = .ok (σ', r', t') ∧ StoreWF σ' ∧ Grows (fun d i => Uses r.doms d i items) σ σ' ∧
      r'.Inv L ar σ' ∧ r.SameShape r' ∧ r'.data = r.data.set items v ∧
      (∀ p, r.base? = some p → ∀ b', b = some b' → ∀ bv, b'.data.find? (items.take b'.arity) = some bv →
        r'.pairs = r.pairs.set items (bv, v)) := by
  cases r with
  | clean c r =>
    obtain ⟨σ', r', t', h1, h2, h3, h4, h5, h6, _⟩ := CleanRel.incorporate_spec (L.dist c) hσ h hl hn hv t
    refine ⟨σ', .clean c r', t', ?_, h2, h3, h4, ⟨rfl, rfl, h5⟩, h6, fun p hp => by cases hp⟩
    simp [Rel.incorporate, h1, bind, Except.bind]
  | noisy e p r =>
    obtain ⟨h, n, h0, h'⟩ := h
    obtain ⟨b', bv, rfl, hbv⟩ := hbase p rfl
    have : n = b'.arity := by
      have := hb p rfl b' rfl
      rw [h0] at this
      exact Option.some.inj this
    subst this
    obtain ⟨σ', r', t', h1, h2, h3, h4, h5, h6, h7, h8⟩ :=
      NoisyRel.incorporate_core (L.emis e) hσ h h' hl hn hbv (hv b' rfl bv hbv) t
    refine ⟨σ', .noisy e p r', t', ?_, h2, h3, ⟨h4, _, h0, h5⟩, ⟨rfl, rfl, h6⟩, h7, fun p' _ b1 hb1 bv1 hbv1 => ?_⟩
    · simp [Rel.incorporate, derefR, h1, bind, Except.bind]
    · cases hb1
      rw [hbv] at hbv1
      cases hbv1
      exact h8

theorem Inv.incorporate_pre {r : Rel F} (h : r.Inv L ar σ) {b : Option (BaseView V)} {items : Items} {v : V} {t : Tape}
    {x : Doms × Rel F × Tape} (hc : r.incorporate σ b items v t = .ok x) :
    items.length = r.doms.length ∧ r.data.find? items = none ∧ r.HasBase b items := by
  cases r with
  | clean c r =>
    simp only [Rel.incorporate, bind, Except.bind] at hc
    cases h1 : CleanRel.incorporate σ r items v t with
    | error e => rw [h1] at hc; cases hc
    | ok x =>
      obtain ⟨h2, h3⟩ := CleanRel.incorporate_pre (σ' := x.1) (r' := x.2.1) (t' := x.2.2) h1
      exact ⟨h2, h3, fun p hp => by cases hp⟩
  | noisy e p r =>
    obtain ⟨h, n, _, h'⟩ := h
    cases b with
    | none => simp [Rel.incorporate, derefR, bind, Except.bind] at hc
    | some b =>
      simp only [Rel.incorporate, derefR, bind, Except.bind] at hc
      cases h1 : NoisyRel.incorporate σ b r items v t with
      | error e => rw [h1] at hc; cases hc
      | ok x =>
        obtain ⟨h2, h3, bv, h4⟩ := NoisyRel.incorporate_pre (σ' := x.1) (r' := x.2.1) (t' := x.2.2) h'.doms h'.data h1
        exact ⟨h2, h3, fun _ _ => ⟨b, bv, rfl, h4⟩⟩

theorem Inv.unincorporate_ok (hσ : StoreWF σ) {r : Rel F} (h : r.Inv L ar σ) {b : Option (BaseView V)}
    (hb : ∀ p, r.base? = some p → ∃ b', b = some b' ∧ ar p = some b'.arity) {items : Items}
    (hk : r.data.contains items = true) :
    ∃ r', r.unincorporate σ b items = .ok r' ∧ r'.Inv L ar σ ∧ r.SameShape r' ∧ r'.data = r.data.erase items ∧
      r'.pairs = r.pairs.erase items := by
  obtain ⟨v, hv⟩ := FMap.contains_iff.mp hk
  cases r with
  | clean c r =>
    obtain ⟨r', h1, h2, h3, h4, _⟩ := CleanRel.unincorporate_spec (L.dist c) hσ h hv
    refine ⟨.clean c r', ?_, h2, ⟨rfl, rfl, h3⟩, h4, rfl⟩
    simp [Rel.unincorporate, h1, bind, Except.bind]
  | noisy e p r =>
    obtain ⟨h, n, h0, h'⟩ := h
    obtain ⟨b', rfl, hb'⟩ := hb p rfl
    have : n = b'.arity := by rw [h0] at hb'; exact Option.some.inj hb'
    subst this
    obtain ⟨r', h1, h2, h3, h4, h5, h6⟩ := NoisyRel.unincorporate_core (L.emis e) hσ h h' hv
    refine ⟨.noisy e p r', ?_, ⟨h2, _, h0, h3⟩, ⟨rfl, rfl, h4⟩, h5, h6⟩
    simp [Rel.unincorporate, derefR, h1, bind, Except.bind]

theorem unincorporate_pre {r r' : Rel F} {b : Option (BaseView V)} {items : Items} (hc : r.unincorporate σ b items = .ok r') :
    r.data.contains items = true ∧ ∀ p, r.base? = some p → ∃ b', b = some b' := by
  cases r with
  | clean c r =>
    simp only [Rel.unincorporate, bind, Except.bind] at hc
    cases h1 : CleanRel.unincorporate σ r items with
    | error e => rw [h1] at hc; cases hc
    | ok x => exact ⟨FMap.contains_iff.mpr (CleanRel.unincorporate_pre h1), fun p hp => by cases hp⟩
  | noisy e p r =>
    cases b with
    | none => simp [Rel.unincorporate, derefR, bind, Except.bind] at hc
    | some b =>
      simp only [Rel.unincorporate, derefR, bind, Except.bind] at hc
      cases h1 : NoisyRel.unincorporate σ b r items with
      | error e => rw [h1] at hc; cases hc
      | ok x => exact ⟨FMap.contains_iff.mpr (NoisyRel.unincorporate_pre h1), fun _ _ => ⟨b, rfl⟩⟩

theorem Inv.gibbsScores (hσ : StoreWF σ) {r : Rel F} (h : r.Inv L ar σ) (S : L.Scored r.kind) {d : String} (hd : d ∈ r.doms) {item : Int}
    (hob : r.hasObservation d item = .ok true) (tables : List Int) (t : Tape) :
    ∃ lps r' t', r.logpGibbsExact σ d item tables t = .ok (lps, r', t') ∧ lps.length = tables.length ∧ r'.Inv L ar σ ∧
      r.SameData r' := by
  cases r with
  | clean c r =>
    obtain ⟨lps, cl, t', h1, h2, h3⟩ := CleanRel.gibbsScores_inv (L := L.dist c) S hσ h hd hob tables t
    exact ⟨lps, .clean c { r with clusters := cl }, t', by simp [Rel.logpGibbsExact, h1, bind, Except.bind], h2, h3,
      ⟨rfl, rfl, rfl, rfl, rfl, rfl⟩⟩
  | noisy e p r =>
    obtain ⟨h, n, h0, h'⟩ := h
    obtain ⟨lps, cl, t', h1, h2, h3⟩ := CleanRel.gibbsScores_inv (L := L.emis e) S hσ h (d := d) (by rw [h'.doms]; exact hd) hob tables t
    exact ⟨lps, .noisy e p { r with emission := { r.emission with clusters := cl } }, t',
      by simp [Rel.logpGibbsExact, NoisyRel.logpGibbsExact, h1, bind, Except.bind], h2, ⟨h3, n, h0, h'.setEmission rfl rfl⟩,
      ⟨rfl, rfl, rfl, rfl, rfl, rfl⟩⟩

theorem Inv.gibbsScores_keeps (hσ : StoreWF σ) {r r' : Rel F} (h : r.Inv L ar σ) {d : String} {item : Int}
    {tables : List Int} {lps : List ℝ} {t t' : Tape} (hc : r.logpGibbsExact σ d item tables t = .ok (lps, r', t')) :
    lps.length = tables.length ∧ r'.Inv L ar σ ∧ r.SameData r' := by
  cases r with
  | clean c r =>
    obtain ⟨⟨l, q, u⟩, h1, hc⟩ := bind_ok.mp hc
    cases hc
    obtain ⟨h2, cl, rfl, h3⟩ := CleanRel.gibbsScores_keeps (L.dist c) hσ h h1
    exact ⟨h2, h3, ⟨rfl, rfl, rfl, rfl, rfl, rfl⟩⟩
  | noisy e p r =>
    obtain ⟨h, n, h0, h'⟩ := h
    obtain ⟨⟨l, q, u⟩, h1, hc⟩ := bind_ok.mp hc
    cases hc
    obtain ⟨⟨l, em, u⟩, h1, hc⟩ := bind_ok.mp h1
    cases hc
    obtain ⟨h2, cl, rfl, h3⟩ := CleanRel.gibbsScores_keeps (L.emis e) hσ h h1
    exact ⟨h2, ⟨h3, n, h0, h'.setEmission rfl rfl⟩, ⟨rfl, rfl, rfl, rfl, rfl, rfl⟩⟩

theorem Inv.setGibbs (hσ : StoreWF σ) {r : Rel F} (h : r.Inv L ar σ) {d : String} (hd : d ∈ r.doms) {dom : Domain}
    (hdom : σ.find? d = some dom) {item table cur : Int} (hcur : dom.crp.assignments.find? item = some cur) (hne : table ≠ cur)
    (hob : r.hasObservation d item = .ok true) {σ' : Doms}
    (hs : ∀ d' i, seatOf σ' d' i = if d' = d ∧ i = item then some table else seatOf σ d' i)
    (hdoms : ∀ d, σ'.contains d = σ.contains d) (t : Tape) :
    ∃ r' t', r.setClusterAssignmentGibbs σ d item table t = .ok (r', t') ∧ r'.Inv L ar σ' ∧ r.SameData r' := by
  cases r with
  | clean c r =>
    obtain ⟨cl, t', h1, h2⟩ := CleanRel.setGibbs_spec (L.dist c) hσ h hd hdom hcur hne hob hs hdoms t
    exact ⟨.clean c { r with clusters := cl }, t', by simp [Rel.setClusterAssignmentGibbs, h1, bind, Except.bind], h2,
      ⟨rfl, rfl, rfl, rfl, rfl, rfl⟩⟩
  | noisy e p r =>
    obtain ⟨h, n, h0, h'⟩ := h
    obtain ⟨cl, t', h1, h2⟩ := CleanRel.setGibbs_spec (L.emis e) hσ h (d := d) (by rw [h'.doms]; exact hd) hdom hcur hne hob hs hdoms t
    exact ⟨.noisy e p { r with emission := { r.emission with clusters := cl } }, t',
      by simp [Rel.setClusterAssignmentGibbs, NoisyRel.setClusterAssignmentGibbs, h1, bind, Except.bind],
      ⟨h2, n, h0, h'.setEmission rfl rfl⟩, ⟨rfl, rfl, rfl, rfl, rfl, rfl⟩⟩

theorem Inv.hparams {r : Rel F} (h : r.Inv L ar σ) (n : Nat) (t : Tape) :
    (r.transitionClusterHparams n t).1.Inv L ar σ ∧ r.SameData (r.transitionClusterHparams n t).1 := by
  cases r with
  | clean c r =>
    exact ⟨CleanRel.hparams_spec (supp := L.suppC c) h n t, ⟨rfl, rfl, rfl, rfl, rfl, rfl⟩⟩
  | noisy e p r =>
    obtain ⟨h, m, h0, h'⟩ := h
    exact ⟨⟨CleanRel.hparams_spec (supp := L.suppE e) h n t, m, h0, h'.setEmission rfl rfl⟩, ⟨rfl, rfl, rfl, rfl, rfl, rfl⟩⟩

theorem Inv.clusterOrPrior {r : Rel F} (h : r.Inv L ar σ) {z : Items} {v : V} {b : Option (BaseView V)} {items : Items}
    (hv : r.Supports L b items v) {t : Tape} {lp : ℝ} {r' : Rel F} {t' : Tape}
    (hc : r.clusterOrPriorLogp z v t = .ok (lp, r', t')) : r'.Inv L ar σ ∧ r.SameData r' := by
  cases r with
  | noisy e p r => simp [Rel.clusterOrPriorLogp, NoisyRel.clusterOrPriorLogp, bind, Except.bind] at hc
  | clean c r =>
    simp only [Rel.clusterOrPriorLogp, CleanRel.clusterOrPriorLogp, bind, Except.bind] at hc
    cases hf : r.clusters.find? z with
    | none =>
      simp only [hf] at hc
      split at hc
      · cases hc
      · rename_i x hx
        split at hx
        · cases hx
        · cases hx
          cases hc
          exact ⟨h, .refl _⟩
    | some s =>
      simp only [hf] at hc
      cases hl : (F.dist c).logp s v with
      | error e => simp [hl] at hc
      | ok y =>
        simp only [hl] at hc
        cases hc
        refine ⟨CleanRel.Inv.setClusters h (h.cl.set_same hf ?_), ⟨rfl, rfl, rfl, rfl, rfl, rfl⟩⟩
        obtain ⟨lp', s', h1, h2⟩ := (L.dist c).holds_logp ((h.cl z).2 s hf).2 hv
        rw [hl] at h1
        cases h1
        exact h2

theorem Inv.exact {r : Rel F} (h : r.Inv L ar σ) : r.Exact L σ := by
  cases r with
  | clean c r => exact CleanRel.Inv.exact h
  | noisy e p r => exact h.1.exact

end Rel
end
end Verif
