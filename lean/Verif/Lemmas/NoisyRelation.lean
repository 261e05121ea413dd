import Verif.Lemmas.Reach
import Verif.Spec.NoisyRelation
/-! Helper lemmas: the invariant of a noisy relation and what each operation does to it. -/
namespace Verif
noncomputable section

/-- `m` maps `bi` to the set of the `k` with `P bi k`, and has no empty sets -/
structure MultiMap (P : Items → Items → Prop) (m : FMap Items (FSet Items)) : Prop where
  mem : ∀ bi k, (∃ s, m.find? bi = some s ∧ k ∈ s.keys) ↔ P bi k
  ne : ∀ bi s, m.find? bi = some s → ∃ k, k ∈ s.keys

theorem FMap.exists_key {K V : Type _} [Key K] {m : FMap K V} (h : m.size ≠ 0) : ∃ k, k ∈ m.keys := by
  obtain ⟨e, he⟩ := List.exists_mem_of_length_pos (Nat.pos_of_ne_zero h)
  exact ⟨e.1, List.mem_map.mpr ⟨e, he, rfl⟩⟩

namespace MultiMap
variable {P Q : Items → Items → Prop} {m m' : FMap Items (FSet Items)}

theorem congr (h : MultiMap P m) (hp : ∀ bi k, P bi k ↔ Q bi k) : MultiMap Q m :=
  ⟨fun bi k => (h.mem bi k).trans (hp bi k), h.ne⟩

theorem ext (h : MultiMap P m) (h' : MultiMap P m') : m = m' := by
  apply FMap.ext
  intro bi
  cases h1 : m.find? bi with
  | none =>
    cases h2 : m'.find? bi with
    | none => rfl
    | some s =>
      obtain ⟨k, hk⟩ := h'.ne bi s h2
      obtain ⟨s', hs', _⟩ := (h.mem bi k).mpr ((h'.mem bi k).mp ⟨s, h2, hk⟩)
      rw [h1] at hs'; cases hs'
  | some s =>
    cases h2 : m'.find? bi with
    | none =>
      obtain ⟨k, hk⟩ := h.ne bi s h1
      obtain ⟨s', hs', _⟩ := (h'.mem bi k).mpr ((h.mem bi k).mp ⟨s, h1, hk⟩)
      rw [h2] at hs'; cases hs'
    | some s' =>
      congr 1
      apply FSet.ext
      intro k
      constructor
      · intro hk
        obtain ⟨s1, hs1, hk1⟩ := (h'.mem bi k).mpr ((h.mem bi k).mp ⟨s, h1, hk⟩)
        rw [h2] at hs1; cases hs1; exact hk1
      · intro hk
        obtain ⟨s1, hs1, hk1⟩ := (h.mem bi k).mpr ((h'.mem bi k).mp ⟨s', h2, hk⟩)
        rw [h1] at hs1; cases hs1; exact hk1

theorem empty : MultiMap (fun _ _ => False) (∅ : FMap Items (FSet Items)) :=
  ⟨fun _ _ => ⟨(by rintro ⟨_, h, _⟩; cases h), False.elim⟩, fun _ _ h => by cases h⟩

theorem link (h : MultiMap P m) (bi items : Items) :
    MultiMap (fun b k => P b k ∨ (b = bi ∧ k = items)) (NoisyRel.link m bi items) := by
  constructor
  · intro b k
    unfold NoisyRel.link
    by_cases hb : b = bi
    · subst hb
      rw [FMap.find?_set_self]
      have := h.mem b k
      constructor
      · rintro ⟨s, hs, hk⟩
        cases hs
        rcases FSet.mem_insert.mp hk with rfl | hk
        · exact .inr ⟨rfl, rfl⟩
        · cases hm : m.find? b with
          | none => rw [hm] at hk; cases hk
          | some s => rw [hm] at hk; exact .inl (this.mp ⟨s, hm, hk⟩)
      · rintro (hp | ⟨_, rfl⟩)
        · obtain ⟨s, hs, hk⟩ := this.mpr hp
          exact ⟨_, rfl, FSet.mem_insert.mpr (.inr (by rw [hs]; exact hk))⟩
        · exact ⟨_, rfl, FSet.mem_insert.mpr (.inl rfl)⟩
    · rw [FMap.find?_set_ne _ hb, h.mem b k]
      simp [hb]
  · intro b s hs
    unfold NoisyRel.link at hs
    rw [FMap.find?_set] at hs
    split at hs
    · cases hs; exact ⟨items, FSet.mem_insert.mpr (.inl rfl)⟩
    · exact h.ne b s hs

theorem unlink {V : Type} {b : BaseView V} (h : MultiMap P m) {items : Items} (ha : b.arity ≤ items.length)
    (hp : P (items.take b.arity) items) :
    ∃ m', NoisyRel.unlink b m items = .ok m' ∧
      MultiMap (fun bi k => P bi k ∧ ¬ (bi = items.take b.arity ∧ k = items)) m' := by
  obtain ⟨s, hs, hk⟩ := (h.mem _ _).mpr hp
  refine ⟨_, by simp [NoisyRel.unlink, NoisyRel.baseItems, ha, bind, Except.bind, FMap.atKey_of_find hs]; rfl, ?_⟩
  generalize hbi : items.take b.arity = bi at *
  have hf : ∀ b', (if (s.erase items).size = 0 then m.erase bi else m.set bi (s.erase items)).find? b' =
      if b' = bi then (if (s.erase items).size = 0 then none else some (s.erase items)) else m.find? b' := by
    intro b'
    split
    · rw [FMap.find?_erase]
    · rw [FMap.find?_set]
  constructor
  · intro b' k
    rw [hf]
    by_cases hb : b' = bi
    · subst hb
      simp only [if_true, true_and]
      rw [← h.mem b' k]
      constructor
      · rintro ⟨s', hs', hk'⟩
        split at hs'
        · cases hs'
        · cases hs'
          have := FMap.keys_erase_mem.mp hk'
          exact ⟨⟨s, hs, this.2⟩, this.1⟩
      · rintro ⟨⟨s', hs', hk'⟩, hne⟩
        rw [hs] at hs'; cases hs'
        have hm : k ∈ (s.erase items).keys := FMap.keys_erase_mem.mpr ⟨hne, hk'⟩
        have hz : ¬ (s.erase items).size = 0 := by
          intro h0
          rw [FMap.eq_empty_of_size h0] at hm
          cases hm
        rw [if_neg hz]
        exact ⟨_, rfl, hm⟩
    · rw [if_neg hb, h.mem]
      simp [hb]
  · intro b' s' hs'
    rw [hf] at hs'
    split at hs'
    · split at hs'
      · cases hs'
      · rename_i hz; cases hs'; exact FMap.exists_key hz
    · exact h.ne b' s' hs'

end MultiMap

namespace NoisyRel
variable {V : Type} {E : DistOps (V × V)} {supp : V × V → Prop}

/-- the part of the invariant that links a noisy relation to its base -/
structure LinkInv (b : BaseView V) (r : NoisyRel E) : Prop where
  doms : r.emission.doms = r.doms
  arity : b.arity ≤ r.doms.length
  data : ∀ k, r.data.find? k = (r.emission.data.find? k).map Prod.snd
  base : ∀ k p, r.emission.data.find? k = some p → b.data.find? (k.take b.arity) = some p.1
  map : MultiMap (fun bi k => r.data.contains k = true ∧ k.take b.arity = bi) r.baseToNoisy

/-- the invariant of a noisy relation -/
structure Inv (supp : V × V → Prop) (σ : Doms) (b : BaseView V) (r : NoisyRel E) : Prop where
  em : CleanRel.Inv supp σ r.emission
  link : LinkInv b r

theorem LinkInv.contains {b : BaseView V} {r : NoisyRel E} (h : LinkInv b r) (k : Items) :
    r.emission.data.contains k = r.data.contains k := by
  simp [FMap.contains, h.data k]

theorem LinkInv.setEmission {b : BaseView V} {r : NoisyRel E} (h : LinkInv b r) {em : CleanRel E} (hd : em.doms = r.emission.doms)
    (he : em.data = r.emission.data) : LinkInv b { r with emission := em } where
  doms := hd.trans h.doms
  arity := h.arity
  data k := by dsimp only; rw [he]; exact h.data k
  base k p hp := h.base k p (by dsimp only at hp; rwa [he] at hp)
  map := h.map

theorem LinkInv.find {b : BaseView V} {r : NoisyRel E} (h : LinkInv b r) {k : Items} {v : V} (hk : r.data.find? k = some v) :
    ∃ bv, r.emission.data.find? k = some (bv, v) ∧ b.data.find? (k.take b.arity) = some bv := by
  rw [h.data] at hk
  cases hp : r.emission.data.find? k with
  | none => rw [hp] at hk; cases hk
  | some p =>
    rw [hp] at hk
    obtain ⟨bv, v'⟩ := p
    cases hk
    exact ⟨bv, rfl, h.base k _ hp⟩

theorem BaseView.getValue_eq {b : BaseView V} {k : Items} {v : V} (h : b.data.find? k = some v) : b.getValue k = .ok v := by
  simp [BaseView.getValue, FMap.contains, h, bind, Except.bind, FMap.atKey_of_find h]

theorem BaseView.getValue_ok {b : BaseView V} {k : Items} {v : V} (h : b.getValue k = .ok v) : b.data.find? k = some v := by
  unfold BaseView.getValue at h
  simp only [bind, Except.bind] at h
  split at h
  · cases h
  · exact FMap.atKey_ok.mp h

theorem baseItems_ok {b : BaseView V} {items bi : Items} (h : baseItems b items = .ok bi) :
    b.arity ≤ items.length ∧ bi = items.take b.arity := by
  unfold baseItems at h
  split at h
  · rename_i ha; cases h; exact ⟨ha, rfl⟩
  · cases h

theorem baseValue_eq {b : BaseView V} {items : Items} {v : V} (ha : b.arity ≤ items.length)
    (h : b.data.find? (items.take b.arity) = some v) : baseValue b items = .ok v := by
  simp [baseValue, baseItems, ha, bind, Except.bind, BaseView.getValue_eq h]

theorem baseValue_ok {b : BaseView V} {items : Items} {v : V} (h : baseValue b items = .ok v) :
    b.arity ≤ items.length ∧ b.data.find? (items.take b.arity) = some v := by
  unfold baseValue at h
  cases hb : baseItems b items with
  | error e => rw [hb] at h; cases h
  | ok bi =>
    obtain ⟨ha, rfl⟩ := baseItems_ok hb
    rw [hb] at h
    exact ⟨ha, BaseView.getValue_ok h⟩

theorem Inv.length {σ : Doms} {b : BaseView V} {r : NoisyRel E} (h : Inv supp σ b r) {k : Items}
    (hk : r.data.contains k = true) : k.length = r.doms.length := by
  obtain ⟨v, hv⟩ := FMap.contains_iff.mp hk
  obtain ⟨bv, hp, _⟩ := h.link.find hv
  rw [← h.link.doms]
  exact h.em.length hp

theorem Inv.linked {σ : Doms} {b : BaseView V} {r : NoisyRel E} (h : Inv supp σ b r) : Linked b r := by
  refine ⟨?_, h.link.contains, ?_, ?_⟩
  · intro k v hk
    have hk : r.data.find? k = some v := by
      unfold getValue at hk
      simp only [bind, Except.bind] at hk
      split at hk
      · cases hk
      · exact FMap.atKey_ok.mp hk
    obtain ⟨bv, hp, hb⟩ := h.link.find hk
    refine ⟨bv, hb, baseValue_eq ?_ hb, ?_⟩
    · rw [h.length (FMap.contains_iff.mpr ⟨v, hk⟩)]; exact h.link.arity
    · simp [CleanRel.getValue, FMap.contains, hp, bind, Except.bind, FMap.atKey_of_find hp]
  · intro bi
    constructor
    · intro hc
      obtain ⟨s, hs⟩ := FMap.contains_iff.mp hc
      obtain ⟨k, hk⟩ := h.link.map.ne bi s hs
      exact ⟨k, (h.link.map.mem bi k).mp ⟨s, hs, hk⟩⟩
    · rintro ⟨k, hk⟩
      obtain ⟨s, hs, _⟩ := (h.link.map.mem bi k).mpr hk
      exact FMap.contains_iff.mpr ⟨s, hs⟩
  · intro bi s hs k
    rw [← h.link.map.mem bi k]
    constructor
    · intro hk; exact ⟨s, hs, hk⟩
    · rintro ⟨s', hs', hk⟩; rw [hs] at hs'; cases hs'; exact hk

theorem inv_fresh {σ : Doms} {b : BaseView V} {doms : List String} {r : NoisyRel E} (hd : ∀ d ∈ doms, σ.contains d = true)
    (ha : b.arity ≤ doms.length) (h : mk' E doms = .ok r) : Inv supp σ b r := by
  unfold mk' at h
  cases hm : CleanRel.mk' E doms with
  | error e => rw [hm] at h; cases h
  | ok em =>
    rw [hm] at h
    cases h
    refine ⟨CleanRel.inv_fresh hd hm, ?_⟩
    obtain ⟨_, rfl⟩ := CleanRel.mk'_ok hm
    exact ⟨rfl, ha, fun _ => rfl, fun _ _ h => (by cases h), MultiMap.empty.congr (fun bi k => by simp [FMap.contains])⟩

theorem incorporate_spec (L : Lawful E supp) {σ : Doms} (hσ : StoreWF σ) {b : BaseView V} {r : NoisyRel E} (h : Inv supp σ b r)
    {items : Items} (hl : items.length = r.doms.length) (hn : r.data.find? items = none) {v bv : V}
    (hb : b.data.find? (items.take b.arity) = some bv) (hv : supp (bv, v)) (t : Tape) :
    ∃ σ' r' t' em', incorporate σ b r items v t = .ok (σ', r', t') ∧ StoreWF σ' ∧
      Grows (fun d i => Uses r.doms d i items) σ σ' ∧ Inv supp σ' b r' ∧
      CleanRel.incorporate σ r.emission items (bv, v) t = .ok (σ', em', t') ∧
      r' = { r with emission := em', data := r.data.set items v, baseToNoisy := link r.baseToNoisy (items.take b.arity) items } := by
  have hn' : r.emission.data.find? items = none := by
    have := h.link.data items
    rw [hn] at this
    cases hp : r.emission.data.find? items with
    | none => rfl
    | some p => rw [hp] at this; cases this
  obtain ⟨σ', em', t', h1, h2, h3, h4, h5, h6, _⟩ :=
    CleanRel.incorporate_spec L hσ h.em (by rw [h.link.doms]; exact hl) hn' hv t
  have ha : b.arity ≤ items.length := by rw [hl]; exact h.link.arity
  refine ⟨σ', _, t', em', ?_, h2, by rw [← h.link.doms]; exact h3, ⟨h4, ?_⟩, h1, rfl⟩
  · simp [incorporate, baseItems, ha, bind, Except.bind, BaseView.getValue_eq hb, h1]
  · refine ⟨h5.trans h.link.doms, h.link.arity, ?_, ?_, ?_⟩
    · intro k
      dsimp only
      rw [h6, FMap.find?_set, FMap.find?_set]
      split
      · rfl
      · exact h.link.data k
    · intro k p hp
      dsimp only at hp
      rw [h6, FMap.find?_set] at hp
      split at hp
      · rename_i hk; subst hk; cases hp; exact hb
      · exact h.link.base k p hp
    · refine (h.link.map.link (items.take b.arity) items).congr ?_
      intro bi k
      dsimp only
      simp only [FMap.contains, FMap.find?_set]
      by_cases hk : k = items
      · subst hk; simp [hn, eq_comm]
      · simp [hk]

theorem incorporate_pre {σ σ' : Doms} {b : BaseView V} {r r' : NoisyRel E} (hd : r.emission.doms = r.doms)
    (hdata : ∀ k, r.data.find? k = (r.emission.data.find? k).map Prod.snd) {items : Items} {v : V} {t t' : Tape}
    (h : incorporate σ b r items v t = .ok (σ', r', t')) :
    items.length = r.doms.length ∧ r.data.find? items = none ∧ ∃ bv, b.data.find? (items.take b.arity) = some bv := by
  unfold incorporate at h
  cases hb : baseItems b items with
  | error e => rw [hb] at h; cases h
  | ok bi =>
    obtain ⟨ha, rfl⟩ := baseItems_ok hb
    rw [hb] at h
    simp only [bind, Except.bind] at h
    cases hg : b.getValue (items.take b.arity) with
    | error e => rw [hg] at h; cases h
    | ok bv =>
      rw [hg] at h
      simp only at h
      cases hc : CleanRel.incorporate σ r.emission items (bv, v) t with
      | error e => rw [hc] at h; cases h
      | ok q =>
        obtain ⟨σ1, em, t1⟩ := q
        obtain ⟨h1, h2⟩ := CleanRel.incorporate_pre hc
        refine ⟨hd ▸ h1, ?_, bv, BaseView.getValue_ok hg⟩
        rw [hdata, h2]; rfl

theorem unincorporate_spec (L : Lawful E supp) {σ : Doms} (hσ : StoreWF σ) {b : BaseView V} {r : NoisyRel E} (h : Inv supp σ b r)
    {items : Items} {v : V} (hk : r.data.find? items = some v) :
    ∃ r' em', unincorporate σ b r items = .ok r' ∧ Inv supp σ b r' ∧ CleanRel.unincorporate σ r.emission items = .ok em' ∧
      r'.emission = em' ∧ r'.doms = r.doms ∧ r'.data = r.data.erase items := by
  obtain ⟨bv, hp, hb⟩ := h.link.find hk
  obtain ⟨em', h1, h2, h3, h4, _⟩ := CleanRel.unincorporate_spec L hσ h.em hp
  have hc : r.data.contains items = true := FMap.contains_iff.mpr ⟨v, hk⟩
  have ha : b.arity ≤ items.length := by rw [h.length hc]; exact h.link.arity
  obtain ⟨m', h5, h6⟩ := h.link.map.unlink ha ⟨hc, rfl⟩
  refine ⟨{ r with emission := em', data := r.data.erase items, baseToNoisy := m' }, em', ?_, ⟨?_, ?_⟩, h1, ?_, ?_, ?_⟩
  · simp [unincorporate, hc, h1, h5, bind, Except.bind]
  · exact h2
  · refine ⟨h3.trans h.link.doms, h.link.arity, ?_, ?_, ?_⟩
    · intro k
      dsimp only
      rw [h4, FMap.find?_erase, FMap.find?_erase]
      split
      · rfl
      · exact h.link.data k
    · intro k p hp
      dsimp only at hp
      rw [h4, FMap.find?_erase] at hp
      split at hp
      · cases hp
      · exact h.link.base k p hp
    · refine h6.congr ?_
      intro bi k
      dsimp only
      simp only [FMap.contains, FMap.find?_erase]
      by_cases hk : k = items
      · subst hk
        simp only [if_true]
        exact ⟨fun ⟨⟨_, h1⟩, h2⟩ => absurd ⟨h1.symm, trivial⟩ h2, fun ⟨h, _⟩ => by cases h⟩
      · simp [hk]
  · rfl
  · rfl
  · rfl

theorem unincorporate_pre {σ : Doms} {b : BaseView V} {r r' : NoisyRel E} {items : Items}
    (h : unincorporate σ b r items = .ok r') : ∃ v, r.data.find? items = some v := by
  unfold unincorporate at h
  cases hc : r.data.contains items with
  | false => simp [hc, bind, Except.bind] at h
  | true => exact FMap.contains_iff.mp hc

theorem LinkInv.setBase {b : BaseView V} {r : NoisyRel E} (h : LinkInv b r) {data : FMap Items V}
    (hd : ∀ k v, b.data.find? k = some v → (∃ items, r.data.contains items = true ∧ items.take b.arity = k) →
      data.find? k = some v) : LinkInv { b with data := data } r where
  doms := h.doms
  arity := h.arity
  data := h.data
  base k p hp := hd _ _ (h.base k p hp) ⟨k, by rw [← h.contains]; exact FMap.contains_iff.mpr ⟨p, hp⟩, rfl⟩
  map := h.map

/-- an operation that only touches the clusters of the emission relation -/
theorem LinkInv.setClusters {b : BaseView V} {r : NoisyRel E} (h : LinkInv b r) (cl : FMap Items E.S) :
    LinkInv b { r with emission := { r.emission with clusters := cl } } := h.setEmission rfl rfl

theorem emission_hparams (r : CleanRel E) (n : Nat) (t : Tape) :
    (r.transitionClusterHparams n t).1.doms = r.doms ∧ (r.transitionClusterHparams n t).1.data = r.data := ⟨rfl, rfl⟩

/-- the emission relation of a reachable noisy relation is a reachable relation, and the link invariant holds -/
theorem Reach.both (L : Lawful E supp) {σ : Doms} {b : BaseView V} {r : NoisyRel E} (h : Reach supp σ b r) :
    CleanRel.Reach supp σ r.emission ∧ LinkInv b r := by
  induction h with
  | @fresh σ b doms r hσ hd ha h =>
    refine ⟨?_, (inv_fresh (supp := supp) hd ha h).link⟩
    unfold mk' at h
    cases hm : CleanRel.mk' E doms with
    | error e => rw [hm] at h; cases h
    | ok em => rw [hm] at h; cases h; exact .fresh hσ hd hm
  | @incorporate σ σ' b r r' items v t t' _ hv hc ih =>
    obtain ⟨h1, h2⟩ := ih
    obtain ⟨hw, hi⟩ := h1.inv L
    obtain ⟨h3, h4, bv, h5⟩ := incorporate_pre h2.doms h2.data hc
    obtain ⟨σ1, r1, t1, em, h6, _, _, h7, h8, h9⟩ := incorporate_spec L hw ⟨hi, h2⟩ h3 h4 h5 (hv bv h5) t
    rw [hc] at h6
    cases h6
    refine ⟨?_, h7.link⟩
    rw [h9]
    exact h1.incorporate (hv bv h5) h8
  | @unincorporate σ b r r' items _ hc ih =>
    obtain ⟨h1, h2⟩ := ih
    obtain ⟨hw, hi⟩ := h1.inv L
    obtain ⟨v, hk⟩ := unincorporate_pre hc
    obtain ⟨r1, em, h3, h4, h5, h6, _⟩ := unincorporate_spec L hw ⟨hi, h2⟩ hk
    rw [hc] at h3
    cases h3
    exact ⟨h6 ▸ h1.unincorporate h5, h4.link⟩
  | @move σ dom dom' b r r' d i table t t' _ hd hm hc hn hs ih =>
    obtain ⟨h1, h2⟩ := ih
    obtain ⟨hw, hi⟩ := h1.inv L
    have hm' : d ∈ r.emission.doms := by rw [h2.doms]; exact hm
    obtain ⟨bb, h5, _⟩ := hi.observationsOf hm' (item := i)
    cases bb with
    | false =>
      have := hn h5
      subst this
      exact ⟨h1.move hd hm' (t := t) (t' := t') (fun h => by rw [h5] at h; cases h) (fun _ => rfl) hs, h2⟩
    | true =>
      have hcc := hc h5
      unfold setClusterAssignmentGibbs at hcc
      cases he : CleanRel.setClusterAssignmentGibbs σ r.emission d i table t with
      | error e => rw [he] at hcc; cases hcc
      | ok q =>
        obtain ⟨em, t1⟩ := q
        rw [he] at hcc
        cases hcc
        refine ⟨h1.move hd hm' (fun _ => he) (fun h => by rw [h5] at h; cases h) hs, ?_⟩
        have hk : ∃ cl, em = { r.emission with clusters := cl } := by
          obtain ⟨dom0, cur, hd0, hcur⟩ := hi.seated_item hm' h5
          rw [hd] at hd0
          cases hd0
          have hne : table ≠ cur := by
            rintro rfl
            have hmm := (hw d dom hd).mem.mpr ⟨_, hcur⟩
            simp [Domain.setClusterAssignmentGibbs, hmm, bind, Except.bind, FMap.atKey_of_find hcur] at hs
          obtain ⟨dom1, _, _, h3, h4, _⟩ := CleanRel.exists_moved hw hd hcur hne
          obtain ⟨cl, t2, h7, _⟩ := CleanRel.setGibbs_spec L hw hi hm' hd hcur hne h5 h3 h4 t
          rw [he] at h7
          cases h7
          exact ⟨cl, rfl⟩
        obtain ⟨cl, rfl⟩ := hk
        exact h2.setClusters cl
  | @hparams σ b r n t _ ih => exact ⟨ih.1.hparams n t, ih.2.setEmission rfl rfl⟩
  | @gibbsScores σ b r r' d i tables lps t t' _ hc ih =>
    obtain ⟨h1, h2⟩ := ih
    obtain ⟨hw, hi⟩ := h1.inv L
    unfold logpGibbsExact at hc
    cases he : CleanRel.logpGibbsExact σ r.emission d i tables t with
    | error e => rw [he] at hc; cases hc
    | ok q =>
      obtain ⟨l, em, t1⟩ := q
      rw [he] at hc
      cases hc
      refine ⟨h1.gibbsScores he, ?_⟩
      obtain ⟨_, cl, rfl, _⟩ := CleanRel.gibbsScores_keeps L hw hi he
      exact h2.setClusters cl
  | @logp σ b r r' items v lp t t' _ hv hc ih =>
    obtain ⟨h1, h2⟩ := ih
    obtain ⟨hw, hi⟩ := h1.inv L
    unfold NoisyRel.logp at hc
    cases hb : baseValue b items with
    | error e => rw [hb] at hc; cases hc
    | ok bv =>
      rw [hb] at hc
      simp only [bind, Except.bind] at hc
      cases he : CleanRel.logp σ r.emission items (bv, v) t with
      | error e => rw [he] at hc; cases hc
      | ok q =>
        obtain ⟨l, em, t1⟩ := q
        rw [he] at hc
        cases hc
        have hs := hv bv (baseValue_ok hb).2
        refine ⟨h1.logp hs he, ?_⟩
        obtain ⟨cl, rfl, _⟩ := CleanRel.logp_inv L hs hi he
        exact h2.setClusters cl
  | @domainAdd σ dom dom' b r d i table t t' _ hd hc ih => exact ⟨ih.1.domainAdd hd hc, ih.2⟩
  | @domainRemove σ dom dom' b r d i _ hd hu hc ih =>
    refine ⟨ih.1.domainRemove hd ?_ hc, ih.2⟩
    intro items h
    rw [ih.2.doms]
    exact hu items (by rw [← ih.2.contains]; exact h)
  | domainAlpha t _ hd ih => exact ⟨ih.1.domainAlpha t hd, ih.2⟩
  | @baseAdd σ b r k v _ hk ih =>
    refine ⟨ih.1, ih.2.setBase ?_⟩
    intro k' v' h1 _
    rw [FMap.find?_set_ne]
    · exact h1
    · rintro rfl; rw [hk] at h1; cases h1
  | @baseChange σ b r k v _ hk ih =>
    refine ⟨ih.1, ih.2.setBase ?_⟩
    rintro k' v' h1 ⟨items, h2, h3⟩
    rw [FMap.find?_set_ne]
    · exact h1
    · rintro rfl; exact hk items h2 h3
  | @baseRemove σ b r k _ hk ih =>
    refine ⟨ih.1, ih.2.setBase ?_⟩
    rintro k' v' h1 ⟨items, h2, h3⟩
    rw [FMap.find?_erase_ne]
    · exact h1
    · rintro rfl; exact hk items h2 h3

theorem Reach.inv (L : Lawful E supp) {σ : Doms} {b : BaseView V} {r : NoisyRel E} (h : Reach supp σ b r) :
    StoreWF σ ∧ Inv supp σ b r := by
  obtain ⟨h1, h2⟩ := h.both L
  obtain ⟨h3, h4⟩ := h1.inv L
  exact ⟨h3, h4, h2⟩

/-- `sample_and_incorporate` is `incorporate` of the value it returns -/
theorem sampleAndIncorporate_eq {E : EmisOps V} {σ σ' : Doms} {b : BaseView V} {r r' : NoisyRel E.toDistOps} {items : Items} {x : V}
    {t t' : Tape} (h : sampleAndIncorporate σ b r items t = .ok (x, σ', r', t')) :
    ∃ t1, incorporate σ b r items x t = .ok (σ', r', t1) := by
  unfold sampleAndIncorporate at h
  simp only [bind, Except.bind] at h
  cases h1 : CleanRel.incorporateItems σ r.emission items t with
  | error e => rw [h1] at h; cases h
  | ok q =>
    obtain ⟨z, σ1, em, t1⟩ := q
    rw [h1] at h
    simp only at h
    cases h2 : baseValue b items with
    | error e => rw [h2] at h; cases h
    | ok bv =>
      rw [h2] at h
      simp only at h
      obtain ⟨ha, hb⟩ := baseValue_ok h2
      simp only [baseItems, if_pos ha] at h
      cases h3 : sampleAtItems σ1 b { r with emission := em } items t1 with
      | error e => rw [h3] at h; cases h
      | ok q =>
        obtain ⟨x1, t2⟩ := q
        rw [h3] at h
        simp only at h
        cases h4 : em.clusters.atKey z with
        | error e => rw [h4] at h; cases h
        | ok c =>
          rw [h4] at h
          simp only at h
          cases h5 : E.inc c (bv, x1) with
          | error e => rw [h5] at h; cases h
          | ok c1 =>
            rw [h5] at h
            cases h
            exact ⟨t1, by simp [incorporate, baseItems, ha, BaseView.getValue_eq hb, CleanRel.incorporate, h1, h4, h5, bind, Except.bind]⟩

end NoisyRel
end
end Verif
