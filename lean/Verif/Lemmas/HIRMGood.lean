import Verif.Lemmas.HIRMMk
import Verif.Lemmas.IRMOps
/-! Helper lemmas: the full invariant of an HIRM, and the operations that keep its names. -/
namespace Verif
open Spec
noncomputable section
variable {V : Type} {F : Family V} {L : FamilyLaws F}

namespace HIRM
open IRM

/-- the arity of the relation that a pointer names -/
def arS (schema : Schema F) (p : Ptr) : Option Nat := (schema.find? p.name).map (·.doms.length)

/-- every noisy observation is paired with the value that the base relation has at its base tuple -/
def Linked (r b : Rel F) : Prop :=
  ∀ k v, r.data.find? k = some v → ∃ bv, b.data.find? (k.take b.doms.length) = some bv ∧ r.pairs.find? k = some (bv, v)

/-- the full invariant of an HIRM -/
structure Good (L : FamilyLaws F) (H : HIRM F) : Prop where
  skel : Skel H
  inv : ∀ tb I, H.irms.find? tb = some I → IRM.Inv L (arS H.schema) I
  ptr : ∀ n tb id r p, H.relOf n = some (tb, id, r) → r.base? = some p → p.name ≠ n ∧
    ∃ btb bid b, H.relOf p.name = some (btb, bid, b) ∧ p = { table := some btb, name := p.name, id := bid } ∧ Linked r b
  noisy : ∀ b n, n ∈ (H.baseToNoisy.find? b).getD [] ↔ ∃ spec, H.schema.find? n = some spec ∧ spec.base? = some b
  listed : ∀ b, H.baseToNoisy.find? b ≠ some []

theorem good_empty : Good L ({} : HIRM F) where
  skel := skel_empty
  inv _ _ h := by cases h
  ptr n tb id r p h := by cases h
  noisy b n := by simp
  listed b := by simp

theorem Skel.known {H : HIRM F} (h : Skel H) {n : String} {tb : Int} {id : Nat} {r : Rel F} (hr : H.relOf n = some (tb, id, r)) :
    H.schema.contains n = true := tableOf_known h (relOf_some.mp hr).1

theorem Good.matched {H : HIRM F} (h : Good L H) {n : String} {tb : Int} {id : Nat} {r : Rel F} (hr : H.relOf n = some (tb, id, r)) :
    ∃ spec, H.schema.find? n = some spec ∧ spec.Matches r := by
  obtain ⟨_, I, hI, hx⟩ := relOf_some.mp hr
  rcases (h.inv tb I hI).schema n with ⟨_, h2⟩ | ⟨spec, id', q, h1, h2, h3⟩
  · rw [hx] at h2; cases h2
  · rw [hx] at h2; cases h2
    exact ⟨spec, by rw [← h.skel.specs tb I hI n (FMap.contains_iff.mpr ⟨_, hx⟩)]; exact h1, h3⟩

theorem Good.arity {H : HIRM F} (h : Good L H) {n : String} {tb : Int} {id : Nat} {r : Rel F} (hr : H.relOf n = some (tb, id, r))
    {p : Ptr} (hp : p.name = n) : arS H.schema p = some r.doms.length := by
  obtain ⟨spec, h1, h2⟩ := h.matched hr
  simp [arS, hp, h1, h2.doms]

/-- the pointer to the current object shows it -/
theorem env_relOf {H : HIRM F} {n : String} {tb : Int} {id : Nat} {r : Rel F} (hr : H.relOf n = some (tb, id, r)) :
    H.env { table := some tb, name := n, id := id } = some r.view := by
  obtain ⟨_, I, hI, hx⟩ := relOf_some.mp hr
  simp [HIRM.env, hI, hx]

/-- what the base pointer of a relation shows -/
theorem Good.base {H : HIRM F} (h : Good L H) {n : String} {tb : Int} {id : Nat} {r : Rel F} (hr : H.relOf n = some (tb, id, r))
    {p : Ptr} (hp : r.base? = some p) : ∃ btb bid b, H.relOf p.name = some (btb, bid, b) ∧ p.name ≠ n ∧
      baseOf H.env r = some b.view ∧ arS H.schema p = some b.doms.length ∧ Linked r b := by
  obtain ⟨hne, btb, bid, b, h1, h2, h3⟩ := h.ptr n tb id r p hr hp
  refine ⟨btb, bid, b, h1, hne, ?_, h.arity h1 rfl, h3⟩
  rw [baseOf, hp]
  simp only [Option.bind_some]
  rw [h2]
  exact env_relOf h1

theorem Good.bases {H : HIRM F} (h : Good L H) {n : String} {tb : Int} {id : Nat} {r : Rel F} (hr : H.relOf n = some (tb, id, r)) :
    ∀ p, r.base? = some p → ∃ b', baseOf H.env r = some b' ∧ arS H.schema p = some b'.arity := by
  intro p hp
  obtain ⟨btb, bid, b, _, _, h3, h4, _⟩ := h.base hr hp
  exact ⟨b.view, h3, h4⟩

/-- one IRM is replaced by one with the same names -/
theorem relOf_setIrm {H : HIRM F} {tb : Int} {I I' : IRM F} (hI : H.irms.find? tb = some I) (n : String) :
    HIRM.relOf { H with irms := H.irms.set tb I' } n =
      if H.tableOf n = some tb then (I'.rels.find? n).map (fun x => (tb, x.1, x.2)) else H.relOf n := by
  have ht : HIRM.tableOf { H with irms := H.irms.set tb I' } n = H.tableOf n := rfl
  unfold HIRM.relOf
  rw [ht]
  cases hT : H.tableOf n with
  | none => simp
  | some u =>
    simp only [Option.bind_eq_bind, Option.bind_some, Option.some.injEq, FMap.find?_set]
    by_cases hu : u = tb
    · subst hu
      simp only [if_true, Option.bind_some]
      cases I'.rels.find? n <;> rfl
    · simp [hu]

/-- the relation objects of `H'` are those of `H`, with the same shapes -/
structure Shapes (H H' : HIRM F) : Prop where
  fwd : ∀ n tb id r, H.relOf n = some (tb, id, r) → ∃ r', H'.relOf n = some (tb, id, r') ∧ r.SameShape r'
  back : ∀ n tb id r', H'.relOf n = some (tb, id, r') → ∃ r, H.relOf n = some (tb, id, r) ∧ r.SameShape r'

theorem Good.replace {H H' : HIRM F} (h : Good L H) (hk : SameKeys H H')
    (hinv : ∀ tb I', H'.irms.find? tb = some I' → IRM.Inv L (arS H.schema) I') (hs : Shapes H H')
    (hl : ∀ n tb id r p btb bid b, H'.relOf n = some (tb, id, r) → r.base? = some p → H'.relOf p.name = some (btb, bid, b) → p.name ≠ n →
      Linked r b) : Good L H' where
  skel := hk.skel h.skel
  inv := by rw [hk.schema]; exact hinv
  ptr n tb id r' p hr hp := by
    obtain ⟨r, h1, h2⟩ := hs.back n tb id r' hr
    obtain ⟨hne, btb, bid, b, h3, h4, _⟩ := h.ptr n tb id r p h1 (by rw [← h2.base]; exact hp)
    obtain ⟨b', h5, _⟩ := hs.fwd _ _ _ _ h3
    exact ⟨hne, btb, bid, b', h5, h4, hl n tb id r' p btb bid b' hr hp h5 hne⟩
  noisy := by rw [hk.baseToNoisy, hk.schema]; exact h.noisy
  listed := by rw [hk.baseToNoisy]; exact h.listed

theorem Linked.sameData {r r' b b' : Rel F} (h : Linked r b) (hr : r.SameData r') (hb : b.SameData b') : Linked r' b' := by
  unfold Linked
  rw [hr.data, hr.pairs, hb.data, hb.doms]
  exact h

/-- one IRM is replaced by one with the same observations -/
theorem Good.setIrm {H : HIRM F} (h : Good L H) {tb : Int} {I I' : IRM F} (hI : H.irms.find? tb = some I)
    (hinv : IRM.Inv L (arS H.schema) I') (hd : IRM.SameData I I') :
    Good L { H with irms := H.irms.set tb I' } ∧
    (∀ n u id r, H.relOf n = some (u, id, r) → ∃ r', HIRM.relOf { H with irms := H.irms.set tb I' } n = some (u, id, r') ∧ r.SameData r') ∧
    ∀ n, HIRM.relOf { H with irms := H.irms.set tb I' } n = none ↔ H.relOf n = none := by
  have hk : Keys I I' := ⟨hd.schema, fun n => by
    rcases hd.rels n with ⟨h1, h2⟩ | ⟨id, r, r', h1, h2, _⟩ <;> simp [FMap.contains, h1, h2]⟩
  have hto : ∀ n u id r, H.relOf n = some (u, id, r) → ∃ r', HIRM.relOf { H with irms := H.irms.set tb I' } n = some (u, id, r') ∧ r.SameData r' := by
    intro n u id r hr
    rw [relOf_setIrm hI]
    obtain ⟨hT, J, hJ, hx⟩ := relOf_some.mp hr
    by_cases hu : u = tb
    · subst hu
      rw [hI] at hJ; cases hJ
      rcases hd.rels n with ⟨h1, _⟩ | ⟨id', q, q', h1, h2, h3⟩
      · rw [hx] at h1; cases h1
      · rw [hx] at h1; cases h1
        exact ⟨q', by rw [if_pos hT, h2]; rfl, h3⟩
    · rw [if_neg (by rw [hT]; simpa using hu)]
      exact ⟨r, hr, .refl r⟩
  have hnone : ∀ n, HIRM.relOf { H with irms := H.irms.set tb I' } n = none ↔ H.relOf n = none := by
    intro n
    constructor
    · intro h1
      cases h2 : H.relOf n with
      | none => rfl
      | some x =>
        obtain ⟨u, id, r⟩ := x
        obtain ⟨r', h3, _⟩ := hto n u id r h2
        rw [h1] at h3; cases h3
    · intro h1
      rw [relOf_setIrm hI]
      split
      · rename_i hT
        cases hx : I'.rels.find? n with
        | none => rfl
        | some x =>
          obtain ⟨y, hy⟩ := FMap.contains_iff.mp ((hk.rels n).symm.trans (FMap.contains_iff.mpr ⟨x, hx⟩))
          rw [relOf_some (x := (tb, y.1, y.2)) |>.mpr ⟨hT, I, hI, hy⟩] at h1
          cases h1
      · exact h1
  have hback : ∀ n u id r', HIRM.relOf { H with irms := H.irms.set tb I' } n = some (u, id, r') → ∃ r, H.relOf n = some (u, id, r) ∧ r.SameData r' := by
    intro n u id r' hr
    cases h2 : H.relOf n with
    | none => rw [(hnone n).mpr h2] at hr; cases hr
    | some x =>
      obtain ⟨u', id', r⟩ := x
      obtain ⟨r'', h3, h4⟩ := hto n _ _ _ h2
      rw [hr] at h3; cases h3
      exact ⟨r, rfl, h4⟩
  refine ⟨h.replace (.setIrm hI hk) ?_ ⟨fun n u id r hr => ?_, fun n u id r' hr => ?_⟩ ?_, hto, hnone⟩
  · intro u J hJ
    dsimp only at hJ
    rw [FMap.find?_set] at hJ
    split at hJ
    · cases hJ; exact hinv
    · exact h.inv u J hJ
  · obtain ⟨r', h1, h2⟩ := hto n u id r hr
    exact ⟨r', h1, h2.shape⟩
  · obtain ⟨r, h1, h2⟩ := hback n u id r' hr
    exact ⟨r, h1, h2.shape⟩
  · intro n u id r' p btb bid b' hr hp hb _
    obtain ⟨r, h1, h2⟩ := hback n u id r' hr
    obtain ⟨b, h3, h4⟩ := hback _ _ _ _ hb
    obtain ⟨_, btb', bid', b'', h5, _, h6⟩ := h.ptr n u id r p h1 (by rw [← h2.base]; exact hp)
    rw [h3] at h5; cases h5
    exact h6.sameData h2 h4

/-- the relation object of `n` in an IRM -/
theorem Skel.obj {H : HIRM F} (h : Skel H) {tb : Int} {I : IRM F} (hI : H.irms.find? tb = some I) {n : String} {x : Nat × Rel F}
    (hx : I.rels.find? n = some x) : H.relOf n = some (tb, x.1, x.2) :=
  relOf_some.mpr ⟨(h.place tb I hI n).mp (FMap.contains_iff.mpr ⟨x, hx⟩), I, hI, hx⟩

/-! ### incorporate and unincorporate -/

/-- one relation object gets other observations, and its IRM other domains -/
theorem relOf_setRel {H : HIRM F} {r : String} {tb : Int} {id : Nat} {rel rel' : Rel F} {I : IRM F} (hr : H.relOf r = some (tb, id, rel))
    (hI : H.irms.find? tb = some I) (σ' : Doms) (n : String) :
    HIRM.relOf { H with irms := H.irms.set tb { I with doms := σ', rels := I.rels.set r (id, rel') } } n =
      if n = r then some (tb, id, rel') else H.relOf n := by
  obtain ⟨hT, J, hJ, hx⟩ := relOf_some.mp hr
  rw [hI] at hJ; cases hJ
  rw [relOf_setIrm hI]
  dsimp only
  rw [FMap.find?_set]
  by_cases hn : n = r
  · subst hn; simp [hT]
  · simp only [hn, if_false]
    split
    · rename_i hT'
      cases hy : I.rels.find? n with
      | none => simp [HIRM.relOf, hT', hI, hy]
      | some y => simp [HIRM.relOf, hT', hI, hy]
    · rfl

theorem Good.setRel {H : HIRM F} (h : Good L H) {r : String} {tb : Int} {id : Nat} {rel rel' : Rel F} {I : IRM F}
    (hr : H.relOf r = some (tb, id, rel)) (hI : H.irms.find? tb = some I) {σ' : Doms}
    (hinv : IRM.Inv L (arS H.schema) { I with doms := σ', rels := I.rels.set r (id, rel') }) (hs : rel.SameShape rel')
    (hown : ∀ p btb bid b, rel'.base? = some p → H.relOf p.name = some (btb, bid, b) → p.name ≠ r → Linked rel' b)
    (hdep : ∀ n u id' q p, n ≠ r → H.relOf n = some (u, id', q) → q.base? = some p → p.name = r → Linked q rel → Linked q rel') :
    Good L { H with irms := H.irms.set tb { I with doms := σ', rels := I.rels.set r (id, rel') } } := by
  obtain ⟨hT, J, hJ, hx⟩ := relOf_some.mp hr
  rw [hI] at hJ; cases hJ
  refine h.replace (.setIrm hI (.setRel hx σ')) ?_ ⟨?_, ?_⟩ ?_
  · intro u J hJ
    dsimp only at hJ
    rw [FMap.find?_set] at hJ
    split at hJ
    · cases hJ; exact hinv
    · exact h.inv u J hJ
  · intro n u id' q hq
    rw [relOf_setRel hr hI]
    split
    · rename_i hn; subst hn; rw [hr] at hq; cases hq; exact ⟨rel', rfl, hs⟩
    · exact ⟨q, hq, .refl q⟩
  · intro n u id' q hq
    rw [relOf_setRel hr hI] at hq
    split at hq
    · rename_i hn; subst hn; cases hq; exact ⟨rel, hr, hs⟩
    · exact ⟨q, hq, .refl q⟩
  · intro n u id' q p btb bid b hq hp hb hne
    rw [relOf_setRel hr hI] at hq hb
    split at hq
    · rename_i hn
      subst hn
      cases hq
      rw [if_neg hne] at hb
      exact hown p btb bid b hp hb hne
    · rename_i hn
      obtain ⟨_, btb', bid', b', h5, _, h6⟩ := h.ptr n u id' q p hq hp
      split at hb
      · rename_i hpr
        cases hb
        rw [hpr, hr] at h5; cases h5
        exact hdep n u id' q p hn hq hp hpr h6
      · rw [hb] at h5; cases h5
        exact h6

theorem Good.incorporate {H : HIRM F} (h : Good L H) {r : String} {tb : Int} {id : Nat} {rel : Rel F} (hr : H.relOf r = some (tb, id, rel))
    {items : Items} {v : V} (hv : rel.Supports L (baseOf H.env rel) items v) (hl : items.length = rel.doms.length)
    (hn : rel.data.find? items = none) (hb : rel.HasBase (baseOf H.env rel) items) (t : Tape) :
    ∃ H' t' rel', H.incorporate r items v t = .ok (H', t') ∧ Good L H' ∧ SameKeys H H' ∧ rel.SameShape rel' ∧
      rel'.data = rel.data.set items v ∧ ∀ n, H'.relOf n = if n = r then some (tb, id, rel') else H.relOf n := by
  obtain ⟨hT, I, hI, hx⟩ := relOf_some.mp hr
  obtain ⟨σ', rel', t', h1, h2, h3, h4, _, h6⟩ := IRM.incorporate_ok' (h.inv tb I hI) hx (env := H.env) (fun p hp b' hb' => by
    obtain ⟨b'', h7, h8⟩ := h.bases hr p hp
    rw [hb'] at h7; cases h7; exact h8) hv hl hn hb t
  refine ⟨_, t', rel', ?_, h.setRel hr hI h2 h3 ?_ ?_, .setIrm hI (.setRel hx σ'), h3, h4, relOf_setRel hr hI σ'⟩
  · have : H.relationToIrm r = .ok (tb, I) := relationToIrm_ok.mpr ⟨hT, hI⟩
    simp only [HIRM.incorporate, this, bind, Except.bind, h1]
  · intro p btb bid b hp hpb hne k w hk
    rw [h3.base] at hp
    obtain ⟨btb', bid', b', h7, _, h8, h9, h10⟩ := h.base hr hp
    rw [hpb] at h7; cases h7
    obtain ⟨b1, bv, h11, h12⟩ := hb p hp
    rw [h8] at h11; cases h11
    have h13 := h6 p hp _ h8 bv h12
    rw [h4, FMap.find?_set] at hk
    rw [h13, FMap.find?_set]
    split at hk
    · rename_i hkk; subst hkk; cases hk
      exact ⟨bv, h12, by simp⟩
    · rename_i hkk
      simp only [hkk, if_false]
      exact h10 k w hk
  · intro n u id' q p _ _ _ _ hq k w hk
    obtain ⟨bv, h7, h8⟩ := hq k w hk
    refine ⟨bv, ?_, h8⟩
    rw [h4, h3.doms, FMap.find?_set_ne _ (fun he => by rw [he, hn] at h7; cases h7)]
    exact h7

theorem Good.unincorporate {H : HIRM F} (h : Good L H) {r : String} {tb : Int} {id : Nat} {rel : Rel F} (hr : H.relOf r = some (tb, id, rel))
    {items : Items} (hk : rel.data.contains items = true) (hu : H.Unused r items) :
    ∃ H' rel', H.unincorporate r items = .ok H' ∧ Good L H' ∧ SameKeys H H' ∧ rel.SameShape rel' ∧
      rel'.data = rel.data.erase items ∧ ∀ n, H'.relOf n = if n = r then some (tb, id, rel') else H.relOf n := by
  obtain ⟨hT, I, hI, hx⟩ := relOf_some.mp hr
  obtain ⟨σ', rel', h1, h2, h3, h4, h5, _⟩ := IRM.unincorporate_ok' (h.inv tb I hI) hx (env := H.env) (h.bases hr) hk
  refine ⟨_, rel', ?_, h.setRel hr hI h2 h3 ?_ ?_, .setIrm hI (.setRel hx σ'), h3, h4, relOf_setRel hr hI σ'⟩
  · have : H.relationToIrm r = .ok (tb, I) := relationToIrm_ok.mpr ⟨hT, hI⟩
    simp only [HIRM.unincorporate, this, bind, Except.bind, h1]
  · intro p btb bid b hp hpb hne k w hkw
    rw [h3.base] at hp
    obtain ⟨btb', bid', b', h7, _, _, _, h10⟩ := h.base hr hp
    rw [hpb] at h7; cases h7
    rw [h4, FMap.find?_erase] at hkw
    rw [h5, FMap.find?_erase]
    split at hkw
    · cases hkw
    · rename_i hkk
      simp only [hkk, if_false]
      exact h10 k w hkw
  · intro n u id' q p _ hq hp hpr hlk k w hkw
    obtain ⟨bv, h7, h8⟩ := hlk k w hkw
    refine ⟨bv, ?_, h8⟩
    rw [h4, h3.doms, FMap.find?_erase_ne _ (hu n u id' q p tb id rel hq hp hpr hr k (FMap.contains_iff.mpr ⟨w, hkw⟩))]
    exact h7

end HIRM
end
end Verif
