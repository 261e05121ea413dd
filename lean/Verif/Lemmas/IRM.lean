import Verif.Lemmas.RelInv
import Verif.Lemmas.CRPGibbs
/-! Helper lemmas: the invariant of an IRM. -/
namespace Verif
open Spec
noncomputable section
variable {V : Type} {F : Family V}

theorem RelSpec.Matches.shape {s : RelSpec F} {r r' : Rel F} (h : s.Matches r) (hs : r.SameShape r') : s.Matches r' :=
  ⟨hs.kind.trans h.kind, hs.doms.trans h.doms, by rw [hs.base, h.base]⟩

namespace IRM

/-- the arity of the relation a base pointer points to -/
def arOf (env : Env V) (p : Ptr) : Option Nat := (env p).map (·.arity)

/-- the invariant of an IRM; `ar` gives the arity of the relation a base pointer points to -/
structure Inv (L : FamilyLaws F) (ar : Ptr → Option Nat) (I : IRM F) : Prop where
  store : StoreWF I.doms
  alpha : ∀ d dom, I.doms.find? d = some dom → 0 < dom.crp.alpha
  names : ∀ d, I.domToRels.contains d = I.doms.contains d
  index : ∀ d s, I.domToRels.find? d = some s → ∀ r, r ∈ s.keys ↔ ∃ id rel, I.rels.find? r = some (id, rel) ∧ d ∈ rel.doms
  used : ∀ d s, I.domToRels.find? d = some s → ∃ r, r ∈ s.keys
  schema : ∀ name, (I.schema.find? name = none ∧ I.rels.find? name = none) ∨
    ∃ spec id r, I.schema.find? name = some spec ∧ I.rels.find? name = some (id, r) ∧ spec.Matches r
  rels : ∀ name id r, I.rels.find? name = some (id, r) → r.Inv L ar I.doms

/-- the same relation objects with the same shapes -/
def SameShape (I I' : IRM F) : Prop :=
  ∀ name, (I.rels.find? name = none ∧ I'.rels.find? name = none) ∨
    ∃ id r r', I.rels.find? name = some (id, r) ∧ I'.rels.find? name = some (id, r') ∧ r.SameShape r'

theorem SameShape.env {I I' : IRM F} (h : SameShape I I') : arOf I'.env = arOf I.env := by
  funext p
  unfold arOf IRM.env
  rcases h p.name with ⟨h1, h2⟩ | ⟨id, r, r', h1, h2, h3⟩
  · cases p.table <;> simp [h1, h2]
  · cases p.table with
    | some _ => rfl
    | none =>
      simp only [h1, h2]
      split
      · simp [Rel.view, h3.doms]
      · rfl

theorem SameData.shape {I I' : IRM F} (h : SameData I I') : SameShape I I' := fun name =>
  (h.rels name).imp id (fun ⟨id, r, r', h1, h2, h3⟩ => ⟨id, r, r', h1, h2, h3.shape⟩)

theorem SameData.refl (I : IRM F) : SameData I I where
  schema := rfl
  baseToNoisy := rfl
  domToRels := rfl
  rels name := by
    cases h : I.rels.find? name with
    | none => exact .inl ⟨rfl, rfl⟩
    | some x => exact .inr ⟨x.1, x.2, x.2, rfl, rfl, .refl _⟩
  doms d := by
    cases h : I.doms.find? d with
    | none => exact .inl ⟨rfl, rfl⟩
    | some x => exact .inr ⟨x, x, rfl, rfl, rfl, rfl⟩

theorem SameData.trans {I I1 I2 : IRM F} (h : SameData I I1) (h' : SameData I1 I2) : SameData I I2 where
  schema := h'.schema.trans h.schema
  baseToNoisy := h'.baseToNoisy.trans h.baseToNoisy
  domToRels := h'.domToRels.trans h.domToRels
  rels name := by
    rcases h.rels name with ⟨h1, h2⟩ | ⟨id, r, r', h1, h2, h3⟩
    · rcases h'.rels name with ⟨_, h4⟩ | ⟨id, r, r', h4, _⟩
      · exact .inl ⟨h1, h4⟩
      · rw [h2] at h4; cases h4
    · rcases h'.rels name with ⟨h4, _⟩ | ⟨id, r1, r2, h4, h5, h6⟩
      · rw [h2] at h4; cases h4
      · rw [h2] at h4; cases h4; exact .inr ⟨_, r, r2, h1, h5, h3.trans h6⟩
  doms d := by
    rcases h.doms d with ⟨h1, h2⟩ | ⟨r, r', h1, h2, h3, h3'⟩
    · rcases h'.doms d with ⟨_, h4⟩ | ⟨r, r', h4, _⟩
      · exact .inl ⟨h1, h4⟩
      · rw [h2] at h4; cases h4
    · rcases h'.doms d with ⟨h4, _⟩ | ⟨r1, r2, h4, h5, h6, h6'⟩
      · rw [h2] at h4; cases h4
      · rw [h2] at h4; cases h4; exact .inr ⟨r, r2, h1, h5, h6.trans h3, h6'.trans h3'⟩

/-- replacing one relation object by one with the same data -/
theorem SameData.setRel {I : IRM F} {name : String} {id : Nat} {r r' : Rel F} (hf : I.rels.find? name = some (id, r))
    (h : r.SameData r') : SameData I { I with rels := I.rels.set name (id, r') } where
  schema := rfl
  baseToNoisy := rfl
  domToRels := rfl
  rels n := by
    dsimp only
    rw [FMap.find?_set]
    split
    · rename_i hn; subst hn; exact .inr ⟨id, r, r', hf, rfl, h⟩
    · exact (SameData.refl I).rels n
  doms := (SameData.refl I).doms

variable {L : FamilyLaws F} {ar : Ptr → Option Nat}

theorem Inv.items_iff {I : IRM F} (h : Inv L ar I) {d : String} {dom : Domain} (hd : I.doms.find? d = some dom) {i : Int} :
    dom.items.contains i = true ↔ ∃ z, seatOf I.doms d i = some z := by
  rw [(h.store d dom hd).mem, seatOf_eq hd]

/-- a relation lists itself under its domains -/
theorem Inv.listed {I : IRM F} (h : Inv L ar I) {name : String} {id : Nat} {r : Rel F} (hr : I.rels.find? name = some (id, r))
    {d : String} (hd : d ∈ r.doms) : ∃ s, I.domToRels.find? d = some s ∧ name ∈ s.keys := by
  have hc := (h.names d).trans ((h.rels name id r hr).doms d hd)
  obtain ⟨s, hs⟩ := FMap.contains_iff.mp hc
  exact ⟨s, hs, (h.index d s hs name).mpr ⟨id, r, hr, hd⟩⟩

/-- one relation object and the store change -/
theorem Inv.update' {I : IRM F} (h : Inv L ar I) {name : String} {id : Nat} {r r' : Rel F} (hr : I.rels.find? name = some (id, r))
    (hsd : r'.doms = r.doms) (hsm : ∀ spec : RelSpec F, spec.Matches r → spec.Matches r') {σ' : Doms} (hσ : StoreWF σ') (ha : ∀ d dom, σ'.find? d = some dom → 0 < dom.crp.alpha)
    (hc : ∀ d, σ'.contains d = I.doms.contains d) (hi : r'.Inv L ar σ')
    (ho : ∀ n id' q, n ≠ name → I.rels.find? n = some (id', q) → q.Inv L ar σ') :
    Inv L ar { I with doms := σ', rels := I.rels.set name (id, r') } where
  store := hσ
  alpha := ha
  names d := by rw [h.names d]; exact (hc d).symm
  index d s hds n := by
    rw [h.index d s hds n]
    dsimp only
    simp only [FMap.find?_set]
    by_cases hn : n = name
    · subst hn
      simp only [if_true]
      constructor
      · rintro ⟨id', rel, h1, h2⟩
        rw [hr] at h1
        cases h1
        exact ⟨_, _, rfl, by rw [hsd]; exact h2⟩
      · rintro ⟨id', rel, h1, h2⟩
        cases h1
        exact ⟨_, _, hr, by rw [← hsd]; exact h2⟩
    · simp [hn]
  used := h.used
  schema n := by
    dsimp only
    rw [FMap.find?_set]
    split
    · rename_i hn
      subst hn
      rcases h.schema n with ⟨_, h2⟩ | ⟨spec, id', q, h1, h2, h3⟩
      · rw [hr] at h2; cases h2
      · rw [hr] at h2; cases h2
        exact .inr ⟨spec, id, r', h1, rfl, hsm _ h3⟩
    · exact h.schema n
  rels n id' q hq := by
    dsimp only at hq ⊢
    rw [FMap.find?_set] at hq
    split at hq
    · cases hq; exact hi
    · rename_i hn; exact ho n id' q hn hq

/-- one relation object and the store change, but not its shape -/
theorem Inv.update {I : IRM F} (h : Inv L ar I) {name : String} {id : Nat} {r r' : Rel F} (hr : I.rels.find? name = some (id, r))
    (hs : r.SameShape r') {σ' : Doms} (hσ : StoreWF σ') (ha : ∀ d dom, σ'.find? d = some dom → 0 < dom.crp.alpha)
    (hc : ∀ d, σ'.contains d = I.doms.contains d) (hi : r'.Inv L ar σ')
    (ho : ∀ n id' q, n ≠ name → I.rels.find? n = some (id', q) → q.Inv L ar σ') :
    Inv L ar { I with doms := σ', rels := I.rels.set name (id, r') } :=
  h.update' hr hs.doms (fun _ hm => hm.shape hs) hσ ha hc hi ho

/-- the base pointer of a relation changes -/
theorem Inv.retarget {I : IRM F} (h : Inv L ar I) {name : String} {id : Nat} {e : F.E} {p p' : Ptr} {q : NoisyRel (F.emis e).toDistOps}
    (hr : I.rels.find? name = some (id, .noisy e p q)) (hn : p'.name = p.name) (ha : ar p' = ar p) :
    Inv L ar { I with rels := I.rels.set name (id, .noisy e p' q) } := by
  have hi := h.rels name id _ hr
  refine h.update' (r' := .noisy e p' q) hr rfl (fun spec hm => ⟨hm.kind, hm.doms, ?_⟩) h.store h.alpha (fun _ => rfl) ?_
    (fun n id' q' _ hq => h.rels n id' q' hq)
  · rw [← hm.base]; simp [Rel.base?, hn]
  · obtain ⟨h1, n, h2, h3⟩ := hi
    exact ⟨h1, n, ha.trans h2, h3⟩

/-- only the statistics of one relation object change -/
theorem Inv.setRel {I : IRM F} (h : Inv L ar I) {name : String} {id : Nat} {r r' : Rel F} (hr : I.rels.find? name = some (id, r))
    (hs : r.SameShape r') (hi : r'.Inv L ar I.doms) : Inv L ar { I with rels := I.rels.set name (id, r') } := by
  have := h.update hr hs h.store h.alpha (fun _ => rfl) hi (fun n id' q _ hq => h.rels n id' q hq)
  exact this

/-- only the store changes, and only where no stored tuple is seated -/
theorem Inv.setStore {I : IRM F} (h : Inv L ar I) {σ' : Doms} (hσ : StoreWF σ')
    (ha : ∀ d dom, σ'.find? d = some dom → 0 < dom.crp.alpha) (hc : ∀ d, σ'.contains d = I.doms.contains d)
    (hs : ∀ d i, I.Observed d i → seatOf σ' d i = seatOf I.doms d i) : Inv L ar { I with doms := σ' } where
  store := hσ
  alpha := ha
  names d := by rw [h.names d]; exact (hc d).symm
  index := h.index
  used := h.used
  schema := h.schema
  rels n id q hq := (h.rels n id q hq).reseat (fun d hd => by dsimp only; rw [hc]; exact (h.rels n id q hq).doms d hd)
    (fun k hk d i hu => hs d i ⟨n, id, q, k, hq, hk, hu⟩)

/-! ### incorporate -/

theorem baseOf_ar {env : Env V} {r : Rel F} : ∀ p, r.base? = some p → ∀ b', baseOf env r = some b' → arOf env p = some b'.arity := by
  intro p hp b' hb
  rw [baseOf, hp] at hb
  simp only [Option.bind_some] at hb
  simp [arOf, hb]

theorem incorporate_ok' {I : IRM F} {env : Env V} (h : Inv L ar I) {name : String} {id : Nat} {r : Rel F}
    (hr : I.rels.find? name = some (id, r)) (hb : ∀ p, r.base? = some p → ∀ b', baseOf env r = some b' → ar p = some b'.arity) {items : Items} {v : V} (hv : r.Supports L (baseOf env r) items v)
    (hl : items.length = r.doms.length) (hn : r.data.find? items = none) (hbase : r.HasBase (baseOf env r) items) (t : Tape) :
    ∃ σ' r' t', incorporate env I name items v t = .ok ({ I with doms := σ', rels := I.rels.set name (id, r') }, t') ∧
      Inv L ar { I with doms := σ', rels := I.rels.set name (id, r') } ∧ r.SameShape r' ∧ r'.data = r.data.set items v ∧
      Grows (fun d i => Uses r.doms d i items) I.doms σ' ∧
      (∀ p, r.base? = some p → ∀ b', baseOf env r = some b' → ∀ bv, b'.data.find? (items.take b'.arity) = some bv →
        r'.pairs = r.pairs.set items (bv, v)) := by
  obtain ⟨σ', r', t', h1, h2, h3, h4, h5, h6, h7⟩ := (h.rels name id r hr).incorporate_ok h.store hb hv hl hn hbase t
  refine ⟨σ', r', t', ?_, ?_, h5, h6, h3, h7⟩
  · simp [incorporate, FMap.atKey_of_find hr, bind, Except.bind, h1]
  · refine h.update hr h5 h2 ?_ h3.doms h4 (fun n id' q _ hq => (h.rels n id' q hq).grows h3)
    intro d dom hd
    obtain ⟨dom0, hd0⟩ := FMap.contains_iff.mp ((h3.doms d).symm.trans (FMap.contains_iff.mpr ⟨dom, hd⟩))
    obtain ⟨dom', h8, h9, _⟩ := h3.alpha d dom0 hd0
    rw [hd] at h8
    cases h8
    rw [h9]
    exact h.alpha d dom0 hd0

theorem incorporate_ok {I : IRM F} {env : Env V} (h : Inv L (arOf env) I) {name : String} {id : Nat} {r : Rel F}
    (hr : I.rels.find? name = some (id, r)) {items : Items} {v : V} (hv : r.Supports L (baseOf env r) items v)
    (hl : items.length = r.doms.length) (hn : r.data.find? items = none) (hbase : r.HasBase (baseOf env r) items) (t : Tape) :
    ∃ σ' r' t', incorporate env I name items v t = .ok ({ I with doms := σ', rels := I.rels.set name (id, r') }, t') ∧
      Inv L (arOf env) { I with doms := σ', rels := I.rels.set name (id, r') } ∧ r.SameShape r' ∧ r'.data = r.data.set items v ∧
      Grows (fun d i => Uses r.doms d i items) I.doms σ' ∧
      (∀ p, r.base? = some p → ∀ b', baseOf env r = some b' → ∀ bv, b'.data.find? (items.take b'.arity) = some bv →
        r'.pairs = r.pairs.set items (bv, v)) :=
  incorporate_ok' h hr baseOf_ar hv hl hn hbase t

theorem incorporate_pre {I : IRM F} {env : Env V} (h : Inv L ar I) {name : String} {items : Items} {v : V} {t : Tape}
    {x : IRM F × Tape} (hc : incorporate env I name items v t = .ok x) :
    ∃ id r, I.rels.find? name = some (id, r) ∧ items.length = r.doms.length ∧ r.data.find? items = none ∧
      r.HasBase (baseOf env r) items := by
  obtain ⟨⟨id, r⟩, h1, h2⟩ := bind_ok.mp hc
  obtain ⟨y, h3, _⟩ := bind_ok.mp h2
  have hr := FMap.atKey_ok.mp h1
  exact ⟨id, r, hr, (h.rels name id r hr).incorporate_pre h3⟩

theorem observed_set {I : IRM F} {name : String} {id : Nat} {r r' : Rel F} {σ' : Doms} (hd : r'.doms = r.doms) {d : String} {i : Int} :
    Observed { I with doms := σ', rels := I.rels.set name (id, r') } d i ↔
      (∃ n id' q k, n ≠ name ∧ I.rels.find? n = some (id', q) ∧ q.data.contains k = true ∧ Uses q.doms d i k) ∨
      ∃ k, r'.data.contains k = true ∧ Uses r.doms d i k := by
  unfold Observed
  simp only [FMap.find?_set]
  constructor
  · rintro ⟨n, id', q, k, h1, h2, h3⟩
    split at h1
    · cases h1; exact .inr ⟨k, h2, by rw [← hd]; exact h3⟩
    · rename_i hn; exact .inl ⟨n, id', q, k, hn, h1, h2, h3⟩
  · rintro (⟨n, id', q, k, hn, h1, h2, h3⟩ | ⟨k, h2, h3⟩)
    · exact ⟨n, id', q, k, by rw [if_neg hn]; exact h1, h2, h3⟩
    · exact ⟨name, id, r', k, by rw [if_pos rfl], h2, by rw [hd]; exact h3⟩

theorem observed_split {I : IRM F} {name : String} {id : Nat} {r : Rel F} (hr : I.rels.find? name = some (id, r))
    {d : String} {i : Int} :
    I.Observed d i ↔
      (∃ n id' q k, n ≠ name ∧ I.rels.find? n = some (id', q) ∧ q.data.contains k = true ∧ Uses q.doms d i k) ∨
      ∃ k, r.data.contains k = true ∧ Uses r.doms d i k := by
  have := observed_set (σ' := I.doms) (r' := r) (id := id) (name := name) (I := I) rfl (d := d) (i := i)
  rw [FMap.set_of_find hr] at this
  exact this

theorem observed_incorporate {I : IRM F} {name : String} {id : Nat} {r r' : Rel F} {σ' : Doms} (hr : I.rels.find? name = some (id, r))
    (hd : r'.doms = r.doms) {items : Items} {v : V} (hdata : r'.data = r.data.set items v) {d : String} {i : Int} :
    Observed { I with doms := σ', rels := I.rels.set name (id, r') } d i ↔ I.Observed d i ∨ Uses r.doms d i items := by
  rw [observed_set hd, observed_split hr, or_assoc]
  refine or_congr Iff.rfl ?_
  rw [hdata]
  constructor
  · rintro ⟨k, h1, h2⟩
    by_cases hk : k = items
    · subst hk; exact .inr h2
    · refine .inl ⟨k, ?_, h2⟩
      rw [← h1]; simp [FMap.contains, FMap.find?_set, hk]
  · rintro (⟨k, h1, h2⟩ | h2)
    · refine ⟨k, ?_, h2⟩
      simp only [FMap.contains, FMap.find?_set]
      split
      · rfl
      · exact h1
    · exact ⟨items, by simp [FMap.contains], h2⟩

/-- the entities of every domain that exists are exactly the observed ones, in terms of seats -/
theorem Inv.itemsExact_iff {I : IRM F} (h : Inv L ar I) :
    I.ItemsExact ↔ ∀ d, I.doms.contains d = true → ∀ i, (∃ z, seatOf I.doms d i = some z) ↔ I.Observed d i := by
  constructor
  · intro hi d hd i
    obtain ⟨dom, hdom⟩ := FMap.contains_iff.mp hd
    rw [← h.items_iff hdom]
    exact hi d dom hdom i
  · intro hi d dom hdom i
    rw [h.items_iff hdom]
    exact hi d (FMap.contains_iff.mpr ⟨dom, hdom⟩) i

/-- an observed entity is in its domain -/
theorem Inv.observed_seat {I : IRM F} (h : Inv L ar I) {d : String} {i : Int} (ho : I.Observed d i) :
    I.doms.contains d = true ∧ ∃ z, seatOf I.doms d i = some z := by
  obtain ⟨n, id, q, k, h1, h2, h3⟩ := ho
  exact ⟨(h.rels n id q h1).doms d (List.of_mem_zip h3).1, (h.rels n id q h1).seat_of_uses h2 h3⟩

/-! ### unincorporate -/

theorem anyHas_spec {I : IRM F} (h : Inv L ar I) {d : String} {i : Int} : ∀ (l : List String) (b : Bool),
    (∀ n ∈ l, ∃ id rel, I.rels.find? n = some (id, rel) ∧ d ∈ rel.doms) →
    ∃ b', anyHas I d i l b = .ok b' ∧ (b' = true ↔ b = true ∨ ∃ n ∈ l, ∃ id rel k, I.rels.find? n = some (id, rel) ∧
      rel.data.contains k = true ∧ Uses rel.doms d i k) := by
  intro l
  induction l with
  | nil => exact fun b _ => ⟨b, rfl, by simp⟩
  | cons n l ih =>
    intro b hl
    obtain ⟨id, rel, h1, h2⟩ := hl n (by simp)
    obtain ⟨b1, h3, h4⟩ := (h.rels n id rel h1).hasObservation h2 i
    obtain ⟨b', h5, h6⟩ := ih (b || b1) (fun m hm => hl m (by simp [hm]))
    refine ⟨b', ?_, ?_⟩
    · simp only [anyHas, FMap.atKey_of_find h1, bind, Except.bind, h3, h5]
    · rw [h6, Bool.or_eq_true, h4, or_assoc]
      refine or_congr Iff.rfl ?_
      simp only [List.mem_cons]
      constructor
      · rintro (⟨k, h7, h8⟩ | ⟨m, hm, h7⟩)
        · exact ⟨n, .inl rfl, id, rel, k, h1, h7, h8⟩
        · exact ⟨m, .inr hm, h7⟩
      · rintro ⟨m, rfl | hm, id', rel', k, h7, h8, h9⟩
        · rw [h1] at h7; cases h7; exact .inl ⟨k, h8, h9⟩
        · exact .inr ⟨m, hm, id', rel', k, h7, h8, h9⟩

/-- `anyHas` over all relations of a domain: is the entity observed? -/
theorem anyHas_all {I : IRM F} (h : Inv L ar I) {d : String} {s : FSet String} (hs : I.domToRels.find? d = some s) (i : Int) (b : Bool) :
    ∃ b', anyHas I d i s.keys b = .ok b' ∧ (b' = true ↔ b = true ∨ I.Observed d i) := by
  obtain ⟨b', h1, h2⟩ := anyHas_spec h (i := i) s.keys b (fun n hn => (h.index d s hs n).mp hn)
  refine ⟨b', h1, h2.trans (or_congr Iff.rfl ?_)⟩
  constructor
  · rintro ⟨n, _, id, rel, k, h3, h4, h5⟩; exact ⟨n, id, rel, k, h3, h4, h5⟩
  · rintro ⟨n, id, rel, k, h3, h4, h5⟩
    exact ⟨n, (h.index d s hs n).mpr ⟨id, rel, h3, (List.of_mem_zip h5).1⟩, id, rel, k, h3, h4, h5⟩

theorem flagInit_spec : ∀ (ds : List String) (is : Items) (m : FMap (String × Int) Bool), is.length = ds.length →
    ∃ m', flagInit ds is m = .ok m' ∧ ∀ k, m'.find? k = if k ∈ ds.zip is then some false else m.find? k := by
  intro ds
  induction ds with
  | nil => exact fun is m _ => ⟨m, rfl, by simp⟩
  | cons d ds ih =>
    intro is m hl
    cases is with
    | nil => simp at hl
    | cons i is =>
      obtain ⟨m', h1, h2⟩ := ih is (m.set (d, i) false) (by simpa using hl)
      refine ⟨m', h1, fun k => ?_⟩
      rw [h2, FMap.find?_set]
      simp only [List.zip_cons_cons, List.mem_cons]
      by_cases h3 : k ∈ ds.zip is <;> by_cases h4 : k = (d, i) <;> simp [h3, h4]

theorem flagLoop_spec {I : IRM F} (h : Inv L ar I) : ∀ (ds : List String) (is : Items) (m : FMap (String × Int) Bool),
    is.length = ds.length → (∀ d ∈ ds, I.doms.contains d = true) →
    (∀ d i, (d, i) ∈ ds.zip is → ∃ b, m.find? (d, i) = some b ∧ (b = true → I.Observed d i)) →
    ∃ m', flagLoop I ds is m = .ok m' ∧ (∀ k, k ∉ ds.zip is → m'.find? k = m.find? k) ∧
      ∀ d i, (d, i) ∈ ds.zip is → ∃ b, m'.find? (d, i) = some b ∧ (b = true ↔ I.Observed d i) := by
  intro ds
  induction ds with
  | nil => exact fun is m _ _ _ => ⟨m, rfl, fun _ _ => rfl, fun d i hm => by simp at hm⟩
  | cons d ds ih =>
    intro is m hl hd hm
    cases is with
    | nil => simp at hl
    | cons i is =>
      obtain ⟨s, hs⟩ := FMap.contains_iff.mp ((h.names d).trans (hd d (by simp)))
      obtain ⟨b0, hb0, hb1⟩ := hm d i (by simp)
      obtain ⟨b', h1, h2⟩ := anyHas_all h hs i b0
      have h2' : b' = true ↔ I.Observed d i := h2.trans ⟨fun hh => hh.elim hb1 id, .inr⟩
      obtain ⟨m', h3, h4, h5⟩ := ih is (m.set (d, i) b') (by simpa using hl) (fun d' hd' => hd d' (by simp [hd'])) (by
        intro d' i' hm'
        rw [FMap.find?_set]
        split
        · rename_i he; cases he; exact ⟨b', rfl, h2'.mp⟩
        · exact hm d' i' (by simp [hm']))
      refine ⟨m', ?_, ?_, ?_⟩
      · simp only [flagLoop, bind, Except.bind, FMap.atKey_of_find hs, FMap.atKey_of_find hb0, h1, h3]
      · intro k hk
        simp only [List.zip_cons_cons, List.mem_cons, not_or] at hk
        rw [h4 k hk.2, FMap.find?_set_ne _ hk.1]
      · intro d' i' hm'
        by_cases hz : (d', i') ∈ ds.zip is
        · exact h5 d' i' hz
        · simp only [List.zip_cons_cons, List.mem_cons, hz, or_false] at hm'
          cases hm'
          exact ⟨b', by rw [h4 _ hz, FMap.find?_set_self], h2'⟩

/-- `σ'` is `σ` with the items of `out` taken out of their domains -/
structure _root_.Verif.Shrinks (out : String → Int → Prop) (σ σ' : Doms) : Prop where
  doms : ∀ d, σ'.contains d = σ.contains d
  alpha : ∀ d dom, σ.find? d = some dom → ∃ dom', σ'.find? d = some dom' ∧ dom'.crp.alpha = dom.crp.alpha ∧ dom'.name = dom.name
  gone : ∀ d i, out d i → seatOf σ' d i = none
  seat : ∀ d i, ¬ out d i → seatOf σ' d i = seatOf σ d i

theorem _root_.Verif.shrinks_unincorporate {σ : Doms} (hσ : StoreWF σ) {d : String} {dom : Domain} (hd : σ.find? d = some dom)
    {i z : Int} (hz : seatOf σ d i = some z) :
    ∃ dom', dom.unincorporate i = .ok dom' ∧ StoreWF (σ.set d dom') ∧
      Shrinks (fun d' i' => d' = d ∧ i' = i) σ (σ.set d dom') := by
  have hw := hσ d dom hd
  rw [seatOf_eq hd] at hz
  obtain ⟨tb, s, h1, h2, h3, h4⟩ := Domain.unincorporate_eq hw (hw.mem.mpr ⟨z, hz⟩)
  refine ⟨_, h3, hσ.set h4, ?_⟩
  constructor
  · intro d'
    simp only [FMap.contains, FMap.find?_set]
    split
    · rename_i h; subst h; simp [hd]
    · rfl
  · intro d' dom' h'
    rw [FMap.find?_set]
    split
    · rename_i h; subst h; rw [hd] at h'; cases h'; exact ⟨_, rfl, rfl, rfl⟩
    · exact ⟨dom', h', rfl, rfl⟩
  · rintro d' i' ⟨rfl, rfl⟩
    rw [seatOf_set, if_pos rfl]
    simp [CRP.uninState]
  · intro d' i' hn
    rw [seatOf_set]
    split
    · rename_i h
      subst h
      have : i' ≠ i := fun h => hn ⟨rfl, h⟩
      rw [seatOf_eq hd]
      simp [CRP.uninState, FMap.find?_erase_ne _ this]
    · rfl

theorem dropLoop_spec : ∀ (ds : List String) (is : Items) (m : FMap (String × Int) Bool) (σ : Doms), StoreWF σ →
    is.length = ds.length →
    (∀ d i, (d, i) ∈ ds.zip is → ∃ b, m.find? (d, i) = some b ∧ (b = false → ∃ z, seatOf σ d i = some z)) →
    ∃ σ', dropLoop ds is m σ = .ok σ' ∧ StoreWF σ' ∧
      Shrinks (fun d i => (d, i) ∈ ds.zip is ∧ m.find? (d, i) = some false) σ σ' := by
  intro ds
  induction ds with
  | nil =>
    intro is m σ hσ _ _
    refine ⟨σ, rfl, hσ, ⟨fun _ => rfl, fun d dom h => ⟨dom, h, rfl, rfl⟩, fun d i h => ?_, fun _ _ _ => rfl⟩⟩
    simp at h
  | cons d ds ih =>
    intro is m σ hσ hl hm
    cases is with
    | nil => simp at hl
    | cons i is =>
      obtain ⟨b, hb, hz⟩ := hm d i (by simp)
      cases b with
      | true =>
        obtain ⟨σ', h1, h2, h3⟩ := ih is m σ hσ (by simpa using hl) (fun d' i' h' => hm d' i' (by simp [h']))
        refine ⟨σ', ?_, h2, ?_⟩
        · simp only [dropLoop, bind, Except.bind, FMap.atKey_of_find hb, if_true, h1]
        · have key : ∀ d' i', ((d', i') ∈ (d :: ds).zip (i :: is) ∧ m.find? (d', i') = some false) ↔
              ((d', i') ∈ ds.zip is ∧ m.find? (d', i') = some false) := by
            intro d' i'
            simp only [List.zip_cons_cons, List.mem_cons]
            constructor
            · rintro ⟨h | h, h'⟩
              · rw [h, hb] at h'; cases h'
              · exact ⟨h, h'⟩
            · rintro ⟨h, h'⟩; exact ⟨.inr h, h'⟩
          exact ⟨h3.doms, h3.alpha, fun d' i' h => h3.gone d' i' ((key d' i').mp h),
            fun d' i' h => h3.seat d' i' (fun h' => h ((key d' i').mpr h'))⟩
      | false =>
        obtain ⟨z, hz⟩ := hz rfl
        obtain ⟨dom, hd, _⟩ := seatOf_some hz
        obtain ⟨dom', h1, h2, h3⟩ := shrinks_unincorporate hσ hd hz
        obtain ⟨σ', h4, h5, h6⟩ := ih is (m.set (d, i) true) (σ.set d dom') h2 (by simpa using hl) (by
          intro d' i' h'
          rw [FMap.find?_set]
          split
          · exact ⟨true, rfl, fun h => by cases h⟩
          · rename_i hne
            obtain ⟨b', h7, h8⟩ := hm d' i' (by simp [h'])
            refine ⟨b', h7, fun hb' => ?_⟩
            rw [h3.seat d' i' (fun h => hne (by rw [h.1, h.2]))]
            exact h8 hb')
        refine ⟨σ', ?_, h5, ?_⟩
        · simp only [dropLoop, bind, Except.bind, FMap.atKey_of_find hb, Bool.false_eq_true, if_false, Doms.get_eq hd, h1, h4]
        · have key : ∀ d' i', ((d', i') ∈ ds.zip is ∧ (m.set (d, i) true).find? (d', i') = some false) ↔
              (d', i') ≠ (d, i) ∧ (d', i') ∈ ds.zip is ∧ m.find? (d', i') = some false := by
            intro d' i'
            rw [FMap.find?_set]
            by_cases he : (d', i') = (d, i) <;> simp [he]
          refine ⟨fun d' => (h6.doms d').trans (h3.doms d'), ?_, ?_, ?_⟩
          · intro d' dom0 h0
            obtain ⟨dom1, a1, a2, a3⟩ := h3.alpha d' dom0 h0
            obtain ⟨dom2, b1, b2, b3⟩ := h6.alpha d' dom1 a1
            exact ⟨dom2, b1, b2.trans a2, b3.trans a3⟩
          · rintro d' i' ⟨hmem, hf⟩
            simp only [List.zip_cons_cons, List.mem_cons] at hmem
            by_cases he : (d', i') = (d, i)
            · cases he
              rw [h6.seat d i (fun h => ((key d i).mp h).1 rfl)]
              exact h3.gone d i ⟨rfl, rfl⟩
            · exact h6.gone d' i' ((key d' i').mpr ⟨he, hmem.resolve_left he, hf⟩)
          · intro d' i' hng
            simp only [List.zip_cons_cons, List.mem_cons, not_and] at hng
            have he : (d', i') ≠ (d, i) := fun he => hng (.inl he) (by rw [he]; exact hb)
            rw [h6.seat d' i' (fun h => hng (.inr ((key d' i').mp h).2.1) ((key d' i').mp h).2.2),
              h3.seat d' i' (fun h => he (by rw [h.1, h.2]))]

theorem observed_unincorporate {I : IRM F} {name : String} {id : Nat} {r r' : Rel F} {σ' : Doms} (hr : I.rels.find? name = some (id, r))
    (hd : r'.doms = r.doms) {items : Items} (hdata : r'.data = r.data.erase items) {d : String} {i : Int} :
    (Observed { I with doms := σ', rels := I.rels.set name (id, r') } d i → I.Observed d i) ∧
    (I.Observed d i → ¬ Uses r.doms d i items → Observed { I with doms := σ', rels := I.rels.set name (id, r') } d i) := by
  rw [observed_set hd, observed_split hr]
  refine ⟨?_, ?_⟩
  · rintro (h | ⟨k, h1, h2⟩)
    · exact .inl h
    · refine .inr ⟨k, ?_, h2⟩
      rw [hdata] at h1
      simp only [FMap.contains, FMap.find?_erase] at h1
      split at h1
      · cases h1
      · exact h1
  · rintro (h | ⟨k, h1, h2⟩) hu
    · exact .inl h
    · refine .inr ⟨k, ?_, h2⟩
      rw [hdata]
      simp only [FMap.contains, FMap.find?_erase]
      split
      · rename_i hk; subst hk; exact absurd h2 hu
      · exact h1

theorem unincorporate_ok' {I : IRM F} {env : Env V} (h : Inv L ar I) {name : String} {id : Nat} {r : Rel F}
    (hr : I.rels.find? name = some (id, r)) (hb : ∀ p, r.base? = some p → ∃ b', baseOf env r = some b' ∧ ar p = some b'.arity) {items : Items} (hk : r.data.contains items = true) :
    ∃ σ' r', unincorporate env I name items = .ok { I with doms := σ', rels := I.rels.set name (id, r') } ∧
      Inv L ar { I with doms := σ', rels := I.rels.set name (id, r') } ∧ r.SameShape r' ∧ r'.data = r.data.erase items ∧
      r'.pairs = r.pairs.erase items ∧
      Shrinks (fun d i => Uses r.doms d i items ∧ ¬ Observed { I with doms := σ', rels := I.rels.set name (id, r') } d i) I.doms σ' := by
  have hri := h.rels name id r hr
  obtain ⟨r', h1, h2, h3, h4, h4'⟩ := hri.unincorporate_ok h.store (b := baseOf env r) hb hk
  have hi' := h.setRel hr h3 h2
  have hl := hri.length hk
  obtain ⟨spec, hspec, hsd⟩ : ∃ spec, I.schema.find? name = some spec ∧ r.doms = spec.doms := by
    rcases h.schema name with ⟨_, hh⟩ | ⟨spec, id', q, a1, a2, a3⟩
    · rw [hr] at hh; cases hh
    · rw [hr] at a2; cases a2; exact ⟨spec, a1, a3.doms⟩
  have hl' : items.length = spec.doms.length := by rw [← hsd]; exact hl
  obtain ⟨m1, h5, h6⟩ := flagInit_spec spec.doms items ∅ hl'
  obtain ⟨m2, h7, h8, h9⟩ := flagLoop_spec hi' spec.doms items m1 hl' (fun d hd => hri.doms d (by rw [hsd]; exact hd)) (by
    intro d i hm
    exact ⟨false, by rw [h6, if_pos hm], fun h => by cases h⟩)
  obtain ⟨σ', h10, h11, h12⟩ := dropLoop_spec spec.doms items m2 I.doms h.store hl' (by
    intro d i hm
    obtain ⟨b, hb, _⟩ := h9 d i hm
    exact ⟨b, hb, fun _ => hri.seat_of_uses hk (by rw [hsd]; exact hm)⟩)
  have hob : ∀ d i, Observed { I with doms := σ', rels := I.rels.set name (id, r') } d i ↔
      Observed { I with rels := I.rels.set name (id, r') } d i := fun d i => Iff.rfl
  have hsh : Shrinks (fun d i => Uses r.doms d i items ∧ ¬ Observed { I with doms := σ', rels := I.rels.set name (id, r') } d i)
      I.doms σ' := by
    have : (fun d i => (d, i) ∈ spec.doms.zip items ∧ m2.find? (d, i) = some false) =
        (fun d i => Uses r.doms d i items ∧ ¬ Observed { I with doms := σ', rels := I.rels.set name (id, r') } d i) := by
      funext d i
      apply propext
      rw [Uses, hsd]
      refine and_congr_right fun hm => ?_
      obtain ⟨b, hb, hb'⟩ := h9 d i hm
      rw [hb, hob, ← hb']
      cases b <;> simp
    rw [← this]
    exact h12
  refine ⟨σ', r', ?_, ?_, h3, h4, h4', hsh⟩
  · simp only [unincorporate, bind, Except.bind, FMap.atKey_of_find hr, h1, FMap.atKey_of_find hspec, h5, h7, h10]
  · have := hi'.setStore (σ' := σ') h11 ?_ hsh.doms ?_
    · exact this
    · intro d dom hd
      obtain ⟨dom0, hd0⟩ := FMap.contains_iff.mp ((hsh.doms d).symm.trans (FMap.contains_iff.mpr ⟨dom, hd⟩))
      obtain ⟨dom', h8, h9, _⟩ := hsh.alpha d dom0 hd0
      rw [hd] at h8
      cases h8
      rw [h9]
      exact h.alpha d dom0 hd0
    · intro d i ho
      exact hsh.seat d i (fun hh => hh.2 ho)

theorem unincorporate_ok {I : IRM F} {env : Env V} (h : Inv L (arOf env) I) {name : String} {id : Nat} {r : Rel F}
    (hr : I.rels.find? name = some (id, r)) {items : Items} (hk : r.data.contains items = true) :
    ∃ σ' r', unincorporate env I name items = .ok { I with doms := σ', rels := I.rels.set name (id, r') } ∧
      Inv L (arOf env) { I with doms := σ', rels := I.rels.set name (id, r') } ∧ r.SameShape r' ∧ r'.data = r.data.erase items ∧
      r'.pairs = r.pairs.erase items ∧
      Shrinks (fun d i => Uses r.doms d i items ∧ ¬ Observed { I with doms := σ', rels := I.rels.set name (id, r') } d i) I.doms σ' := by
  refine unincorporate_ok' h hr ?_ hk
  have hri := h.rels name id r hr
  intro p hp
  cases r with
  | clean c r => cases hp
  | noisy e q r =>
    cases hp
    obtain ⟨_, n, hn, _⟩ := hri
    unfold arOf at hn
    cases he : env p with
    | none => rw [he] at hn; cases hn
    | some b => exact ⟨b, by simp [baseOf, Rel.base?, he], by simp [arOf, he]⟩

theorem unincorporate_pre {I I' : IRM F} {env : Env V} {name : String} {items : Items}
    (hc : unincorporate env I name items = .ok I') :
    ∃ id r, I.rels.find? name = some (id, r) ∧ r.data.contains items = true := by
  obtain ⟨⟨id, r⟩, h1, h2⟩ := bind_ok.mp hc
  obtain ⟨y, h3, _⟩ := bind_ok.mp h2
  exact ⟨id, r, FMap.atKey_ok.mp h1, (Rel.unincorporate_pre h3).1⟩

/-! ### entity moves -/

theorem SameData.contains {I I' : IRM F} (h : SameData I I') (d : String) : I'.doms.contains d = I.doms.contains d := by
  simp only [FMap.contains]
  rcases h.doms d with ⟨h1, h2⟩ | ⟨dom, dom', h1, h2, _⟩
  · rw [h1, h2]
  · rw [h1, h2]; rfl

/-- the invariant after a step that keeps the data -/
theorem Inv.ofSameData {I I' : IRM F} (h : Inv L ar I) (hs : SameData I I') (hσ : StoreWF I'.doms)
    (ha : ∀ d dom, I'.doms.find? d = some dom → 0 < dom.crp.alpha)
    (hr : ∀ name id r, I'.rels.find? name = some (id, r) → r.Inv L ar I'.doms) : Inv L ar I' where
  store := hσ
  alpha := ha
  names d := by rw [hs.domToRels, h.names d, hs.contains]
  index d s hds n := by
    rw [hs.domToRels] at hds
    rw [h.index d s hds n]
    rcases hs.rels n with ⟨h1, h2⟩ | ⟨id, r, r', h1, h2, h3⟩
    · simp [h1, h2]
    · constructor
      · rintro ⟨_, _, h4, h5⟩
        rw [h1] at h4; cases h4
        exact ⟨id, r', h2, by rw [h3.doms]; exact h5⟩
      · rintro ⟨_, _, h4, h5⟩
        rw [h2] at h4; cases h4
        exact ⟨id, r, h1, by rw [← h3.doms]; exact h5⟩
  used d s hds := by rw [hs.domToRels] at hds; exact h.used d s hds
  schema n := by
    rw [hs.schema]
    rcases h.schema n with ⟨h1, h2⟩ | ⟨spec, id, r, h1, h2, h3⟩
    · rcases hs.rels n with ⟨h4, h5⟩ | ⟨_, _, _, h4, _⟩
      · exact .inl ⟨h1, h5⟩
      · rw [h2] at h4; cases h4
    · rcases hs.rels n with ⟨h4, h5⟩ | ⟨id', r0, r', h4, h5, h6⟩
      · rw [h2] at h4; cases h4
      · rw [h2] at h4; cases h4
        exact .inr ⟨spec, id, r', h1, h5, h3.shape h6.shape⟩
  rels := hr

/-- the scores of all relations are determined by their data -/
def ScoreLaw (L : FamilyLaws F) (I : IRM F) : Prop := ∀ n id r, I.rels.find? n = some (id, r) → L.Scored r.kind

theorem Inv.scored {I : IRM F} (h : Inv L ar I) (hS : L.Scores I.schema) : I.ScoreLaw L := by
  intro n id r hr
  rcases h.schema n with ⟨_, h2⟩ | ⟨spec, id', r', h1, h2, h3⟩
  · rw [hr] at h2; cases h2
  · rw [hr] at h2; cases h2
    rw [h3.kind]; exact hS n spec h1

theorem SameData.scored {I I' : IRM F} (h : SameData I I') (hS : I.ScoreLaw L) : I'.ScoreLaw L := by
  intro n id r hr
  rcases h.rels n with ⟨_, h2⟩ | ⟨id', q, q', h1, h2, h3⟩
  · rw [hr] at h2; cases h2
  · rw [hr] at h2; cases h2
    rw [h3.kind]; exact hS n id q h1

theorem scoreItem_keeps {d : String} {item : Int} {tables : List Int} : ∀ (l : List String) (I : IRM F) (logps : List ℝ) (t : Tape),
    Inv L ar I → logps.length = tables.length → ∀ {lps I' t'}, scoreItem d item tables l I logps t = .ok (lps, I', t') →
    lps.length = tables.length ∧ ∃ rels', I' = { I with rels := rels' } ∧ Inv L ar { I with rels := rels' } ∧ SameData I { I with rels := rels' } := by
  intro l
  induction l with
  | nil => intro I logps t h hl lps I' t' hc; cases hc; exact ⟨hl, I.rels, rfl, h, .refl I⟩
  | cons n l ih =>
    intro I logps t h hl lps I' t' hc
    rw [scoreItem] at hc
    obtain ⟨⟨id, rel⟩, h1, hc⟩ := bind_ok.mp hc
    obtain ⟨b, h2, hc⟩ := bind_ok.mp hc
    rw [FMap.atKey_ok] at h1
    cases b with
    | false => exact ih I logps t h hl hc
    | true =>
      obtain ⟨⟨x, rel', t1⟩, h3, hc⟩ := bind_ok.mp hc
      obtain ⟨_, _, hc⟩ := bind_ok.mp hc
      obtain ⟨_, h4, hc⟩ := bind_ok.mp hc
      obtain ⟨h5, h6, h7⟩ := (h.rels n id rel h1).gibbsScores_keeps h.store h3
      obtain ⟨h9, rels', rfl, h10, h11⟩ := ih { I with rels := I.rels.set n (id, rel') } (List.zipWith (· + ·) logps x) t1
        (h.setRel h1 h7.shape h6) (by simp [hl, h5]) hc
      exact ⟨h9, rels', rfl, h10, (SameData.setRel h1 h7).trans h11⟩

theorem scoreItem_spec {d : String} {item : Int} {tables : List Int} : ∀ (l : List String) (I : IRM F) (logps : List ℝ) (t : Tape),
    Inv L ar I → I.ScoreLaw L → logps.length = tables.length →
    (∀ n ∈ l, ∃ id rel, I.rels.find? n = some (id, rel) ∧ d ∈ rel.doms) →
    ∃ lps rels' t', scoreItem d item tables l I logps t = .ok (lps, { I with rels := rels' }, t') ∧ lps.length = tables.length ∧
      Inv L ar { I with rels := rels' } ∧ SameData I { I with rels := rels' } := by
  intro l
  induction l with
  | nil => exact fun I logps t h _ hl _ => ⟨logps, I.rels, t, rfl, hl, h, .refl I⟩
  | cons n l ih =>
    intro I logps t h hS hl hn
    obtain ⟨id, rel, h1, h2⟩ := hn n (by simp)
    have hri := h.rels n id rel h1
    obtain ⟨b, h3, _⟩ := hri.hasObservation h2 item
    cases b with
    | false =>
      obtain ⟨lps, rels', t', h4, h5⟩ := ih I logps t h hS hl (fun m hm => hn m (by simp [hm]))
      refine ⟨lps, rels', t', ?_, h5⟩
      simp only [scoreItem, bind, Except.bind, FMap.atKey_of_find h1, h3, Bool.false_eq_true, if_false, h4]
    | true =>
      obtain ⟨x, rel', t1, h4, h5, h6, h7⟩ := hri.gibbsScores h.store (hS n id rel h1) h2 h3 tables t
      obtain ⟨lps, rels', t', h8, h9, h10, h11⟩ := ih { I with rels := I.rels.set n (id, rel') } (List.zipWith (· + ·) logps x) t1
        (h.setRel h1 h7.shape h6) ((SameData.setRel h1 h7).scored hS) (by simp [hl, h5]) (by
          intro m hm
          dsimp only
          rw [FMap.find?_set]
          split
          · rename_i hmn; subst hmn; exact ⟨id, rel', rfl, by rw [h7.doms]; exact h2⟩
          · exact hn m (by simp [hm]))
      refine ⟨lps, rels', t', ?_, h9, h10, (SameData.setRel h1 h7).trans h11⟩
      simp only [scoreItem, bind, Except.bind, FMap.atKey_of_find h1, h3, if_true, h4, h5, hl, assertR, decide_true, h8]

theorem moveRels_spec {d : String} {dom : Domain} {item table cur : Int} {σ' : Doms} : ∀ (l : List String) (I : IRM F) (t : Tape),
    l.Nodup → StoreWF I.doms → I.doms.find? d = some dom → dom.crp.assignments.find? item = some cur → table ≠ cur →
    (∀ d' i, seatOf σ' d' i = if d' = d ∧ i = item then some table else seatOf I.doms d' i) →
    (∀ d, σ'.contains d = I.doms.contains d) →
    (∀ n ∈ l, ∃ id rel, I.rels.find? n = some (id, rel) ∧ d ∈ rel.doms ∧ rel.Inv L ar I.doms) →
    ∃ rels' t', moveRels d item table l I t = .ok ({ I with rels := rels' }, t') ∧
      (∀ n, n ∉ l → rels'.find? n = I.rels.find? n) ∧
      ∀ n ∈ l, ∃ id r r', I.rels.find? n = some (id, r) ∧ rels'.find? n = some (id, r') ∧ r.SameData r' ∧ r'.Inv L ar σ' := by
  intro l
  induction l with
  | nil => exact fun I t _ _ _ _ _ _ _ _ => ⟨I.rels, t, rfl, fun _ _ => rfl, fun n hn => by simp at hn⟩
  | cons n l ih =>
    intro I t hnd hσ hdom hcur hne hs hc hn
    obtain ⟨hnl, hnd⟩ := List.nodup_cons.mp hnd
    obtain ⟨id, rel, h1, h2, hri⟩ := hn n (by simp)
    obtain ⟨b, h3, h3'⟩ := hri.hasObservation h2 item
    cases b with
    | false =>
      obtain ⟨rels', t', h4, h5, h6⟩ := ih I t hnd hσ hdom hcur hne hs hc (fun m hm => hn m (by simp [hm]))
      refine ⟨rels', t', ?_, ?_, ?_⟩
      · simp only [moveRels, bind, Except.bind, FMap.atKey_of_find h1, h3, Bool.false_eq_true, if_false, h4]
      · intro m hm
        exact h5 m (fun h => hm (by simp [h]))
      · intro m hm
        rcases List.mem_cons.mp hm with rfl | hm
        · refine ⟨id, rel, rel, h1, by rw [h5 m hnl]; exact h1, .refl _, ?_⟩
          refine hri.reseat (fun d' hd' => by rw [hc]; exact hri.doms d' hd') ?_
          intro k hk d' i hu
          rw [hs]
          split
          · rename_i he
            exfalso
            obtain ⟨rfl, rfl⟩ := he
            have := h3'.mpr ⟨k, hk, hu⟩
            cases this
          · rfl
        · exact h6 m hm
    | true =>
      obtain ⟨rel', t1, h4, h5, h6⟩ := hri.setGibbs hσ h2 hdom hcur hne h3 hs hc t
      obtain ⟨rels', t', h7, h8, h9⟩ := ih { I with rels := I.rels.set n (id, rel') } t1 hnd hσ hdom hcur hne hs hc (by
        intro m hm
        have hmn : m ≠ n := fun h => hnl (h ▸ hm)
        dsimp only
        rw [FMap.find?_set_ne _ hmn]
        exact hn m (by simp [hm]))
      refine ⟨rels', t', ?_, ?_, ?_⟩
      · simp only [moveRels, bind, Except.bind, FMap.atKey_of_find h1, h3, if_true, h4, h7]
      · intro m hm
        simp only [List.mem_cons, not_or] at hm
        rw [h8 m hm.2]
        exact FMap.find?_set_ne _ hm.1 _
      · intro m hm
        rcases List.mem_cons.mp hm with rfl | hm
        · refine ⟨id, rel, rel', h1, ?_, h6, h5⟩
          rw [h8 m hnl]
          exact FMap.find?_set_self ..
        · have hmn : m ≠ n := fun h => hnl (h ▸ hm)
          obtain ⟨id', r, r', h10, h11⟩ := h9 m hm
          dsimp only at h10
          rw [FMap.find?_set_ne _ hmn] at h10
          exact ⟨id', r, r', h10, h11⟩

/-- where the tables of an IRM's domains seat an item, once one of them has moved -/
def Reseats (d : String) (item z : Int) (I I' : IRM F) : Prop :=
  ∀ d' i, seatOf I'.doms d' i = if d' = d ∧ i = item then some z else seatOf I.doms d' i

theorem moveItem_ok {I : IRM F} (h : Inv L ar I) {d : String} {dom : Domain} (hdom : I.doms.find? d = some dom)
    {item cur : Int} (hcur : dom.crp.assignments.find? item = some cur) {s : FSet String} (hs : I.domToRels.find? d = some s)
    {order : List String} (hperm : order.Perm s.keys) (z : Int) (t : Tape) :
    ∃ I' t', moveItem d item z order I t = .ok (I', t') ∧ Inv L ar I' ∧ SameData I I' ∧ Reseats d item z I I' ∧
      (z = cur → I' = I) ∧
      (z ≠ cur → ∃ rels2 dom', moveRels d item z order I t = .ok ({ I with rels := rels2 }, t') ∧
        dom.setClusterAssignmentGibbs item z = .ok dom' ∧ I' = { I with rels := rels2, doms := I.doms.set d dom' }) := by
  have hw := h.store d dom hdom
  by_cases hzc : z = cur
  · subst hzc
    refine ⟨I, t, ?_, h, .refl I, ?_, fun _ => rfl, fun hne => absurd rfl hne⟩
    · simp only [moveItem, bind, Except.bind,
        FMap.atKey_of_find hdom, Domain.getClusterAssignment_eq hw hcur, ne_eq, not_true_eq_false, if_false]
    · intro d' i
      split
      · rename_i he; obtain ⟨rfl, rfl⟩ := he; rw [← hcur]; exact seatOf_eq hdom _
      · rfl
  · obtain ⟨dom', h5, h6, h7, h8, h9, h10⟩ := CleanRel.exists_moved h.store hdom hcur hzc
    obtain ⟨rels2, t2, h11, h12, h13⟩ := moveRels_spec (L := L) (ar := ar) order I
      t (hperm.nodup_iff.mpr (FMap.nodupKeys s)) h.store hdom hcur hzc h7 h8 (by
        intro n hn
        obtain ⟨id, rel, a1, a2⟩ := (h.index d s hs n).mp (hperm.mem_iff.mp hn)
        exact ⟨id, rel, a1, a2, h.rels n id rel a1⟩)
    have hsd : SameData I { I with rels := rels2, doms := I.doms.set d dom' } := by
      refine ⟨rfl, rfl, rfl, ?_, ?_⟩
      · intro n
        by_cases hn : n ∈ order
        · obtain ⟨id, r, r', a1, a2, a3, _⟩ := h13 n hn
          exact .inr ⟨id, r, r', a1, a2, a3⟩
        · cases hf : I.rels.find? n with
          | none => exact .inl ⟨rfl, by rw [← hf]; exact h12 n hn⟩
          | some x => exact .inr ⟨x.1, x.2, x.2, rfl, by rw [show (x.1, x.2) = x from rfl, ← hf]; exact h12 n hn, .refl _⟩
      · intro d'
        dsimp only
        rw [FMap.find?_set]
        split
        · rename_i he
          subst he
          obtain ⟨d2, b1, _, _, b3, _⟩ := Domain.setGibbs_eq hw hcur (Ne.symm hzc)
          rw [h5] at b1
          cases b1
          exact .inr ⟨dom, dom', hdom, rfl, h10, b3⟩
        · exact (SameData.refl I).doms d'
    refine ⟨{ I with rels := rels2, doms := I.doms.set d dom' }, t2, ?_, ?_, hsd, h7, fun he => absurd he hzc,
      fun _ => ⟨rels2, dom', h11, h5, rfl⟩⟩
    · simp only [moveItem, bind, Except.bind,
        FMap.atKey_of_find hdom, Domain.getClusterAssignment_eq hw hcur, ne_eq, hzc, not_false_eq_true, if_true, h11, h5]
    · refine h.ofSameData hsd h6 ?_ ?_
      · intro d' dom2 hd2
        dsimp only at hd2
        rw [FMap.find?_set] at hd2
        split at hd2
        · cases hd2; rw [h9]; exact h.alpha d dom hdom
        · exact h.alpha d' dom2 hd2
      · intro n id r hr
        by_cases hn : n ∈ order
        · obtain ⟨id', r0, r', a1, a2, a3, a4⟩ := h13 n hn
          rw [show rels2.find? n = some (id, r) from hr] at a2
          cases a2
          exact a4
        · have hr1 : I.rels.find? n = some (id, r) := by rw [← h12 n hn]; exact hr
          have hri := h.rels n id r hr1
          refine hri.reseat (fun d' hd' => by rw [h8]; exact hri.doms d' hd') ?_
          intro k hk d' i hu
          rw [h7]
          split
          · rename_i he
            exfalso
            obtain ⟨rfl, rfl⟩ := he
            exact hn (hperm.mem_iff.mpr ((h.index d' s hs n).mpr ⟨id, r, hr1, (List.of_mem_zip hu).1⟩))
          · rfl

theorem transitionItem_pre {I : IRM F} {d : String} {item : Int} {t : Tape} {x : IRM F × Tape}
    (hc : transitionItem I d item t = .ok x) :
    ∃ dom cur, I.doms.find? d = some dom ∧ dom.crp.assignments.find? item = some cur := by
  obtain ⟨_, h1, _⟩ := bind_ok.mp hc
  obtain ⟨dom, h2, h3⟩ := bind_ok.mp h1
  obtain ⟨w, h4, _⟩ := bind_ok.mp h3
  obtain ⟨cur, h5, _⟩ := bind_ok.mp h4
  exact ⟨dom, cur, FMap.atKey_ok.mp h2, Domain.getClusterAssignment_ok h5⟩

theorem transitionItem_inv {I I' : IRM F} (h : Inv L ar I) {d : String} {item : Int} {t t' : Tape} (hc : transitionItem I d item t = .ok (I', t')) :
    Inv L ar I' ∧ SameData I I' ∧ ∃ dom cur z w, I.doms.find? d = some dom ∧ dom.crp.assignments.find? item = some cur ∧
      dom.crp.tablesWeightsGibbs cur = .ok w ∧ z ∈ w.keys ∧ Reseats d item z I I' := by
  obtain ⟨dom, cur, hdom, hcur⟩ := transitionItem_pre hc
  have hw := h.store d dom hdom
  obtain ⟨w, hw1, _⟩ := CRP.tablesWeightsGibbs_spec hw.crp hcur
  have hw3 : dom.tablesWeightsGibbs item = .ok w := by
    simp only [Domain.tablesWeightsGibbs, bind, Except.bind, Domain.getClusterAssignment_eq hw hcur, hw1]
  obtain ⟨s, hs⟩ := FMap.contains_iff.mp ((h.names d).trans (FMap.contains_iff.mpr ⟨dom, hdom⟩))
  have hperm := shuffle_perm s.keys t
  obtain ⟨⟨tables, lps, order, I1, t1⟩, h1, hc⟩ := bind_ok.mp hc
  simp only [itemScores, bind, Except.bind, FMap.atKey_of_find hdom, hw3, FMap.atKey_of_find hs] at h1
  split at h1
  · cases h1
  rename_i y h2
  obtain ⟨l, I2, t2⟩ := y
  cases h1
  obtain ⟨h3, rels', rfl, h4, h5⟩ := scoreItem_keeps (shuffle s.keys t).1 I _ _ h (by simp [FMap.vals, FMap.keys]) h2
  obtain ⟨_, h6, hc⟩ := bind_ok.mp hc
  obtain ⟨z, h7, hc⟩ := bind_ok.mp hc
  obtain ⟨I3, t3, h8, h9, h10, h11, _⟩ := moveItem_ok h4 hdom hcur hs hperm z (draw w.keys.length t2).2
  replace h8 := hc.symm.trans h8
  cases h8
  refine ⟨h9, h5.trans h10, dom, cur, z, w, hdom, hcur, hw1, ?_, h11⟩
  unfold idxR at h7
  split at h7
  · rename_i hz; cases h7; exact List.mem_of_getElem? hz
  · cases h7

theorem transitionItem_ok {I : IRM F} (h : Inv L ar I) (hS : I.ScoreLaw L) {d : String} {dom : Domain} (hdom : I.doms.find? d = some dom)
    {item cur : Int} (hcur : dom.crp.assignments.find? item = some cur) (t : Tape) :
    ∃ I' t' z w, transitionItem I d item t = .ok (I', t') ∧ dom.crp.tablesWeightsGibbs cur = .ok w ∧ z ∈ w.keys ∧
      Inv L ar I' ∧ SameData I I' ∧ Reseats d item z I I' := by
  have hw := h.store d dom hdom
  obtain ⟨w, hw1, new, _, _, hw2, _⟩ := CRP.tablesWeightsGibbs_spec hw.crp hcur
  have hw3 : dom.tablesWeightsGibbs item = .ok w := by
    simp only [Domain.tablesWeightsGibbs, bind, Except.bind, Domain.getClusterAssignment_eq hw hcur, hw1]
  obtain ⟨s, hs⟩ := FMap.contains_iff.mp ((h.names d).trans (FMap.contains_iff.mpr ⟨dom, hdom⟩))
  have hperm := shuffle_perm s.keys t
  have hl : ∀ n ∈ (shuffle s.keys t).1, ∃ id rel, I.rels.find? n = some (id, rel) ∧ d ∈ rel.doms := fun n hn =>
    (h.index d s hs n).mp (hperm.mem_iff.mp hn)
  obtain ⟨lps, rels1, t1, h1, h2, h3, h4⟩ := scoreItem_spec (item := item) (tables := w.keys) (shuffle s.keys t).1 I
    (w.vals.map Real.log) (shuffle s.keys t).2 h hS (by simp [FMap.vals, FMap.keys]) hl
  have hscores : itemScores I d item t = .ok (w.keys, lps, (shuffle s.keys t).1, { I with rels := rels1 }, t1) := by
    simp only [itemScores, bind, Except.bind, FMap.atKey_of_find hdom, hw3, FMap.atKey_of_find hs, h1]
  have hne : 0 < w.keys.length := by
    have : new ∈ w.keys := FMap.mem_keys.mpr ⟨_, by rw [hw2, if_pos rfl]⟩
    exact List.length_pos_of_mem this
  have hk := draw_lt hne t1
  obtain ⟨z, hz⟩ : ∃ z, w.keys[(draw w.keys.length t1).1]? = some z := ⟨_, List.getElem?_eq_getElem hk⟩
  have hzm : z ∈ w.keys := List.mem_of_getElem? hz
  obtain ⟨I', t', h5, h6, h7, h8, _⟩ := moveItem_ok h3 hdom hcur hs hperm z (draw w.keys.length t1).2
  refine ⟨I', t', z, w, ?_, hw1, hzm, h6, h4.trans h7, h8⟩
  simp only [transitionItem, bind, Except.bind, hscores, h2, assertR, decide_true, if_true, idxR, hz, h5]

end IRM
end
end Verif
