import Verif.Spec.Relation
import Verif.Lemmas.Dist
import Verif.Lemmas.Domain
/-! Helper lemmas about the clusters of a relation. -/
namespace Verif
noncomputable section
variable {V : Type} {D : DistOps V} {supp : V → Prop}

/-! ### histories of distributions -/

theorem remaining_append (h1 h2 : List (DataOp V)) (m : Multiset V) :
    remaining supp (h1 ++ h2) m = (remaining supp h1 m).bind (remaining supp h2) := by
  induction h1 generalizing m with
  | nil => rfl
  | cons o h1 ih =>
    cases o <;> simp only [List.cons_append, remaining, ih]
    all_goals split <;> rfl

theorem DistOps.run_append (h1 h2 : List (DataOp V)) (s : D.S) :
    D.run s (h1 ++ h2) = (D.run s h1).bind (fun s => D.run s h2) := by
  induction h1 generalizing s with
  | nil => rfl
  | cons o h1 ih =>
    cases o with
    | inc x => simp only [List.cons_append, DistOps.run, ih]; cases D.inc s x <;> rfl
    | dec x => simp only [List.cons_append, DistOps.run, ih]; cases D.dec s x <;> rfl
    | eval x => simp only [List.cons_append, DistOps.run, ih]; cases D.logp s x <;> rfl
    | trans t => simp only [List.cons_append, DistOps.run, ih]
    | theta t => simp only [List.cons_append, DistOps.run, ih]

theorem DistOps.Holds.step {m m' : Multiset V} {s s' : D.S} (o : DataOp V) (h : D.Holds supp m s)
    (hr : remaining supp [o] m = some m') (hs : D.run s [o] = .ok s') : D.Holds supp m' s' := by
  obtain ⟨t, ops, h1, h2⟩ := h
  refine ⟨t, ops ++ [o], ?_, ?_⟩
  · rw [remaining_append, h1]; exact hr
  · rw [DistOps.run_append, h2]; exact hs

theorem holds_fresh (t : Tape) : D.Holds supp 0 (D.fresh t).1 := ⟨t, [], rfl, rfl⟩

theorem Lawful.holds_inc (L : Lawful D supp) {m s x} (h : D.Holds supp m s) (hx : supp x) :
    ∃ s', D.inc s x = .ok s' ∧ D.Holds supp (x ::ₘ m) s' := by
  obtain ⟨hh, hr⟩ := L.holds h
  obtain ⟨s', h1, _⟩ := L.inc hr hx
  exact ⟨s', h1, h.step (.inc x) (by simp [remaining, hx]) (by simp [DistOps.run, h1, Except.bind])⟩

theorem Lawful.holds_dec (L : Lawful D supp) {m s x} (h : D.Holds supp (x ::ₘ m) s) :
    ∃ s', D.dec s x = .ok s' ∧ D.Holds supp m s' := by
  classical
  obtain ⟨hh, hr⟩ := L.holds h
  obtain ⟨s', h1, _⟩ := L.dec hr
  exact ⟨s', h1, h.step (.dec x) (by simp [remaining]) (by simp [DistOps.run, h1, Except.bind])⟩

theorem Lawful.holds_logp (L : Lawful D supp) {m s x} (h : D.Holds supp m s) (hx : supp x) :
    ∃ v s', D.logp s x = .ok (v, s') ∧ D.Holds supp m s' := by
  obtain ⟨hh, hr⟩ := L.holds h
  obtain ⟨v, s', h1, _⟩ := L.logp hr hx
  exact ⟨v, s', h1, h.step (.eval x) (by simp [remaining, hx]) (by simp [DistOps.run, h1, Except.bind])⟩

theorem holds_trans {m s} (h : D.Holds supp m s) (t : Tape) : D.Holds supp m (D.trans s t).1 :=
  h.step (.trans t) (by simp [remaining]) (by simp [DistOps.run])

theorem holds_theta {m s} (h : D.Holds supp m s) (t : Tape) : D.Holds supp m (D.theta s t).1 :=
  h.step (.theta t) (by simp [remaining]) (by simp [DistOps.run])

theorem Lawful.holds_N (L : Lawful D supp) {m s} (h : D.Holds supp m s) : D.N s = Multiset.card m := by
  obtain ⟨hh, hr⟩ := L.holds h
  exact L.count hr

theorem Lawful.holds_supp (L : Lawful D supp) {m s x} (h : D.Holds supp m s) (hx : x ∈ m) : supp x := by
  obtain ⟨hh, hr⟩ := L.holds h
  exact L.supported hr hx

theorem Lawful.N_eq_zero (L : Lawful D supp) {m s} (h : D.Holds supp m s) : D.N s = 0 ↔ m = 0 := by
  rw [L.holds_N h]
  simp

/-! ### contents -/

theorem contents_set_new {place : Items → Option Items} {data : FMap Items V} {k : Items} (h : data.find? k = none)
    (v : V) (z : Items) :
    contents place (data.set k v) z = if place k = some z then v ::ₘ contents place data z else contents place data z := by
  have := FMap.perm_set data k v
  rw [FMap.erase_of_not_mem h] at this
  unfold contents
  rw [Multiset.coe_eq_coe.mpr this, ← Multiset.cons_coe]
  by_cases hp : place k = some z
  · rw [Multiset.filter_cons_of_pos (p := fun e : Items × V => place e.1 = some z) _ hp, Multiset.map_cons, if_pos hp]
  · rw [Multiset.filter_cons_of_neg (p := fun e : Items × V => place e.1 = some z) _ hp, if_neg hp]

theorem contents_erase {place : Items → Option Items} {data : FMap Items V} {k : Items} {v : V} (h : data.find? k = some v)
    (z : Items) :
    contents place data z =
      if place k = some z then v ::ₘ contents place (data.erase k) z else contents place (data.erase k) z := by
  rw [← contents_set_new (FMap.find?_erase_self data k) v z, FMap.set_erase, FMap.set_of_find h]

theorem contents_congr {place place' : Items → Option Items} {data : FMap Items V}
    (h : ∀ k v, data.find? k = some v → place k = place' k) (z : Items) :
    contents place data z = contents place' data z := by
  unfold contents
  congr 1
  apply Multiset.filter_congr
  intro e he
  rw [h e.1 e.2 (FMap.mem_entries.mp he)]

theorem mem_contents {place : Items → Option Items} {data : FMap Items V} {z : Items} {v : V} :
    v ∈ contents place data z ↔ ∃ k, data.find? k = some v ∧ place k = some z := by
  unfold contents
  simp only [Multiset.mem_map, Multiset.mem_filter, Multiset.mem_coe]
  constructor
  · rintro ⟨⟨k, v⟩, ⟨h1, h2⟩, rfl⟩; exact ⟨k, FMap.mem_entries.mp h1, h2⟩
  · rintro ⟨k, h1, h2⟩; exact ⟨(k, v), ⟨FMap.mem_entries.mpr h1, h2⟩, rfl⟩

theorem contents_ne_zero {place : Items → Option Items} {data : FMap Items V} {z : Items} :
    contents place data z ≠ 0 ↔ ∃ k v, data.find? k = some v ∧ place k = some z := by
  constructor
  · intro h
    obtain ⟨v, hv⟩ := Multiset.exists_mem_of_ne_zero h
    obtain ⟨k, h1, h2⟩ := mem_contents.mp hv
    exact ⟨k, v, h1, h2⟩
  · rintro ⟨k, v, h1, h2⟩ h0
    have := mem_contents.mpr ⟨k, h1, h2⟩
    rw [h0] at this; simp at this

/-- there is a cluster exactly where there is data, and it holds that data -/
def ClInv (D : DistOps V) (supp : V → Prop) (place : Items → Option Items) (data : FMap Items V) (cl : FMap Items D.S) : Prop :=
  ∀ z, (cl.find? z = none → contents place data z = 0) ∧
    ∀ c, cl.find? z = some c → contents place data z ≠ 0 ∧ D.Holds supp (contents place data z) c

namespace ClInv
variable {place place' : Items → Option Items} {data : FMap Items V} {cl : FMap Items D.S}

theorem congr (h : ClInv D supp place data cl) (hp : ∀ k v, data.find? k = some v → place k = place' k) :
    ClInv D supp place' data cl := by
  intro z
  rw [← contents_congr hp z]
  exact h z

theorem empty : ClInv D supp place ∅ ∅ := by
  intro z
  exact ⟨fun _ => rfl, fun c h => by simp at h⟩

theorem find (h : ClInv D supp place data cl) {k z : Items} {v : V} (hk : data.find? k = some v) (hp : place k = some z) :
    ∃ c, cl.find? z = some c ∧ D.Holds supp (contents place data z) c := by
  cases hc : cl.find? z with
  | none => exact absurd ((h z).1 hc) (contents_ne_zero.mpr ⟨k, v, hk, hp⟩)
  | some c => exact ⟨c, rfl, ((h z).2 c hc).2⟩

/-- taking out one observation -/
theorem takeOut (L : Lawful D supp) (h : ClInv D supp place data cl) {k z : Items} {v : V} (hk : data.find? k = some v)
    (hp : place k = some z) :
    ∃ cl', CleanRel.takeOut cl z v = .ok cl' ∧ ClInv D supp place (data.erase k) cl' := by
  obtain ⟨c, hc, hh⟩ := h.find hk hp
  rw [contents_erase hk, if_pos hp] at hh
  obtain ⟨c', h1, h2⟩ := L.holds_dec hh
  refine ⟨if D.N c' = 0 then cl.erase z else cl.set z c', ?_, ?_⟩
  · simp only [CleanRel.takeOut, bind, Except.bind, FMap.atKey_of_find hc, h1]
  · intro z'
    by_cases hz : z' = z
    · subst hz
      by_cases h0 : D.N c' = 0
      · simp only [h0, if_true, FMap.find?_erase_self]
        exact ⟨fun _ => (L.N_eq_zero h2).mp h0, nofun⟩
      · simp only [h0, if_false, FMap.find?_set_self]
        refine ⟨nofun, fun c hc => ?_⟩
        cases hc
        exact ⟨fun h' => h0 ((L.N_eq_zero h2).mpr h'), h2⟩
    · have e1 : contents place (data.erase k) z' = contents place data z' := by
        rw [contents_erase hk z', if_neg]
        rw [hp]; intro h'; cases h'; exact hz rfl
      have e2 : (if D.N c' = 0 then cl.erase z else cl.set z c').find? z' = cl.find? z' := by
        split
        · exact FMap.find?_erase_ne _ hz
        · exact FMap.find?_set_ne _ hz _
      rw [e1, e2]
      exact h z'

/-- putting in one observation -/
theorem putIn (L : Lawful D supp) (h : ClInv D supp place data cl) {k z : Items} {v : V} (hk : data.find? k = none)
    (hp : place k = some z) (hv : supp v) (t : Tape) :
    ∃ cl' t', CleanRel.putIn cl z v t = .ok (cl', t') ∧ ClInv D supp place (data.set k v) cl' ∧
      ∃ c0 c1, (cl.find? z = some c0 ∨ (cl.find? z = none ∧ c0 = (D.fresh t).1)) ∧ D.inc c0 v = .ok c1 ∧ cl' = cl.set z c1 := by
  have key : ∀ c', D.Holds supp (v ::ₘ contents place data z) c' → ClInv D supp place (data.set k v) (cl.set z c') := by
    intro c' hc' z'
    rw [contents_set_new hk]
    by_cases hz : z' = z
    · subst hz
      rw [if_pos hp, FMap.find?_set_self]
      exact ⟨nofun, fun c hc => by cases hc; exact ⟨by simp, hc'⟩⟩
    · rw [if_neg, FMap.find?_set_ne _ hz]
      · exact h z'
      · rw [hp]; intro h'; cases h'; exact hz rfl
  cases hc : cl.find? z with
  | none =>
    have h0 := (h z).1 hc
    obtain ⟨c', h1, h2⟩ := L.holds_inc (holds_fresh (supp := supp) (D := D) t) hv
    refine ⟨cl.set z c', (D.fresh t).2, ?_, ?_, _, c', Or.inr ⟨rfl, rfl⟩, h1, rfl⟩
    · simp only [CleanRel.putIn, hc, h1, bind, Except.bind]
    · apply key; rw [h0]; exact h2
  | some c =>
    obtain ⟨hne, hh⟩ := (h z).2 c hc
    obtain ⟨c', h1, h2⟩ := L.holds_inc hh hv
    have hN : D.N c > 0 := by
      rw [L.holds_N hh]
      exact_mod_cast Multiset.card_pos.mpr hne
    refine ⟨cl.set z c', t, ?_, ?_, c, c', Or.inl rfl, h1, rfl⟩
    · simp only [CleanRel.putIn, hc, h1, bind, Except.bind, hN, decide_true, assertR_true]
    · exact key _ h2

/-- replacing the state of a cluster by another one that holds the same data -/
theorem set_same (h : ClInv D supp place data cl) {z : Items} {c c' : D.S} (hc : cl.find? z = some c)
    (hh : D.Holds supp (contents place data z) c') : ClInv D supp place data (cl.set z c') := by
  intro z'
  by_cases hz : z' = z
  · subst hz
    rw [FMap.find?_set_self]
    exact ⟨nofun, fun c1 h1 => by cases h1; exact ⟨((h z').2 c hc).1, hh⟩⟩
  · rw [FMap.find?_set_ne _ hz]; exact h z'

theorem supported (L : Lawful D supp) (h : ClInv D supp place data cl) {k z : Items} {v : V} (hk : data.find? k = some v)
    (hp : place k = some z) : supp v := by
  obtain ⟨c, _, hh⟩ := h.find hk hp
  exact L.holds_supp hh (mem_contents.mpr ⟨k, hk, hp⟩)

theorem exact (h : ClInv D supp place data cl) :
    (∀ z, cl.contains z = true ↔ ∃ items v, data.find? items = some v ∧ place items = some z) ∧
    ∀ z c, cl.find? z = some c → D.Holds supp (contents place data z) c := by
  refine ⟨fun z => ?_, fun z c hc => ((h z).2 c hc).2⟩
  rw [FMap.contains_iff, ← contents_ne_zero]
  constructor
  · rintro ⟨c, hc⟩; exact ((h z).2 c hc).1
  · intro hne
    cases hc : cl.find? z with
    | none => exact absurd ((h z).1 hc) hne
    | some c => exact ⟨c, rfl⟩

end ClInv
end
end Verif
