import Verif.Lemmas.Clusters
/-! Helper lemmas about the domain store and the reverse index. -/
namespace Verif
noncomputable section
open Spec

/-- every domain of the store is well-formed -/
def StoreWF (σ : Doms) : Prop := ∀ d dom, σ.find? d = some dom → dom.WF

theorem Doms.get_eq {σ : Doms} {d : String} {dom : Domain} (h : σ.find? d = some dom) : σ.get d = .ok dom := by
  simp [Doms.get, h]

theorem Doms.get_ok {σ : Doms} {d : String} {dom : Domain} (h : σ.get d = .ok dom) : σ.find? d = some dom := by
  unfold Doms.get at h
  split at h
  · rename_i h'; cases h; exact h'
  · cases h

theorem seatOf_some {σ : Doms} {d : String} {i z : Int} (h : seatOf σ d i = some z) :
    ∃ dom, σ.find? d = some dom ∧ dom.crp.assignments.find? i = some z := by
  unfold seatOf at h
  cases hd : σ.find? d with
  | none => rw [hd] at h; cases h
  | some dom => rw [hd] at h; exact ⟨dom, rfl, h⟩

theorem seatOf_eq {σ : Doms} {d : String} {dom : Domain} (h : σ.find? d = some dom) (i : Int) :
    seatOf σ d i = dom.crp.assignments.find? i := by
  unfold seatOf; rw [h]; rfl

theorem seatOf_set {σ : Doms} {d : String} {dom : Domain} (d' : String) (i : Int) :
    seatOf (σ.set d dom) d' i = if d' = d then dom.crp.assignments.find? i else seatOf σ d' i := by
  unfold seatOf
  rw [FMap.find?_set]
  split <;> rfl

theorem StoreWF.set {σ : Doms} (h : StoreWF σ) {d : String} {dom : Domain} (hd : dom.WF) : StoreWF (σ.set d dom) := by
  intro d' dom' h'
  rw [FMap.find?_set] at h'
  split at h'
  · cases h'; exact hd
  · exact h d' dom' h'

theorem tupleSeat_length {σ : Doms} {ds : List String} {is z : Items} (h : tupleSeat σ ds is = some z) :
    is.length = ds.length ∧ z.length = ds.length := by
  induction ds generalizing is z with
  | nil => cases is <;> simp_all [tupleSeat]
  | cons d ds ih =>
    cases is with
    | nil => simp [tupleSeat] at h
    | cons i is =>
      simp only [tupleSeat] at h
      cases h1 : seatOf σ d i with
      | none => simp [h1] at h
      | some a =>
        cases h2 : tupleSeat σ ds is with
        | none => simp [h1, h2] at h
        | some b =>
          simp only [h1, h2, Option.bind_some, Option.map_some, Option.some.injEq] at h
          subst h
          have := ih h2
          simp [this]

theorem tupleSeat_cons {σ : Doms} {d : String} {ds : List String} {i : Int} {is z : Items} :
    tupleSeat σ (d :: ds) (i :: is) = some z ↔ ∃ a b, seatOf σ d i = some a ∧ tupleSeat σ ds is = some b ∧ z = a :: b := by
  simp only [tupleSeat]
  cases h1 : seatOf σ d i with
  | none => simp
  | some a =>
    cases h2 : tupleSeat σ ds is with
    | none => simp
    | some b =>
      simp only [Option.bind_some, Option.map_some, Option.some.injEq]
      constructor
      · rintro rfl; exact ⟨a, b, rfl, rfl, rfl⟩
      · rintro ⟨a, b, rfl, rfl, rfl⟩; rfl

/-- the cluster tuple exists exactly if every item of the tuple is in its domain -/
theorem tupleSeat_isSome {σ : Doms} {ds : List String} {is : Items} (hl : is.length = ds.length) :
    (∃ z, tupleSeat σ ds is = some z) ↔ ∀ d i, (d, i) ∈ ds.zip is → ∃ z, seatOf σ d i = some z := by
  induction ds generalizing is with
  | nil => cases is <;> simp_all [tupleSeat]
  | cons d ds ih =>
    cases is with
    | nil => simp at hl
    | cons i is =>
      simp only [List.length_cons, Nat.add_right_cancel_iff] at hl
      simp only [tupleSeat_cons, List.zip_cons_cons, List.mem_cons, Prod.mk.injEq]
      constructor
      · rintro ⟨z, a, b, h1, h2, rfl⟩ d' i' (⟨rfl, rfl⟩ | h)
        · exact ⟨a, h1⟩
        · exact (ih hl).mp ⟨b, h2⟩ d' i' h
      · intro h
        obtain ⟨a, ha⟩ := h d i (.inl ⟨rfl, rfl⟩)
        obtain ⟨b, hb⟩ := (ih hl).mpr (fun d' i' h' => h d' i' (.inr h'))
        exact ⟨a :: b, a, b, ha, hb, rfl⟩

theorem tupleSeat_congr {σ σ' : Doms} {ds : List String} {is : Items}
    (h : ∀ d i, (d, i) ∈ ds.zip is → seatOf σ' d i = seatOf σ d i) : tupleSeat σ' ds is = tupleSeat σ ds is := by
  induction ds generalizing is with
  | nil => cases is <;> rfl
  | cons d ds ih =>
    cases is with
    | nil => rfl
    | cons i is =>
      simp only [tupleSeat]
      rw [h d i (by simp), ih (fun d' i' h' => h d' i' (by simp [h']))]

theorem tupleSeat_mono {σ σ' : Doms} {ds : List String} {is z : Items}
    (h : ∀ d ∈ ds, ∀ i z, seatOf σ d i = some z → seatOf σ' d i = some z) (hz : tupleSeat σ ds is = some z) :
    tupleSeat σ' ds is = some z := by
  rw [← hz]
  apply tupleSeat_congr
  intro d i hm
  obtain ⟨a, ha⟩ := (tupleSeat_isSome (tupleSeat_length hz).1).mp ⟨z, hz⟩ d i hm
  rw [ha, h d (List.of_mem_zip hm).1 i a ha]

namespace CleanRel
variable {V : Type} {D : DistOps V}

theorem assignLoop_eq {σ : Doms} (hσ : StoreWF σ) {ds : List String} {is z : Items} (h : tupleSeat σ ds is = some z) :
    assignLoop σ ds is = .ok z := by
  induction ds generalizing is z with
  | nil => cases is <;> simp_all [tupleSeat, assignLoop]
  | cons d ds ih =>
    cases is with
    | nil => simp [tupleSeat] at h
    | cons i is =>
      obtain ⟨a, b, h1, h2, rfl⟩ := tupleSeat_cons.mp h
      obtain ⟨dom, hd, ha⟩ := seatOf_some h1
      simp only [assignLoop, bind, Except.bind, Doms.get_eq hd, Domain.getClusterAssignment_eq (hσ d dom hd) ha, ih h2]

theorem assignLoop_ok {σ : Doms} {ds : List String} {is z : Items} (hl : is.length = ds.length)
    (h : assignLoop σ ds is = .ok z) : tupleSeat σ ds is = some z := by
  induction ds generalizing is z with
  | nil => cases is <;> simp_all [tupleSeat, assignLoop]
  | cons d ds ih =>
    cases is with
    | nil => simp at hl
    | cons i is =>
      simp only [List.length_cons, Nat.add_right_cancel_iff] at hl
      simp only [assignLoop, bind, Except.bind] at h
      cases hd : σ.get d with
      | error e => rw [hd] at h; cases h
      | ok dom =>
        simp only [hd] at h
        cases ha : dom.getClusterAssignment i with
        | error e => rw [ha] at h; cases h
        | ok a =>
          simp only [ha] at h
          cases hb : assignLoop σ ds is with
          | error e => rw [hb] at h; cases h
          | ok b =>
            simp only [hb] at h
            cases h
            exact tupleSeat_cons.mpr ⟨a, b, by rw [seatOf_eq (Doms.get_ok hd)]; exact Domain.getClusterAssignment_ok ha,
              ih hl hb, rfl⟩

theorem clusterOf_eq {σ : Doms} (hσ : StoreWF σ) {r : CleanRel D} {items z : Items} (h : tupleSeat σ r.doms items = some z) :
    clusterOf σ r items = .ok z := by
  simp [clusterOf, (tupleSeat_length h).1, assignLoop_eq hσ h]

theorem clusterOf_ok {σ : Doms} {r : CleanRel D} {items z : Items} (h : clusterOf σ r items = .ok z) :
    tupleSeat σ r.doms items = some z := by
  unfold clusterOf at h
  split at h
  · cases h
  · rename_i hl; exact assignLoop_ok (by simpa using hl) h

end CleanRel

/-! ### growth of the store -/

/-- `σ'` is `σ` with the items of `new` added (those of them that were missing) to the domains they belong to -/
structure Grows (new : String → Int → Prop) (σ σ' : Doms) : Prop where
  doms : ∀ d, σ'.contains d = σ.contains d
  alpha : ∀ d dom, σ.find? d = some dom → ∃ dom', σ'.find? d = some dom' ∧ dom'.crp.alpha = dom.crp.alpha ∧
    dom'.name = dom.name
  seat : ∀ d i z, seatOf σ d i = some z → seatOf σ' d i = some z
  mem : ∀ d i, (∃ z, seatOf σ' d i = some z) ↔ (∃ z, seatOf σ d i = some z) ∨ (σ.contains d = true ∧ new d i)
  same : ∀ d, (∀ i, ¬ new d i) → σ'.find? d = σ.find? d

theorem Grows.refl (σ : Doms) : Grows (fun _ _ => False) σ σ :=
  ⟨fun _ => rfl, fun _ dom h => ⟨dom, h, rfl, rfl⟩, fun _ _ _ h => h, fun d i => by simp, fun _ _ => rfl⟩

theorem Grows.trans {n1 n2 : String → Int → Prop} {σ σ1 σ2 : Doms} (h1 : Grows n1 σ σ1) (h2 : Grows n2 σ1 σ2) :
    Grows (fun d i => n1 d i ∨ n2 d i) σ σ2 where
  doms d := (h2.doms d).trans (h1.doms d)
  alpha d dom h := by
    obtain ⟨dom1, a1, a2, a3⟩ := h1.alpha d dom h
    obtain ⟨dom2, b1, b2, b3⟩ := h2.alpha d dom1 a1
    exact ⟨dom2, b1, b2.trans a2, b3.trans a3⟩
  seat d i z h := h2.seat d i z (h1.seat d i z h)
  mem d i := by
    rw [h2.mem, h1.mem, h1.doms]
    tauto
  same d hn := by
    rw [h2.same d (fun i h => hn i (.inr h)), h1.same d (fun i h => hn i (.inl h))]

theorem Grows.congr {n1 n2 : String → Int → Prop} {σ σ' : Doms} (h : Grows n1 σ σ') (hn : ∀ d i, n1 d i ↔ n2 d i) :
    Grows n2 σ σ' := by
  have : n1 = n2 := by funext d i; exact propext (hn d i)
  rwa [this] at h

/-- one `Domain::incorporate` -/
theorem grows_incorporate {σ : Doms} (hσ : StoreWF σ) {d : String} {dom : Domain} (hd : σ.find? d = some dom) (i : Int) (t : Tape) :
    ∃ dom' t', dom.incorporate i t = .ok (dom', t') ∧ StoreWF (σ.set d dom') ∧
      Grows (fun d' i' => d' = d ∧ i' = i) σ (σ.set d dom') := by
  have hw := hσ d dom hd
  cases hi : dom.items.contains i with
  | true =>
    refine ⟨dom, t, Domain.incorporate_present hi t, hσ.set hw, ?_⟩
    rw [FMap.set_of_find hd]
    refine ⟨fun _ => rfl, fun _ dom h => ⟨dom, h, rfl, rfl⟩, fun _ _ _ h => h, fun d' i' => ?_, fun _ _ => rfl⟩
    constructor
    · exact .inl
    · rintro (h | ⟨_, rfl, rfl⟩)
      · exact h
      · rw [seatOf_eq hd]; exact hw.mem.mp hi
  | false =>
    refine ⟨_, _, Domain.incorporate_new hw hi t (-1), hσ.set (hw.incState hi _), ?_⟩
    have hf := hw.not_mem.mp hi
    constructor
    · intro d'
      simp only [FMap.contains, FMap.find?_set]
      split
      · rename_i h; subst h; simp [hd]
      · rfl
    · intro d' dom' h'
      rw [FMap.find?_set]
      split
      · rename_i h; subst h; rw [hd] at h'; cases h'; exact ⟨_, rfl, rfl, rfl⟩
      · exact ⟨dom', h', rfl, rfl⟩
    · intro d' i' z h
      rw [seatOf_set]
      split
      · rename_i h'; subst h'
        rw [seatOf_eq hd] at h
        simp only [Domain.incState, CRP.incState]
        rw [FMap.find?_set]
        split
        · rename_i h'; subst h'; rw [hf] at h; cases h
        · exact h
      · exact h
    · intro d' i'
      rw [seatOf_set]
      split
      · rename_i h'; subst h'
        simp only [Domain.incState, CRP.incState]
        rw [FMap.find?_set, seatOf_eq hd]
        have : σ.contains d' = true := FMap.contains_iff.mpr ⟨dom, hd⟩
        by_cases hii : i' = i
        · simp [hii, this]
        · simp [hii]
      · rename_i h'; simp [h']
    · intro d' hn
      rw [FMap.find?_set_ne]
      rintro rfl
      exact hn i ⟨rfl, rfl⟩

end
end Verif
