import Verif.Model.GenDBMove
import Verif.Lemmas.HIRM
/-!
Every relation of an HIRM has an index that lists exactly its tuples, whatever was done with it; and what each operation does to the stored values.
In contrast to the invariants of `HIRMGood.lean`, this needs nothing about the clusters: it also holds in the middle of a transition of a reference,
where values have been taken out of a relation but the entities are still in their domains.
-/
namespace Verif
noncomputable section

namespace CleanRel
variable {V : Type} {D : DistOps V}

/-- The index of the relation lists exactly its tuples, which have the length of its domains. -/
structure Indexed (r : CleanRel D) : Prop where
  idx : Idx r.doms (fun d i k => r.data.contains k = true ∧ Uses r.doms d i k) r.dataR
  len : ∀ k, r.data.contains k = true → k.length = r.doms.length

/-- Only the clusters differ. -/
structure Same (r r' : CleanRel D) : Prop where
  doms : r'.doms = r.doms
  data : r'.data = r.data
  dataR : r'.dataR = r.dataR

theorem Same.refl (r : CleanRel D) : Same r r := ⟨rfl, rfl, rfl⟩

theorem Same.trans {r r₁ r₂ : CleanRel D} (h : Same r r₁) (h' : Same r₁ r₂) : Same r r₂ :=
  ⟨h'.doms.trans h.doms, h'.data.trans h.data, h'.dataR.trans h.dataR⟩

theorem Same.clusters (r : CleanRel D) (cl : FMap Items D.S) : Same r { r with clusters := cl } := ⟨rfl, rfl, rfl⟩

theorem Indexed.congr {r r' : CleanRel D} (h : Indexed r) (hd : r'.doms = r.doms) (hk : ∀ k, r'.data.contains k = r.data.contains k)
    (hr : r'.dataR = r.dataR) : Indexed r' := by
  refine ⟨?_, fun k => ?_⟩
  · rw [hd, hr]
    exact h.idx.congr (fun d _ i k => by rw [hk])
  · rw [hk, hd]
    exact h.len k

theorem Indexed.same {r r' : CleanRel D} (h : Indexed r) (hs : Same r r') : Indexed r' := h.congr hs.doms (fun k => by rw [hs.data]) hs.dataR

theorem Indexed.fresh {ds : List String} {r : CleanRel D} (h : mk' D ds = .ok r) : Indexed r ∧ r.doms = ds := by
  obtain ⟨_, _, h⟩ := bind_ok.mp h
  cases h
  exact ⟨⟨(Idx.empty ds).congr (fun _ _ _ _ => by simp [FMap.contains]), fun k hk => by simp [FMap.contains] at hk⟩, rfl⟩

theorem incLoop_idx {items : Items} {doms ds : List String} : ∀ {is : Items} {P : String → Int → Items → Prop} {m m' : RevIndex} {σ σ' : Doms} {t t' : Tape},
    Idx doms P m → (∀ d ∈ ds, d ∈ doms) → incLoop items ds is σ m t = .ok (σ', m', t') →
    Idx doms (fun d i k => P d i k ∨ ((d, i) ∈ ds.zip is ∧ k = items)) m' := by
  induction ds with
  | nil =>
    intro is P m m' σ σ' t t' h _ hc
    cases hc
    exact h.congr (by simp)
  | cons d ds ih =>
    intro is P m m' σ σ' t t' h hd hc
    cases is with
    | nil => cases hc
    | cons i is =>
      obtain ⟨dom, _, hc⟩ := bind_ok.mp hc
      obtain ⟨⟨dom', t₁⟩, _, hc⟩ := bind_ok.mp hc
      obtain ⟨m₁, h2, hc⟩ := bind_ok.mp hc
      obtain ⟨m₁', h3, h4⟩ := h.indexAdd (hd d (by simp)) i items
      rw [h2] at h3
      cases h3
      refine (ih h4 (fun d' h' => hd d' (by simp [h'])) hc).congr ?_
      intro d' _ i' k
      simp only [List.zip_cons_cons, List.mem_cons, Prod.mk.injEq]
      tauto

theorem clusterOf_len {σ : Doms} {r : CleanRel D} {items z : Items} (h : clusterOf σ r items = .ok z) : items.length = r.doms.length := by
  unfold clusterOf at h
  split at h
  · cases h
  · rename_i hl; exact not_not.mp hl

/-- What `incorporate_items` leaves, before the value is stored. -/
theorem incorporateItems_idx {σ σ' : Doms} {r r' : CleanRel D} {items z : Items} {t t' : Tape} (h : incorporateItems σ r items t = .ok (z, σ', r', t')) :
    r'.doms = r.doms ∧ r'.data = r.data ∧ r.data.contains items = false ∧ ∀ v : V, Indexed r → Indexed { r' with data := r'.data.set items v } := by
  obtain ⟨_, h0, h⟩ := bind_ok.mp h
  obtain ⟨⟨σ₁, m, t₁⟩, h1, h⟩ := bind_ok.mp h
  obtain ⟨z', h2, h⟩ := bind_ok.mp h
  have hl := clusterOf_len h2
  dsimp only at hl h
  have key : ∀ v : V, Indexed r → Indexed (D := D) { r with dataR := m, data := r.data.set items v } := by
    intro v hr
    refine ⟨(incLoop_idx hr.idx (fun _ h => h) h1).congr ?_, ?_⟩
    · intro d _ i k
      simp only [FMap.contains_iff_mem, FMap.keys_set_mem]
      unfold Uses
      constructor
      · rintro (⟨a, b⟩ | ⟨a, rfl⟩)
        · exact ⟨Or.inr a, b⟩
        · exact ⟨Or.inl rfl, a⟩
      · rintro ⟨rfl | a, b⟩
        · exact Or.inr ⟨b, rfl⟩
        · exact Or.inl ⟨a, b⟩
    · intro k hk
      simp only [FMap.contains_iff_mem, FMap.keys_set_mem] at hk
      rcases hk with rfl | hk
      · exact hl
      · exact hr.len k (FMap.contains_iff_mem.mpr hk)
  have h0 : r.data.contains items = false := by simpa using assertR_ok.mp h0
  split at h <;> cases h
  · exact ⟨rfl, rfl, h0, key⟩
  · refine ⟨rfl, rfl, h0, fun v hr => (key v hr).same ⟨rfl, rfl, rfl⟩⟩

theorem incorporate_idx {σ σ' : Doms} {r r' : CleanRel D} {items : Items} {v : V} {t t' : Tape} (h : incorporate σ r items v t = .ok (σ', r', t')) :
    r'.doms = r.doms ∧ r'.data = r.data.set items v ∧ r.data.contains items = false ∧ (Indexed r → Indexed r') := by
  obtain ⟨⟨z, σ₁, r₁, t₁⟩, h1, h⟩ := bind_ok.mp h
  obtain ⟨c, _, h⟩ := bind_ok.mp h
  obtain ⟨c', _, h⟩ := bind_ok.mp h
  cases h
  obtain ⟨a1, a2, a3, a4⟩ := incorporateItems_idx h1
  exact ⟨a1, by rw [← a2], a3, fun hr => (a4 v hr).same ⟨rfl, rfl, rfl⟩⟩

theorem cleanupData_idx {r r' : CleanRel D} {items : Items} (h : cleanupData r items = .ok r') (hl : r.data.contains items = true) :
    r'.doms = r.doms ∧ r'.data = r.data.erase items ∧ (Indexed r → Indexed r') := by
  obtain ⟨m, h1, h⟩ := bind_ok.mp h
  cases h
  refine ⟨rfl, rfl, fun hr => ?_⟩
  obtain ⟨m', h2, h3⟩ := hr.idx.cleanLoop items (hr.len items hl) (fun _ h => h)
  rw [h1] at h2
  cases h2
  refine ⟨h3.congr ?_, ?_⟩
  · intro d _ i k
    simp only [FMap.contains_iff_mem, FMap.keys_erase_mem]
    unfold Uses
    constructor
    · rintro ⟨⟨a, b⟩, c⟩
      exact ⟨⟨fun hk => c ⟨hk, hk ▸ b⟩, a⟩, b⟩
    · rintro ⟨⟨a, b⟩, c⟩
      exact ⟨⟨b, c⟩, fun h => a h.1⟩
  · intro k hk
    simp only [FMap.contains_iff_mem, FMap.keys_erase_mem] at hk
    exact hr.len k (FMap.contains_iff_mem.mpr hk.2)

theorem incorporateToCluster_same {σ : Doms} {r r' : CleanRel D} {items : Items} {v : V} (h : incorporateToCluster σ r items v = .ok r') : Same r r' := by
  obtain ⟨_, _, h⟩ := bind_ok.mp h
  obtain ⟨_, _, h⟩ := bind_ok.mp h
  obtain ⟨_, _, h⟩ := bind_ok.mp h
  obtain ⟨_, _, h⟩ := bind_ok.mp h
  cases h
  exact .clusters _ _

theorem unincorporateFromCluster_same {σ : Doms} {r r' : CleanRel D} {items : Items} (h : unincorporateFromCluster σ r items = .ok r') :
    Same r r' ∧ r.data.contains items = true := by
  obtain ⟨_, _, h⟩ := bind_ok.mp h
  obtain ⟨_, _, h⟩ := bind_ok.mp h
  obtain ⟨v, hv, h⟩ := bind_ok.mp h
  obtain ⟨_, _, h⟩ := bind_ok.mp h
  obtain ⟨_, _, h⟩ := bind_ok.mp h
  cases h
  obtain ⟨_, hv, _⟩ := bind_ok.mp hv
  exact ⟨.clusters _ _, assertR_ok.mp hv⟩

theorem getValue_find {r : CleanRel D} {items : Items} {v : V} (h : getValue r items = .ok v) : r.data.find? items = some v := by
  obtain ⟨_, _, h⟩ := bind_ok.mp h
  exact FMap.atKey_ok.mp h

theorem clusterLogpFromItems_same {σ : Doms} {r r' : CleanRel D} {items : Items} {v : V} {lp : ℝ} (h : clusterLogpFromItems σ r items v = .ok (lp, r')) :
    Same r r' := by
  obtain ⟨b, _, h⟩ := bind_ok.mp h
  split at h
  · obtain ⟨_, _, h⟩ := bind_ok.mp h
    obtain ⟨_, _, h⟩ := bind_ok.mp h
    obtain ⟨_, _, h⟩ := bind_ok.mp h
    cases h
    exact .clusters _ _
  · cases h

theorem updateValue_idx {σ : Doms} {r r' : CleanRel D} {items : Items} {v : V} (h : updateValue σ r items v = .ok r') :
    r'.doms = r.doms ∧ r'.data = r.data.set items v ∧ r'.dataR = r.dataR ∧ ∀ k, r'.data.contains k = r.data.contains k := by
  obtain ⟨r₁, h1, h⟩ := bind_ok.mp h
  obtain ⟨r₂, h2, h⟩ := bind_ok.mp h
  obtain ⟨_, h3, h⟩ := bind_ok.mp h
  cases h
  obtain ⟨s1, hc⟩ := unincorporateFromCluster_same h1
  have s := s1.trans (incorporateToCluster_same h2)
  refine ⟨s.doms, by rw [← s.data], s.dataR, fun k => ?_⟩
  show (r₂.data.set items v).contains k = _
  rw [s.data, Bool.eq_iff_iff]
  simp only [FMap.contains_iff_mem, FMap.keys_set_mem]
  constructor
  · rintro (rfl | h)
    · exact FMap.contains_iff_mem.mp hc
    · exact h
  · exact Or.inr

theorem exactCurrent_same {σ : Doms} {r r' : CleanRel D} {l : List Items} {x : ℝ} (h : exactCurrent σ r l = .ok (x, r')) : Same r r' := by
  obtain ⟨_, _, h⟩ := bind_ok.mp h
  obtain ⟨_, _, h⟩ := bind_ok.mp h
  obtain ⟨_, _, h⟩ := bind_ok.mp h
  obtain ⟨_, _, h⟩ := bind_ok.mp h
  obtain ⟨_, _, h⟩ := bind_ok.mp h
  obtain ⟨_, _, h⟩ := bind_ok.mp h
  obtain ⟨_, _, h⟩ := bind_ok.mp h
  cases h
  exact .clusters _ _

theorem exactVariant_same {σ : Doms} {r r' : CleanRel D} {d : String} {item table : Int} {l : List Items} {x : ℝ} {t t' : Tape}
    (h : exactVariant σ r d item table l t = .ok (x, r', t')) : Same r r' := by
  obtain ⟨_, _, h⟩ := bind_ok.mp h
  obtain ⟨_, _, h⟩ := bind_ok.mp h
  obtain ⟨_, _, h⟩ := bind_ok.mp h
  obtain ⟨_, _, h⟩ := bind_ok.mp h
  obtain ⟨_, _, h⟩ := bind_ok.mp h
  obtain ⟨_, _, h⟩ := bind_ok.mp h
  cases h
  split
  · exact .clusters _ _
  · exact .refl _

theorem exactTable_same {σ : Doms} {d : String} {item cur table : Int} {ls : List (List Items)} : ∀ {r r' : CleanRel D} {x : ℝ} {t t' : Tape},
    exactTable σ d item cur table ls r t = .ok (x, r', t') → Same r r' := by
  induction ls with
  | nil => intro r r' x t t' h; cases h; exact .refl _
  | cons l ls ih =>
    intro r r' x t t' h
    rw [exactTable] at h
    split at h
    · obtain ⟨⟨_, _⟩, h1, h⟩ := bind_ok.mp h
      obtain ⟨⟨_, _, _⟩, h3, h⟩ := bind_ok.mp h
      cases h3
      obtain ⟨⟨_, _, _⟩, h2, h⟩ := bind_ok.mp h
      cases h
      exact (exactCurrent_same h1).trans (ih h2)
    · obtain ⟨⟨_, _, _⟩, h1, h⟩ := bind_ok.mp h
      obtain ⟨⟨_, _, _⟩, h2, h⟩ := bind_ok.mp h
      cases h
      exact (exactVariant_same h1).trans (ih h2)

theorem exactTables_same {σ : Doms} {d : String} {item cur : Int} {groups : List (List Items)} {tables : List Int} : ∀ {r r' : CleanRel D} {x : List ℝ}
    {t t' : Tape}, exactTables σ d item cur groups tables r t = .ok (x, r', t') → Same r r' := by
  induction tables with
  | nil => intro r r' x t t' h; cases h; exact .refl _
  | cons l ls ih =>
    intro r r' x t t' h
    obtain ⟨⟨lp, r₁, t₁⟩, h1, h⟩ := bind_ok.mp h
    obtain ⟨⟨lp', r₂, t₂⟩, h2, h⟩ := bind_ok.mp h
    cases h
    exact (exactTable_same h1).trans (ih h2)

theorem logpGibbsExact_same {σ : Doms} {r r' : CleanRel D} {d : String} {item : Int} {tables : List Int} {x : List ℝ} {t t' : Tape}
    (h : logpGibbsExact σ r d item tables t = .ok (x, r', t')) : Same r r' := by
  obtain ⟨_, _, h⟩ := bind_ok.mp h
  obtain ⟨_, _, h⟩ := bind_ok.mp h
  obtain ⟨_, _, h⟩ := bind_ok.mp h
  exact exactTables_same h

theorem setGibbsLoop_same {σ : Doms} {d : String} {item table : Int} {l : List Items} : ∀ {r r' : CleanRel D} {t t' : Tape},
    setGibbsLoop σ d item table l r t = .ok (r', t') → Same r r' := by
  induction l with
  | nil => intro r r' t t' h; cases h; exact .refl _
  | cons x l ih =>
    intro r r' t t' h
    obtain ⟨_, _, h⟩ := bind_ok.mp h
    obtain ⟨_, _, h⟩ := bind_ok.mp h
    obtain ⟨_, _, h⟩ := bind_ok.mp h
    obtain ⟨_, _, h⟩ := bind_ok.mp h
    obtain ⟨⟨_, _⟩, _, h⟩ := bind_ok.mp h
    exact (Same.clusters r _).trans (ih h)

theorem setClusterAssignmentGibbs_same {σ : Doms} {r r' : CleanRel D} {d : String} {item table : Int} {t t' : Tape}
    (h : setClusterAssignmentGibbs σ r d item table t = .ok (r', t')) : Same r r' := by
  obtain ⟨_, _, h⟩ := bind_ok.mp h
  obtain ⟨_, _, h⟩ := bind_ok.mp h
  obtain ⟨_, _, h⟩ := bind_ok.mp h
  obtain ⟨_, _, h⟩ := bind_ok.mp h
  exact setGibbsLoop_same h

end CleanRel

namespace CleanRel
variable {V : Type} {C : CleanOps V}

theorem sampleAtItems_same {σ : Doms} {r r' : CleanRel C.toDistOps} {items : Items} {x : V} {t t' : Tape} (h : sampleAtItems σ r items t = .ok (x, r', t')) :
    Same r r' := by
  obtain ⟨b, _, h⟩ := bind_ok.mp h
  split at h
  · obtain ⟨_, _, h⟩ := bind_ok.mp h
    obtain ⟨_, _, h⟩ := bind_ok.mp h
    obtain ⟨⟨_, _, _⟩, _, h⟩ := bind_ok.mp h
    cases h
    exact .clusters _ _
  · obtain ⟨⟨_, _, _⟩, _, h⟩ := bind_ok.mp h
    cases h
    exact .refl _

theorem sampleAndIncorporate_idx {σ σ' : Doms} {r r' : CleanRel C.toDistOps} {items : Items} {x : V} {t t' : Tape}
    (h : sampleAndIncorporate σ r items t = .ok (x, σ', r', t')) :
    r'.doms = r.doms ∧ r'.data = r.data.set items x ∧ (Indexed r → Indexed r') := by
  obtain ⟨⟨z, σ₁, r₁, t₁⟩, h1, h⟩ := bind_ok.mp h
  obtain ⟨⟨x', r₂, t₂⟩, h2, h⟩ := bind_ok.mp h
  obtain ⟨_, _, h⟩ := bind_ok.mp h
  obtain ⟨_, _, h⟩ := bind_ok.mp h
  cases h
  obtain ⟨a1, a2, a3, a4⟩ := incorporateItems_idx h1
  have s := sampleAtItems_same h2
  refine ⟨s.doms.trans a1, by rw [← a2, ← s.data], fun hr => (a4 x hr).congr s.doms (fun k => ?_) s.dataR⟩
  show (r₂.data.set items x).contains k = _
  rw [s.data]

end CleanRel

namespace NoisyRel
variable {V : Type} {E : DistOps (V × V)}

/-- The index of the emission relation lists exactly the tuples of the noisy relation. -/
structure Indexed (r : NoisyRel E) : Prop where
  em : r.emission.Indexed
  doms : r.emission.doms = r.doms
  keys : ∀ k, r.emission.data.contains k = r.data.contains k

/-- Only the clusters and the links to the base relation differ. -/
structure Same (r r' : NoisyRel E) : Prop where
  em : r.emission.Same r'.emission
  doms : r'.doms = r.doms
  data : r'.data = r.data

theorem Same.refl (r : NoisyRel E) : Same r r := ⟨.refl _, rfl, rfl⟩

theorem Same.trans {r r₁ r₂ : NoisyRel E} (h : Same r r₁) (h' : Same r₁ r₂) : Same r r₂ :=
  ⟨h.em.trans h'.em, h'.doms.trans h.doms, h'.data.trans h.data⟩

theorem Indexed.same {r r' : NoisyRel E} (h : Indexed r) (hs : Same r r') : Indexed r' :=
  ⟨h.em.same hs.em, by rw [hs.em.doms, hs.doms, h.doms], fun k => by rw [hs.em.data, hs.data, h.keys]⟩

theorem Indexed.fresh {ds : List String} {r : NoisyRel E} (h : mk' E ds = .ok r) : Indexed r ∧ r.doms = ds := by
  obtain ⟨em, h1, h⟩ := bind_ok.mp h
  cases h
  obtain ⟨a1, a2⟩ := CleanRel.Indexed.fresh h1
  refine ⟨⟨a1, a2, fun k => ?_⟩, rfl⟩
  obtain ⟨_, _, h⟩ := bind_ok.mp h1
  cases h
  simp [FMap.contains]

theorem contains_set_both {K W W' : Type} [Key K] {m : FMap K W} {m' : FMap K W'} (h : ∀ k, m.contains k = m'.contains k) (i : K) (a : W) (b : W') (k : K) :
    (m.set i a).contains k = (m'.set i b).contains k := by
  have := h k
  rw [Bool.eq_iff_iff] at this ⊢
  simp only [FMap.contains_iff_mem, FMap.keys_set_mem] at this ⊢
  rw [this]

theorem contains_erase_both {K W W' : Type} [Key K] {m : FMap K W} {m' : FMap K W'} (h : ∀ k, m.contains k = m'.contains k) (i : K) (k : K) :
    (m.erase i).contains k = (m'.erase i).contains k := by
  have := h k
  rw [Bool.eq_iff_iff] at this ⊢
  simp only [FMap.contains_iff_mem, FMap.keys_erase_mem] at this ⊢
  rw [this]

theorem incorporate_idx {σ σ' : Doms} {b : BaseView V} {r r' : NoisyRel E} {items : Items} {v : V} {t t' : Tape}
    (h : incorporate σ b r items v t = .ok (σ', r', t')) : r'.doms = r.doms ∧ r'.data = r.data.set items v ∧ (Indexed r → Indexed r') := by
  obtain ⟨bi, _, h⟩ := bind_ok.mp h
  obtain ⟨bv, _, h⟩ := bind_ok.mp h
  obtain ⟨⟨σ₁, em, t₁⟩, h1, h⟩ := bind_ok.mp h
  cases h
  obtain ⟨a1, a2, _, a4⟩ := CleanRel.incorporate_idx h1
  refine ⟨rfl, rfl, fun hr => ⟨a4 hr.em, a1.trans hr.doms, fun k => ?_⟩⟩
  show em.data.contains k = _
  rw [a2]
  exact contains_set_both hr.keys _ _ _ k

theorem cleanupData_idx {b : BaseView V} {r r' : NoisyRel E} {items : Items} (h : cleanupData b r items = .ok r') (hl : r.emission.data.contains items = true) :
    r'.doms = r.doms ∧ r'.data = r.data.erase items ∧ (Indexed r → Indexed r') := by
  obtain ⟨em, h1, h⟩ := bind_ok.mp h
  obtain ⟨m, _, h⟩ := bind_ok.mp h
  cases h
  obtain ⟨a1, a2, a3⟩ := CleanRel.cleanupData_idx h1 hl
  refine ⟨rfl, rfl, fun hr => ⟨a3 hr.em, a1.trans hr.doms, fun k => ?_⟩⟩
  show em.data.contains k = _
  rw [a2]
  exact contains_erase_both hr.keys _ k

theorem incorporateToCluster_same {σ : Doms} {b : BaseView V} {r r' : NoisyRel E} {items : Items} {v : V} (h : incorporateToCluster σ b r items v = .ok r') :
    Same r r' := by
  obtain ⟨_, _, h⟩ := bind_ok.mp h
  obtain ⟨_, h1, h⟩ := bind_ok.mp h
  cases h
  exact ⟨CleanRel.incorporateToCluster_same h1, rfl, rfl⟩

theorem unincorporateFromCluster_same {σ : Doms} {r r' : NoisyRel E} {items : Items} (h : unincorporateFromCluster σ r items = .ok r') :
    Same r r' ∧ r.emission.data.contains items = true := by
  obtain ⟨_, h1, h⟩ := bind_ok.mp h
  cases h
  obtain ⟨a, b⟩ := CleanRel.unincorporateFromCluster_same h1
  exact ⟨⟨a, rfl, rfl⟩, b⟩

theorem getValue_find {r : NoisyRel E} {items : Items} {v : V} (h : getValue r items = .ok v) : r.data.find? items = some v := by
  obtain ⟨_, _, h⟩ := bind_ok.mp h
  exact FMap.atKey_ok.mp h

theorem clusterLogpFromItems_same {σ : Doms} {b : BaseView V} {r r' : NoisyRel E} {items : Items} {v : V} {lp : WithBot ℝ}
    (h : clusterLogpFromItems σ b r items v = .ok (lp, r')) : Same r r' := by
  obtain ⟨bi, _, h⟩ := bind_ok.mp h
  split at h
  · cases h
    exact .refl _
  · obtain ⟨⟨_, _⟩, h1, h⟩ := bind_ok.mp h
    cases h
    exact ⟨CleanRel.clusterLogpFromItems_same h1, rfl, rfl⟩

theorem updateValue_idx {σ : Doms} {b : BaseView V} {r r' : NoisyRel E} {items : Items} {v : V} (h : updateValue σ b r items v = .ok r') :
    r'.doms = r.doms ∧ (Indexed r → Indexed r') := by
  obtain ⟨_, h0, h⟩ := bind_ok.mp h
  obtain ⟨bv, _, h⟩ := bind_ok.mp h
  obtain ⟨em, h1, h⟩ := bind_ok.mp h
  cases h
  obtain ⟨a1, a2, a3, a4⟩ := CleanRel.updateValue_idx h1
  refine ⟨rfl, fun hr => ⟨hr.em.congr a1 a4 a3, a1.trans hr.doms, fun k => ?_⟩⟩
  show em.data.contains k = _
  rw [a2]
  exact contains_set_both hr.keys _ _ _ k

end NoisyRel

namespace NoisyRel
variable {V : Type} {E : EmisOps V}

theorem sampleAndIncorporate_idx {σ σ' : Doms} {b : BaseView V} {r r' : NoisyRel E.toDistOps} {items : Items} {x : V} {t t' : Tape}
    (h : sampleAndIncorporate σ b r items t = .ok (x, σ', r', t')) :
    r'.doms = r.doms ∧ r'.data = r.data.set items x ∧ (Indexed r → Indexed r') := by
  obtain ⟨⟨z, σ₁, em, t₁⟩, h1, h⟩ := bind_ok.mp h
  obtain ⟨bv, _, h⟩ := bind_ok.mp h
  obtain ⟨bi, _, h⟩ := bind_ok.mp h
  obtain ⟨⟨x', t₂⟩, _, h⟩ := bind_ok.mp h
  obtain ⟨_, _, h⟩ := bind_ok.mp h
  obtain ⟨_, _, h⟩ := bind_ok.mp h
  cases h
  obtain ⟨a1, a2, a3, a4⟩ := CleanRel.incorporateItems_idx h1
  refine ⟨rfl, rfl, fun hr => ⟨(a4 (bv, x) hr.em).same ⟨rfl, rfl, rfl⟩, a1.trans hr.doms, fun k => ?_⟩⟩
  show (em.data.set items (bv, x)).contains k = _
  rw [a2]
  exact contains_set_both hr.keys _ _ _ k

end NoisyRel

namespace Rel
variable {V : Type} {F : Family V}

/-- The index of the relation lists exactly its tuples. -/
def Indexed : Rel F → Prop
  | .clean _ r => r.Indexed
  | .noisy _ _ r => r.Indexed

theorem Indexed.len {r : Rel F} (h : r.Indexed) {k : Items} (hk : r.data.contains k = true) : k.length = r.doms.length := by
  cases r with
  | clean c r => exact CleanRel.Indexed.len h k hk
  | noisy e p r =>
    have h : r.Indexed := h
    have := h.em.len k (by rw [h.keys]; exact hk)
    rw [h.doms] at this
    exact this

theorem Indexed.idx {r : Rel F} (h : r.Indexed) : Idx r.doms (fun d i k => r.data.contains k = true ∧ Uses r.doms d i k) r.dataR := by
  cases r with
  | clean c r => exact CleanRel.Indexed.idx h
  | noisy e p r =>
    have h : r.Indexed := h
    have := h.em.idx
    rw [h.doms] at this
    exact this.congr (fun d _ i k => by rw [h.keys]; exact Iff.rfl)

/-- A relation that an operation leaves: over the same domains, and indexed if the relation was. -/
structure Next (r r' : Rel F) : Prop where
  doms : r'.doms = r.doms
  idx : r.Indexed → r'.Indexed

theorem Next.refl (r : Rel F) : Next r r := ⟨rfl, id⟩

theorem Next.trans {r r₁ r₂ : Rel F} (h : Next r r₁) (h' : Next r₁ r₂) : Next r r₂ := ⟨h'.doms.trans h.doms, fun hr => h'.idx (h.idx hr)⟩

theorem next_clean {c : F.C} {r r' : CleanRel (F.dist c).toDistOps} (h : r.Same r') : Next (.clean c r) (.clean c r') ∧ (Rel.clean c r').data = (Rel.clean c r).data :=
  ⟨⟨h.doms, fun hr => CleanRel.Indexed.same hr h⟩, h.data⟩

theorem next_noisy {e : F.E} {p p' : Ptr} {r r' : NoisyRel (F.emis e).toDistOps} (h : r.Same r') :
    Next (.noisy e p r) (.noisy e p' r') ∧ (Rel.noisy e p' r').data = (Rel.noisy e p r).data :=
  ⟨⟨h.doms, fun hr => NoisyRel.Indexed.same hr h⟩, h.data⟩

theorem incorporate_next {σ σ' : Doms} {b : Option (BaseView V)} {r r' : Rel F} {items : Items} {v : V} {t t' : Tape}
    (h : r.incorporate σ b items v t = .ok (σ', r', t')) : Next r r' ∧ r'.data = r.data.set items v := by
  cases r with
  | clean c r =>
    obtain ⟨⟨σ₁, r₁, t₁⟩, h1, h⟩ := bind_ok.mp h
    cases h
    obtain ⟨a1, a2, _, a4⟩ := CleanRel.incorporate_idx h1
    exact ⟨⟨a1, a4⟩, a2⟩
  | noisy e p r =>
    obtain ⟨b', _, h⟩ := bind_ok.mp h
    obtain ⟨⟨σ₁, r₁, t₁⟩, h1, h⟩ := bind_ok.mp h
    cases h
    obtain ⟨a1, a2, a4⟩ := NoisyRel.incorporate_idx h1
    exact ⟨⟨a1, a4⟩, a2⟩

theorem sampleAndIncorporate_next {σ σ' : Doms} {b : Option (BaseView V)} {r r' : Rel F} {items : Items} {x : V} {t t' : Tape}
    (h : r.sampleAndIncorporate σ b items t = .ok (x, σ', r', t')) : Next r r' ∧ r'.data = r.data.set items x := by
  cases r with
  | clean c r =>
    obtain ⟨⟨x₁, σ₁, r₁, t₁⟩, h1, h⟩ := bind_ok.mp h
    cases h
    obtain ⟨a1, a2, a4⟩ := CleanRel.sampleAndIncorporate_idx h1
    exact ⟨⟨a1, a4⟩, a2⟩
  | noisy e p r =>
    obtain ⟨b', _, h⟩ := bind_ok.mp h
    obtain ⟨⟨x₁, σ₁, r₁, t₁⟩, h1, h⟩ := bind_ok.mp h
    cases h
    obtain ⟨a1, a2, a4⟩ := NoisyRel.sampleAndIncorporate_idx h1
    exact ⟨⟨a1, a4⟩, a2⟩

theorem takeOut_next {σ : Doms} {b : Option (BaseView V)} {r r' : Rel F} {items : Items} {lp : WithBot ℝ} {v : V}
    (h : r.takeOut σ b items = .ok (lp, v, r')) : Next r r' ∧ r'.data = r.data.erase items ∧ r.data.find? items = some v := by
  unfold takeOut at h
  obtain ⟨v', h1, h⟩ := bind_ok.mp h
  obtain ⟨r₁, h2, h⟩ := bind_ok.mp h
  obtain ⟨⟨lp', r₂⟩, h3, h⟩ := bind_ok.mp h
  obtain ⟨r₃, h4, h⟩ := bind_ok.mp h
  cases h
  cases r with
  | clean c r =>
    have hv := CleanRel.getValue_find h1
    obtain ⟨r₁', k2, h2⟩ := bind_ok.mp h2
    cases h2
    obtain ⟨⟨_, r₂'⟩, k3, h3⟩ := bind_ok.mp h3
    cases h3
    obtain ⟨r₃', k4, h4⟩ := bind_ok.mp h4
    cases h4
    obtain ⟨s1, hc⟩ := CleanRel.unincorporateFromCluster_same k2
    have s := s1.trans (CleanRel.clusterLogpFromItems_same k3)
    obtain ⟨a1, a2, a3⟩ := CleanRel.cleanupData_idx k4 (by rw [s.data]; exact hc)
    refine ⟨⟨a1.trans s.doms, fun hr => a3 (CleanRel.Indexed.same hr s)⟩, ?_, hv⟩
    show r₃'.data = r.data.erase items
    rw [a2, s.data]
  | noisy e p r =>
    have hv := NoisyRel.getValue_find h1
    obtain ⟨r₁', k2, h2⟩ := bind_ok.mp h2
    cases h2
    obtain ⟨b', k5, h3⟩ := bind_ok.mp h3
    obtain ⟨⟨_, r₂'⟩, k3, h3⟩ := bind_ok.mp h3
    cases h3
    obtain ⟨b'', k6, h4⟩ := bind_ok.mp h4
    obtain ⟨r₃', k4, h4⟩ := bind_ok.mp h4
    cases h4
    obtain ⟨s1, hc⟩ := NoisyRel.unincorporateFromCluster_same k2
    have s := s1.trans (NoisyRel.clusterLogpFromItems_same k3)
    obtain ⟨a1, a2, a3⟩ := NoisyRel.cleanupData_idx k4 (by rw [s.em.data]; exact hc)
    refine ⟨⟨a1.trans s.doms, fun hr => a3 (NoisyRel.Indexed.same hr s)⟩, ?_, hv⟩
    show r₃'.data = r.data.erase items
    rw [a2, s.data]

theorem cleanupClusters_next (r : Rel F) : Next r r.cleanupClusters ∧ r.cleanupClusters.data = r.data := by
  cases r with
  | clean c r => exact next_clean (.clusters _ _)
  | noisy e p r => exact next_noisy ⟨.clusters _ _, rfl, rfl⟩

theorem logpGibbsExact_next {σ : Doms} {r r' : Rel F} {d : String} {item : Int} {tables : List Int} {x : List ℝ} {t t' : Tape}
    (h : r.logpGibbsExact σ d item tables t = .ok (x, r', t')) : Next r r' ∧ r'.data = r.data := by
  cases r with
  | clean c r =>
    obtain ⟨⟨_, _, _⟩, h1, h⟩ := bind_ok.mp h
    cases h
    exact next_clean (CleanRel.logpGibbsExact_same h1)
  | noisy e p r =>
    obtain ⟨⟨_, _, _⟩, h1, h⟩ := bind_ok.mp h
    cases h
    obtain ⟨⟨_, _, _⟩, h2, h1⟩ := bind_ok.mp h1
    cases h1
    exact next_noisy ⟨CleanRel.logpGibbsExact_same h2, rfl, rfl⟩

theorem setClusterAssignmentGibbs_next {σ : Doms} {r r' : Rel F} {d : String} {item table : Int} {t t' : Tape}
    (h : r.setClusterAssignmentGibbs σ d item table t = .ok (r', t')) : Next r r' ∧ r'.data = r.data := by
  cases r with
  | clean c r =>
    obtain ⟨⟨_, _⟩, h1, h⟩ := bind_ok.mp h
    cases h
    exact next_clean (CleanRel.setClusterAssignmentGibbs_same h1)
  | noisy e p r =>
    obtain ⟨⟨_, _⟩, h1, h⟩ := bind_ok.mp h
    cases h
    obtain ⟨⟨_, _⟩, h2, h1⟩ := bind_ok.mp h1
    cases h1
    exact next_noisy ⟨CleanRel.setClusterAssignmentGibbs_same h2, rfl, rfl⟩

theorem transitionClusterHparams_next (r : Rel F) (n : Nat) (t : Tape) :
    Next r (r.transitionClusterHparams n t).1 ∧ (r.transitionClusterHparams n t).1.data = r.data := by
  cases r with
  | clean c r => exact next_clean (.clusters _ _)
  | noisy e p r => exact next_noisy ⟨.clusters _ _, rfl, rfl⟩

theorem incorporateToCluster_next {σ : Doms} {b : Option (BaseView V)} {r r' : Rel F} {items : Items} {v : V}
    (h : r.incorporateToCluster σ b items v = .ok r') : Next r r' := by
  cases r with
  | clean c r =>
    obtain ⟨_, h1, h⟩ := bind_ok.mp h
    cases h
    exact (next_clean (CleanRel.incorporateToCluster_same h1)).1
  | noisy e p r =>
    obtain ⟨_, _, h⟩ := bind_ok.mp h
    obtain ⟨_, h1, h⟩ := bind_ok.mp h
    cases h
    exact (next_noisy (NoisyRel.incorporateToCluster_same h1)).1

theorem unincorporateFromCluster_next {σ : Doms} {r r' : Rel F} {items : Items} (h : r.unincorporateFromCluster σ items = .ok r') : Next r r' := by
  cases r with
  | clean c r =>
    obtain ⟨_, h1, h⟩ := bind_ok.mp h
    cases h
    exact (next_clean (CleanRel.unincorporateFromCluster_same h1).1).1
  | noisy e p r =>
    obtain ⟨_, h1, h⟩ := bind_ok.mp h
    cases h
    exact (next_noisy (NoisyRel.unincorporateFromCluster_same h1).1).1

theorem updateValue_next {σ : Doms} {b : Option (BaseView V)} {r r' : Rel F} {items : Items} {v : V}
    (h : r.updateValue σ b items v = .ok r') : Next r r' := by
  cases r with
  | clean c r =>
    obtain ⟨_, h1, h⟩ := bind_ok.mp h
    cases h
    obtain ⟨a1, a2, a3, a4⟩ := CleanRel.updateValue_idx h1
    exact ⟨a1, fun hr => CleanRel.Indexed.congr hr a1 a4 a3⟩
  | noisy e p r =>
    obtain ⟨_, _, h⟩ := bind_ok.mp h
    obtain ⟨_, h1, h⟩ := bind_ok.mp h
    cases h
    obtain ⟨a1, a2⟩ := NoisyRel.updateValue_idx h1
    exact ⟨a1, a2⟩

end Rel
end
end Verif
