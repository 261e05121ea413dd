import Verif.Model.GenDBMove
import Verif.Lemmas.GenDBLoad
import Verif.Lemmas.GenDBSame
import Verif.Lemmas.CRPGibbs
/-!
What the transitions of references do to the entities of a `GenDB`.
-/
namespace Verif
open Spec

theorem CRP.occupied {c : CRP} (hc : c.WF) {t : Int} : occupancy c.seating t = 0 ↔ c.tables.find? t = none := by
  cases h : c.tables.find? t with
  | none => simp [CRP.occupancy_none hc h]
  | some s => simp [← CRP.size_eq_occupancy hc h, (CRP.size_pos hc h).ne']

theorem CRP.unincorporate_seating {c c' : CRP} (hc : c.WF) {i t : Int} (hi : c.assignments.find? i = some t) (h : c.unincorporate i = .ok c') :
    c'.WF ∧ c'.assignments = c.assignments.erase i ∧ c'.seating = without c.seating i ∧ c'.alpha = c.alpha := by
  obtain ⟨s, hs, _⟩ := CRP.mem_table hc hi
  rw [CRP.unincorporate_eq hi hs] at h
  cases h
  refine ⟨hc.uninState hi hs, rfl, ?_, rfl⟩
  funext j
  simp only [CRP.seating, without, CRP.uninState, FMap.find?_erase]

namespace GenDB
open PClean
noncomputable section
variable {V : Type} {F : Family V}

theorem singleOf_all {crp : CRP} {init : Int} {ks : List Int} (h : ∀ k ∈ ks, crp.tables.contains k = true) : DB.singleOf crp init ks = init := by
  unfold DB.singleOf
  induction ks with
  | nil => rfl
  | cons k ks ih =>
    rw [List.foldl_cons, if_pos (h k (List.mem_cons_self ..))]
    exact ih (fun k hk => h k (List.mem_cons_of_mem _ hk))

theorem singleOf_one {crp : CRP} {new : Int} (hn : crp.tables.contains new = false) : ∀ {ks : List Int} {init : Int},
    (∀ k ∈ ks, k = new ∨ crp.tables.contains k = true) → (new ∈ ks ∨ init = new) → DB.singleOf crp init ks = new := by
  intro ks
  unfold DB.singleOf
  induction ks with
  | nil => intro init _ h; simpa using h
  | cons k ks ih =>
    intro init hk h
    rw [List.foldl_cons]
    refine ih (fun k' hk' => hk k' (List.mem_cons_of_mem _ hk')) ?_
    rcases hk k (List.mem_cons_self ..) with rfl | h'
    · rw [hn]
      exact Or.inr rfl
    · rw [if_pos h']
      rcases h with h | h
      · rcases List.mem_cons.mp h with rfl | h
        · rw [hn] at h'; cases h'
        · exact Or.inl h
      · exact Or.inr h

/-- The candidates for a customer: the tables of the others and one new table, which is the customer's own if there is nobody else. -/
theorem gibbs_single {c c' : CRP} (hc : c.WF) {i t : Int} (hi : c.assignments.find? i = some t) (h : c.unincorporate i = .ok c') {w : FMap Int ℝ}
    (hw : c.tablesWeightsGibbs t = .ok w) :
    c'.tables.find? (DB.singleOf c t w.keys) = none ∧ (∀ u, u ∈ w.keys ↔ u = DB.singleOf c t w.keys ∨ c'.tables.contains u = true) ∧
      (DB.singleOf c t w.keys = t ∨ c.tables.find? (DB.singleOf c t w.keys) = none) := by
  obtain ⟨w', e1, new, h1, h2, h3, _⟩ := CRP.tablesWeightsGibbs_spec hc (i := i) hi
  rw [hw] at e1
  cases e1
  obtain ⟨g1, _, g3, _⟩ := CRP.unincorporate_seating hc hi h
  rw [← g3] at h1 h2 h3
  have hk : ∀ u, u ∈ w.keys ↔ u = new ∨ c'.tables.contains u = true := by
    intro u
    rw [FMap.mem_keys, h3 u]
    by_cases hu : u = new
    · simp [hu]
    · rw [if_neg hu]
      cases hx : c'.tables.find? u with
      | none =>
        rw [if_pos ((CRP.occupied g1).mpr hx)]
        simp [hu, FMap.contains_false.mpr hx]
      | some s =>
        rw [if_neg (fun h => by rw [(CRP.occupied g1).mp h] at hx; cases hx)]
        simp [FMap.contains_iff.mpr ⟨s, hx⟩]
  have hsub : ∀ u, c'.tables.contains u = true → c.tables.contains u = true := by
    intro u hu
    obtain ⟨s, hs⟩ := FMap.contains_iff.mp hu
    obtain ⟨j, hj⟩ := g1.nonempty u s hs
    have hj := (g1.mem j u).mpr ⟨s, hs, hj⟩
    have : c'.seating j = some u := hj
    rw [g3] at this
    unfold without at this
    split at this
    · cases this
    · obtain ⟨s', hs', _⟩ := (hc.mem j u).mp this
      exact FMap.contains_iff.mpr ⟨s', hs'⟩
  have hsingle : DB.singleOf c t w.keys = new := by
    cases hn : c.tables.contains new with
    | false =>
      refine singleOf_one hn ?_ (Or.inl ((hk new).mpr (Or.inl rfl)))
      intro k hk'
      exact ((hk k).mp hk').imp id (hsub k)
    | true =>
      have : new = t := by
        obtain ⟨s, hs⟩ := FMap.contains_iff.mp hn
        obtain ⟨j, hj⟩ := hc.nonempty new s hs
        have hj := (hc.mem j new).mpr ⟨s, hs, hj⟩
        by_cases hji : j = i
        · subst hji
          rw [hi] at hj
          cases hj
          rfl
        · have h4 : c'.seating j = some new := by
            rw [g3]
            unfold without
            rw [if_neg hji]
            exact hj
          obtain ⟨s', hs', _⟩ := (g1.mem j new).mp h4
          rw [(CRP.occupied g1).mp h1] at hs'
          cases hs'
      subst this
      refine singleOf_all ?_
      intro k hk'
      rcases (hk k).mp hk' with rfl | h
      · exact hn
      · exact hsub k h
  rw [hsingle]
  refine ⟨(CRP.occupied g1).mp h1, hk, ?_⟩
  by_cases hnt : new = t
  · exact Or.inl hnt
  · right
    cases hx : c.tables.find? new with
    | none => rfl
    | some s =>
      exfalso
      obtain ⟨j, hj⟩ := hc.nonempty new s hx
      have hj := (hc.mem j new).mpr ⟨s, hx, hj⟩
      have hji : j ≠ i := by
        rintro rfl
        rw [hi] at hj
        cases hj
        exact hnt rfl
      have h4 : c'.seating j = some new := by
        rw [g3]
        unfold without
        rw [if_neg hji]
        exact hj
      obtain ⟨s', hs', _⟩ := (g1.mem j new).mp h4
      rw [(CRP.occupied g1).mp h1] at hs'
      cases hs'

/-! ### A reference that is out of its entity CRP -/

/-- The entities without a reference. -/
def withoutRef (e : Ents) (c f : String) (i : Int) : Ents :=
  match e.refs.find? c with
  | none => e
  | some m => { e with refs := e.refs.set c (m.erase (f, i)) }

theorem withoutRef_crps (e : Ents) (c f : String) (i : Int) : (withoutRef e c f i).crps = e.crps := by
  unfold withoutRef
  split <;> rfl

theorem withoutRef_hasRef {e : Ents} {c f : String} {i : Int} (c' f' : String) (i' w : Int) :
    HasRef (withoutRef e c f i) c' f' i' w ↔ ¬ (c' = c ∧ f' = f ∧ i' = i) ∧ HasRef e c' f' i' w := by
  unfold withoutRef HasRef
  cases h : e.refs.find? c with
  | none =>
    simp only
    constructor
    · rintro ⟨m, h1, h2⟩
      refine ⟨?_, m, h1, h2⟩
      rintro ⟨rfl, _⟩
      rw [h] at h1
      cases h1
    · exact And.right
  | some m =>
    simp only [FMap.find?_set]
    by_cases hc : c' = c
    · subst hc
      simp only [if_true, h, Option.some.injEq, exists_eq_left', FMap.find?_erase, Prod.mk.injEq, true_and]
      by_cases hk : f' = f ∧ i' = i
      · simp [hk]
      · simp [hk]
    · simp [hc]

theorem withoutRef_cls (e : Ents) (c f : String) (i : Int) (c' : String) : (∃ m, (withoutRef e c f i).refs.find? c' = some m) ↔ ∃ m, e.refs.find? c' = some m := by
  unfold withoutRef
  cases h : e.refs.find? c with
  | none => rfl
  | some m =>
    simp only [FMap.find?_set]
    by_cases hc : c' = c
    · subst hc; simp [h]
    · simp [hc]

variable {s : PClean.Schema} {hash : String → Int}

/-- The reference `c.f` of the entity `i` has a value, but is not a customer of the entity CRP; the rest is in agreement. -/
structure Loose (s : PClean.Schema) (hash : String → Int) (c f : String) (i : Int) (d : String) (e : Ents) : Prop where
  refers : Refers s c f d
  has : ∃ v, HasRef e c f i v
  ok : EntsOk s hash (withoutRef e c f i)
  free : ∃ crp, e.crps.find? d = some crp ∧ crp.assignments.find? (refId hash c f i) = none

theorem EntsOk.loosen {e : Ents} (he : EntsOk s hash e) {c f : String} {i v : Int} {d : String} (hr : Refers s c f d) (hv : HasRef e c f i v) {crp crp' : CRP}
    (hd : e.crps.find? d = some crp) (hu : crp.unincorporate (refId hash c f i) = .ok crp') : Loose s hash c f i d { e with crps := e.crps.set d crp' } := by
  have hi := (he.agree d crp _ v hd).mpr ⟨c, f, i, hr, hv, rfl⟩
  obtain ⟨g1, g2, _, _⟩ := CRP.unincorporate_seating (he.wf d crp hd) hi hu
  have href : ∀ c' f' i' w, HasRef { e with crps := e.crps.set d crp' } c' f' i' w ↔ HasRef e c' f' i' w := fun _ _ _ _ => Iff.rfl
  refine ⟨hr, ⟨v, hv⟩, ⟨?_, ?_, ?_, ?_, ?_⟩, crp', by simp, by rw [g2]; simp⟩
  · intro c' cl hc'
    obtain ⟨h1, crp₁, h2⟩ := he.cls c' cl hc'
    refine ⟨(withoutRef_cls _ _ _ _ _).mpr h1, ?_⟩
    rw [withoutRef_crps]
    simp only [FMap.find?_set]
    split
    · exact ⟨_, rfl⟩
    · exact ⟨_, h2⟩
  · intro c' f' i' w hw
    rw [withoutRef_hasRef, href] at hw
    exact he.typed _ _ _ _ hw.2
  · intro d' crp₁ hd'
    rw [withoutRef_crps] at hd'
    simp only [FMap.find?_set] at hd'
    split at hd'
    · cases hd'; exact g1
    · exact he.wf _ _ hd'
  · intro d' crp₁ k w hd'
    rw [withoutRef_crps] at hd'
    simp only [FMap.find?_set] at hd'
    split at hd'
    · rename_i hdd
      subst hdd
      cases hd'
      rw [g2, FMap.find?_erase]
      by_cases hk : k = refId hash c f i
      · subst hk
        simp only [if_true]
        constructor
        · intro h; cases h
        · rintro ⟨c', f', i', a1, a2, a3⟩
          rw [withoutRef_hasRef, href] at a2
          obtain ⟨rfl, rfl, rfl⟩ := he.inj _ _ _ _ _ _ _ _ _ a1 hr a2.2 hv a3
          exact absurd ⟨rfl, rfl, rfl⟩ a2.1
      · rw [if_neg hk, he.agree d' crp k w hd]
        constructor
        · rintro ⟨c', f', i', a1, a2, a3⟩
          refine ⟨c', f', i', a1, ?_, a3⟩
          rw [withoutRef_hasRef, href]
          refine ⟨?_, a2⟩
          rintro ⟨rfl, rfl, rfl⟩
          exact hk a3.symm
        · rintro ⟨c', f', i', a1, a2, a3⟩
          rw [withoutRef_hasRef, href] at a2
          exact ⟨c', f', i', a1, a2.2, a3⟩
    · rename_i hdd
      rw [he.agree d' crp₁ k w hd']
      constructor
      · rintro ⟨c', f', i', a1, a2, a3⟩
        refine ⟨c', f', i', a1, ?_, a3⟩
        rw [withoutRef_hasRef, href]
        refine ⟨?_, a2⟩
        rintro ⟨rfl, rfl, rfl⟩
        exact hdd (refers_fun a1 hr)
      · rintro ⟨c', f', i', a1, a2, a3⟩
        rw [withoutRef_hasRef, href] at a2
        exact ⟨c', f', i', a1, a2.2, a3⟩
  · intro c₁ f₁ i₁ v₁ c₂ f₂ i₂ v₂ d' r1 r2 q1 q2 hid
    rw [withoutRef_hasRef, href] at q1 q2
    exact he.inj _ _ _ _ _ _ _ _ _ r1 r2 q1.2 q2.2 hid

theorem setRef_ok {e e' : Ents} {c f : String} {i v : Int} (h : setRef e c f i v = .ok e') :
    ∃ m, e.refs.find? c = some m ∧ (∃ w, m.find? (f, i) = some w) ∧ e' = { e with refs := e.refs.set c (m.set (f, i) v) } := by
  unfold setRef at h
  simp only [bind_ok] at h
  obtain ⟨m, h1, w, h2, h3⟩ := h
  cases h3
  exact ⟨m, FMap.atKey_ok.mp h1, ⟨w, FMap.atKey_ok.mp h2⟩, rfl⟩

theorem setRef_hasRef {e e' : Ents} {c f : String} {i v : Int} (h : setRef e c f i v = .ok e') (c' f' : String) (i' w : Int) :
    HasRef e' c' f' i' w ↔ if c' = c ∧ f' = f ∧ i' = i then w = v else HasRef e c' f' i' w := by
  obtain ⟨m, h1, _, rfl⟩ := setRef_ok h
  unfold HasRef
  simp only [FMap.find?_set]
  by_cases hc : c' = c
  · subst hc
    simp only [if_true, true_and, Option.some.injEq, exists_eq_left', FMap.find?_set, Prod.mk.injEq]
    by_cases hk : f' = f ∧ i' = i
    · simp only [hk, and_self, if_true]
      simp [eq_comm]
    · simp only [hk, if_false, h1, Option.some.injEq, exists_eq_left']
  · simp [hc]

theorem setRef_without {e e' : Ents} {c f : String} {i v : Int} (h : setRef e c f i v = .ok e') :
    withoutRef e' c f i = withoutRef e c f i ∧ e'.crps = e.crps ∧ HasRef e' c f i v := by
  have hh := setRef_hasRef h c f i v
  obtain ⟨m, h1, _, rfl⟩ := setRef_ok h
  refine ⟨?_, rfl, hh.mpr (by simp)⟩
  unfold withoutRef
  simp only [FMap.find?_set_self, h1, FMap.set_set, FMap.erase_set]

theorem Loose.setRef {e e' : Ents} {c f : String} {i v : Int} {d : String} (h : Loose s hash c f i d e) (hs : GenDB.setRef e c f i v = .ok e') :
    Loose s hash c f i d e' := by
  obtain ⟨h1, h2, h3⟩ := setRef_without hs
  exact ⟨h.refers, ⟨v, h3⟩, by rw [h1]; exact h.ok, by rw [h2]; exact h.free⟩

/-- A new reference can be made in the same way without the loose one. -/
theorem addRef_without {e e' : Ents} {c f : String} {i : Int} {c' f' : String} {i' : Int} {d' : String} {v : Int} (hne : ¬ (c' = c ∧ f' = f ∧ i' = i))
    (h : GenDB.addRef hash c' f' i' d' v e = .ok e') : GenDB.addRef hash c' f' i' d' v (withoutRef e c f i) = .ok (withoutRef e' c f i) := by
  obtain ⟨m, crp, h1, h2, h3, rfl⟩ := addRef_ok h
  have hinc := CRP.incorporate_eq (t := v) h3
  unfold withoutRef
  cases hc : e.refs.find? c with
  | none =>
    have hcc : c ≠ c' := by rintro rfl; rw [hc] at h1; cases h1
    simp only [FMap.find?_set, if_neg hcc, hc]
    exact h
  | some m' =>
    by_cases hcc : c = c'
    · subst hcc
      rw [h1] at hc
      cases hc
      simp only [FMap.find?_set_self, GenDB.addRef]
      simp only [FMap.atKey_of_find (FMap.find?_set_self _ _ _), FMap.atKey_of_find h2, hinc, bind, Except.bind]
      simp only [FMap.set_set]
      congr 3
      apply FMap.ext
      intro k
      simp only [FMap.find?_set, FMap.find?_erase]
      by_cases hk : k = (f', i')
      · subst hk
        simp only [Prod.mk.injEq, if_true]
        rw [if_neg (fun h => hne ⟨rfl, h⟩)]
      · simp [hk]
    · simp only [FMap.find?_set, if_neg hcc, hc, GenDB.addRef]
      have h1' : (e.refs.set c (m'.erase (f, i))).find? c' = some m := by rw [FMap.find?_set, if_neg (Ne.symm hcc)]; exact h1
      simp only [FMap.atKey_of_find h1', FMap.atKey_of_find h2, hinc, bind, Except.bind]
      congr 2
      apply FMap.ext
      intro k
      simp only [FMap.find?_set]
      by_cases hk : k = c'
      · subst hk; simp [Ne.symm hcc]
      · simp [hk]

theorem Loose.addRef {e e' : Ents} {c f : String} {i : Int} {d : String} (h : Loose s hash c f i d e) {c' f' : String} {i' : Int} {d' : String} {v : Int}
    (hr : Refers s c' f' d') (hn : ∀ w, ¬ HasRef e c' f' i' w) (ha : GenDB.addRef hash c' f' i' d' v e = .ok e') (hfree : d' ≠ d) : Loose s hash c f i d e' := by
  have hne : ¬ (c' = c ∧ f' = f ∧ i' = i) := by
    rintro ⟨rfl, rfl, rfl⟩
    obtain ⟨w, hw⟩ := h.has
    exact hn w hw
  obtain ⟨w, hw⟩ := h.has
  refine ⟨h.refers, ⟨w, addRef_extends hn ha _ _ _ _ hw⟩, h.ok.addRef hr ?_ (addRef_without hne ha), ?_⟩
  · intro w hw
    rw [withoutRef_hasRef] at hw
    exact hn w hw.2
  · obtain ⟨crp, h1, h2⟩ := h.free
    obtain ⟨m, crp', _, _, _, rfl⟩ := addRef_ok ha
    refine ⟨crp, ?_, h2⟩
    rw [FMap.find?_set, if_neg (Ne.symm hfree)]
    exact h1

/-- The references of an entity of class `d` can be made while a reference to the class is loose. -/
theorem Loose.grow {r : String → Nat} (hrank : ∀ c f d, Refers s c f d → r d < r c) {e e' : Ents} {c f : String} {i : Int} {d : String} (h : Loose s hash c f i d e)
    {j : Int} (hg : Grow s hash (From s d j) e e') : Loose s hash c f i d e' ∧ e'.crps.find? d = e.crps.find? d := by
  induction hg with
  | refl => exact ⟨h, rfl⟩
  | step _ h1 h2 h3 h4 ih =>
    rename_i e₁ c' f' i' d' v _
    have hlt : r d' < r d := by
      have := hrank _ _ _ h1
      rcases Uses.rank hrank h3 with h | ⟨rfl, _⟩ <;> omega
    have hne : d' ≠ d := by rintro rfl; omega
    refine ⟨ih.1.addRef h1 h2 h4 hne, ?_⟩
    rw [← ih.2]
    obtain ⟨m, crp', _, _, _, rfl⟩ := addRef_ok h4
    show (FMap.set _ _ _).find? d = _
    rw [FMap.find?_set, if_neg (Ne.symm hne)]

theorem Loose.crp_find {e : Ents} {c f : String} {i : Int} {d : String} (h : Loose s hash c f i d e) : ∃ crp, e.crps.find? d = some crp := by
  obtain ⟨crp, h1, _⟩ := h.free
  exact ⟨crp, h1⟩

/-- gendb.cc:546-573 does nothing if the entity of the loose reference has no table. -/
theorem clearRefs_loose {e : Ents} {c f : String} {i v : Int} {d : String} (h : Loose s hash c f i d e) (hv : HasRef e c f i v) {crp : CRP}
    (hd : e.crps.find? d = some crp) (ht : crp.tables.find? v = none) {n : Nat} {out out' : EntOut} {lp : WithBot ℝ} {e' : Ents}
    (hc : clearRefs s hash n false c f i e out = .ok (lp, e', out')) : e' = e ∧ out' = out := by
  cases n with
  | zero => cases hc
  | succ n =>
    unfold clearRefs at hc
    obtain ⟨j, h1, hc⟩ := bind_ok.mp hc
    obtain ⟨d', h2, hc⟩ := bind_ok.mp hc
    have hj := HasRef.fun hv (getRef_ok.mp h1)
    subst hj
    have hd' := refers_fun h.refers (refTarget_ok.mp h2)
    subst hd'
    obtain ⟨⟨crp', e₁, out₁⟩, h3, hc⟩ := bind_ok.mp hc
    unfold clearOwn at h3
    obtain ⟨crp₂, h4, h3⟩ := bind_ok.mp h3
    rw [FMap.atKey_of_find hd] at h4
    cases h4
    cases h3
    dsimp only at hc
    rw [FMap.contains_false.mpr ht] at hc
    simp only [Bool.false_eq_true, if_false] at hc
    cases hc
    exact ⟨rfl, rfl⟩

/-- gendb.cc:841-862: the loose reference is seated at the table of its new value. -/
theorem settleEnts_loose {e e' : Ents} {c f : String} {i v : Int} {d : String} (h : Loose s hash c f i d e) (hs : DB.settleEnts s hash c f i v d ∅ e = .ok e') :
    EntsOk s hash e' ∧ ∀ c' f' i' w, HasRef e' c' f' i' w ↔ if c' = c ∧ f' = f ∧ i' = i then w = v else HasRef e c' f' i' w := by
  unfold DB.settleEnts at hs
  obtain ⟨e₁, h1, hs⟩ := bind_ok.mp hs
  obtain ⟨crp, h2, hs⟩ := bind_ok.mp hs
  have h3 : DB.settleNew s hash crp v ∅ e₁ = .ok e₁ := by
    unfold DB.settleNew
    split <;> rfl
  obtain ⟨e₂, h3', hs⟩ := bind_ok.mp hs
  rw [h3] at h3'
  cases h3'
  obtain ⟨crp', h4, hs⟩ := bind_ok.mp hs
  obtain ⟨crp'', h5, hs⟩ := bind_ok.mp hs
  cases hs
  obtain ⟨w1, w2, w3⟩ := setRef_without h1
  have hl := h.setRef h1
  obtain ⟨m, m1, m2, rfl⟩ := setRef_ok h1
  have hadd : GenDB.addRef hash c f i d v (withoutRef e c f i) = .ok ⟨e.refs.set c (m.set (f, i) v), e.crps.set d crp''⟩ := by
    unfold GenDB.addRef withoutRef
    simp only [m1, FMap.atKey_of_find (FMap.find?_set_self _ _ _), h4, h5, bind, Except.bind, FMap.set_set, FMap.set_erase]
  have hn : ∀ w, ¬ HasRef (withoutRef e c f i) c f i w := by
    intro w hw
    rw [withoutRef_hasRef] at hw
    exact hw.1 ⟨rfl, rfl, rfl⟩
  refine ⟨h.ok.addRef h.refers hn hadd, ?_⟩
  intro c' f' i' w
  show HasRef { refs := _, crps := _ } _ _ _ _ ↔ _
  rw [addRef_hasRef hadd, withoutRef_hasRef]
  split <;> simp_all

end
end GenDB
end Verif
