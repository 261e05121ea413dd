import Verif.Spec.GenDB
import Verif.Lemmas.CRP
import Verif.Lemmas.GenDBBuild
import Verif.Lemmas.GenDBRefs
/-!
Lemmas about the references of a `GenDB`.
-/
namespace Verif
namespace GenDB
open PClean

theorem refers_fun {s : PClean.Schema} {c f d d' : String} (h : Refers s c f d) (h' : Refers s c f d') : d = d' := by
  obtain ⟨cl, v, h1, h2, h3⟩ := refers_var h
  obtain ⟨cl', v', h1', h2', h3'⟩ := refers_var h'
  rw [h1] at h1'
  cases h1'
  rw [h2] at h2'
  cases h2'
  rw [h3] at h3'
  cases h3'
  rfl

theorem HasRef.fun {e : Ents} {c f : String} {i v v' : Int} (h : HasRef e c f i v) (h' : HasRef e c f i v') : v = v' := by
  obtain ⟨m, h1, h2⟩ := h
  obtain ⟨m', h1', h2'⟩ := h'
  rw [h1] at h1'
  cases h1'
  rw [h2] at h2'
  cases h2'
  rfl

theorem Extends.refl (e : Ents) : Extends e e := fun _ _ _ _ h => h
theorem Extends.trans {a b c : Ents} (h : Extends a b) (h' : Extends b c) : Extends a c := fun _ _ _ _ x => h' _ _ _ _ (h _ _ _ _ x)

theorem Uses.mono {s : PClean.Schema} {e e' : Ents} (h : Extends e e') {c d : String} {i v : Int} (u : Uses s e c i d v) : Uses s e' c i d v := by
  induction u with
  | self => exact .self
  | step _ h2 h3 ih => exact .step ih h2 (h _ _ _ _ h3)

theorem Uses.trans {s : PClean.Schema} {e : Ents} {c d d' : String} {i v v' : Int} (u : Uses s e c i d v) (w : Uses s e d v d' v') : Uses s e c i d' v' := by
  induction w with
  | self => exact u
  | step _ h2 h3 ih => exact .step ih h2 h3

/-- An entity that is reached is the first one or is referenced. -/
theorem Uses.referenced {s : PClean.Schema} {e : Ents} {c d : String} {i v : Int} (u : Uses s e c i d v) : (d = c ∧ v = i) ∨ Referenced s e d v := by
  cases u with
  | self => exact Or.inl ⟨rfl, rfl⟩
  | step _ h2 h3 => exact Or.inr ⟨_, _, _, h2, h3⟩

theorem getRef_ok {e : Ents} {c f : String} {i v : Int} : getRef e c f i = .ok v ↔ HasRef e c f i v := by
  unfold getRef HasRef
  rw [bind_ok]
  constructor
  · rintro ⟨m, h1, h2⟩
    exact ⟨m, FMap.atKey_ok.mp h1, FMap.atKey_ok.mp h2⟩
  · rintro ⟨m, h1, h2⟩
    exact ⟨m, FMap.atKey_ok.mpr h1, FMap.atKey_ok.mpr h2⟩

theorem new_table {c : CRP} (hc : c.WF) : c.tables.find? (c.maxTable + 1) = none := by
  by_cases hN : c.N = 0
  · rw [(CRP.tables_empty_iff hc).mp hN]
    rfl
  · exact CRP.new_not_mem hc hN

/-- The table of a reference. -/
theorem EntsOk.table {s : PClean.Schema} {hash : String → Int} {e : Ents} (h : EntsOk s hash e) {d : String} {crp : CRP} (hd : e.crps.find? d = some crp)
    {v : Int} : (∃ x, crp.tables.find? v = some x) ↔ Referenced s e d v := by
  have hw := h.wf d crp hd
  constructor
  · rintro ⟨x, hx⟩
    obtain ⟨k, hk⟩ := hw.nonempty v x hx
    have := (hw.mem k v).mpr ⟨x, hx, hk⟩
    obtain ⟨c, f, i, h1, h2, _⟩ := (h.agree d crp k v hd).mp this
    exact ⟨c, f, i, h1, h2⟩
  · rintro ⟨c, f, i, h1, h2⟩
    have := (h.agree d crp _ v hd).mpr ⟨c, f, i, h1, h2, rfl⟩
    obtain ⟨x, hx, _⟩ := (hw.mem _ v).mp this
    exact ⟨x, hx⟩

/-- What `addRef` does. -/
theorem addRef_ok {hash : String → Int} {c f : String} {i : Int} {d : String} {v : Int} {e e' : Ents} (h : addRef hash c f i d v e = .ok e') :
    ∃ m crp, e.refs.find? c = some m ∧ e.crps.find? d = some crp ∧ crp.assignments.find? (refId hash c f i) = none ∧
      e' = ⟨e.refs.set c (m.set (f, i) v), e.crps.set d (crp.incState (refId hash c f i) v)⟩ := by
  unfold addRef at h
  simp only [bind_ok] at h
  obtain ⟨m, h1, crp, h2, crp', h3, h4⟩ := h
  refine ⟨m, crp, FMap.atKey_ok.mp h1, FMap.atKey_ok.mp h2, ?_, ?_⟩
  · cases hx : crp.assignments.find? (refId hash c f i) with
    | none => rfl
    | some t => rw [CRP.incorporate_of_mem hx] at h3; cases h3
  · cases hx : crp.assignments.find? (refId hash c f i) with
    | none =>
      rw [CRP.incorporate_eq hx] at h3
      cases h3
      cases h4
      rfl
    | some t => rw [CRP.incorporate_of_mem hx] at h3; cases h3

theorem addRef_hasRef {hash : String → Int} {c f : String} {i : Int} {d : String} {v : Int} {e e' : Ents} (h : addRef hash c f i d v e = .ok e')
    (c' f' : String) (i' w : Int) : HasRef e' c' f' i' w ↔ if c' = c ∧ f' = f ∧ i' = i then w = v else HasRef e c' f' i' w := by
  obtain ⟨m, crp, h1, h2, h3, rfl⟩ := addRef_ok h
  unfold HasRef
  simp only [FMap.find?_set]
  by_cases hc : c' = c
  · subst hc
    simp only [if_true, true_and, Option.some.injEq, exists_eq_left', FMap.find?_set, Prod.mk.injEq]
    by_cases hk : f' = f ∧ i' = i
    · simp only [hk, and_self, if_true]
      simp [eq_comm]
    · simp only [hk, if_false, h1, Option.some.injEq, exists_eq_left']
  · simp [hc]

/-- A new reference keeps the references and the CRPs in agreement. -/
theorem EntsOk.addRef {s : PClean.Schema} {hash : String → Int} {e e' : Ents} (he : EntsOk s hash e) {c f : String} {i : Int} {d : String} {v : Int}
    (hr : Refers s c f d) (hn : ∀ w, ¬ HasRef e c f i w) (h : GenDB.addRef hash c f i d v e = .ok e') : EntsOk s hash e' := by
  have href := addRef_hasRef h
  have hmono : ∀ c' f' i' w, HasRef e c' f' i' w → HasRef e' c' f' i' w := by
    intro c' f' i' w hw
    rw [href, if_neg]
    · exact hw
    · rintro ⟨rfl, rfl, rfl⟩
      exact hn w hw
  obtain ⟨m, crp, h1, h2, h3, rfl⟩ := addRef_ok h
  refine ⟨?_, ?_, ?_, ?_, ?_⟩
  · intro c' cl hc'
    obtain ⟨⟨m', hm'⟩, crp', hcrp'⟩ := he.cls c' cl hc'
    simp only [FMap.find?_set]
    exact ⟨by split <;> simp_all, by split <;> simp_all⟩
  · intro c' f' i' w hw
    rw [href] at hw
    split at hw
    · rename_i hk
      obtain ⟨rfl, rfl, rfl⟩ := hk
      exact ⟨d, hr⟩
    · exact he.typed _ _ _ _ hw
  · intro d' crp' hd'
    simp only [FMap.find?_set] at hd'
    split at hd'
    · cases hd'
      exact (he.wf d crp h2).incState h3 v
    · exact he.wf d' crp' hd'
  · intro d' crp' k w hd'
    simp only [FMap.find?_set] at hd'
    split at hd'
    · rename_i hdd
      subst hdd
      cases hd'
      rw [show (crp.incState (refId hash c f i) v).assignments = crp.assignments.set (refId hash c f i) v from rfl, FMap.find?_set]
      by_cases hk : k = refId hash c f i
      · subst hk
        simp only [if_true, Option.some.injEq]
        constructor
        · rintro rfl
          exact ⟨c, f, i, hr, (href c f i v).mpr (by simp), rfl⟩
        · rintro ⟨c', f', i', a1, a2, a3⟩
          rw [href] at a2
          split at a2
          · exact a2.symm
          · exact absurd ((he.agree d' crp _ w h2).mpr ⟨c', f', i', a1, a2, a3⟩) (by rw [h3]; simp)
      · simp only [hk, if_false]
        rw [he.agree d' crp k w h2]
        constructor
        · rintro ⟨c', f', i', a1, a2, a3⟩
          exact ⟨c', f', i', a1, hmono _ _ _ _ a2, a3⟩
        · rintro ⟨c', f', i', a1, a2, a3⟩
          rw [href] at a2
          split at a2
          · rename_i hh
            obtain ⟨rfl, rfl, rfl⟩ := hh
            exact absurd a3.symm hk
          · exact ⟨c', f', i', a1, a2, a3⟩
    · rename_i hdd
      rw [he.agree d' crp' k w hd']
      constructor
      · rintro ⟨c', f', i', a1, a2, a3⟩
        exact ⟨c', f', i', a1, hmono _ _ _ _ a2, a3⟩
      · rintro ⟨c', f', i', a1, a2, a3⟩
        rw [href] at a2
        split at a2
        · rename_i hh
          obtain ⟨rfl, rfl, rfl⟩ := hh
          exact absurd (refers_fun a1 hr) hdd
        · exact ⟨c', f', i', a1, a2, a3⟩
  · intro c₁ f₁ i₁ v₁ c₂ f₂ i₂ v₂ d' r1 r2 q1 q2 hid
    rw [href] at q1 q2
    have noclash : ∀ c' f' i' w, Refers s c' f' d → HasRef e c' f' i' w → refId hash c' f' i' ≠ refId hash c f i := by
      intro c' f' i' w a1 a2 a3
      have := (he.agree d crp _ w h2).mpr ⟨c', f', i', a1, a2, a3⟩
      rw [h3] at this
      cases this
    split at q1
    · rename_i k1
      obtain ⟨rfl, rfl, rfl⟩ := k1
      have hd := refers_fun hr r1
      subst hd
      split at q2
      · rename_i k2
        obtain ⟨rfl, rfl, rfl⟩ := k2
        exact ⟨rfl, rfl, rfl⟩
      · exact absurd hid.symm (noclash _ _ _ _ r2 q2)
    · split at q2
      · rename_i k2
        obtain ⟨rfl, rfl, rfl⟩ := k2
        have hd := refers_fun hr r2
        subst hd
        exact absurd hid (noclash _ _ _ _ r1 q1)
      · exact he.inj _ _ _ _ _ _ _ _ _ r1 r2 q1 q2 hid

/-- A new reference is refused only if it has the same identifier as another reference to the class. -/
theorem addRef_defined {s : PClean.Schema} {hash : String → Int} {e : Ents} (he : EntsOk s hash e) {c f : String} (i : Int) {d : String} (v : Int)
    (hc : ∃ cl, s.classes.find? c = some cl) (hd : ∃ cl, s.classes.find? d = some cl) :
    (∃ e', GenDB.addRef hash c f i d v e = .ok e') ∨ GenDB.addRef hash c f i d v e = .error .assert ∧
      ∃ c' f' i' w, Refers s c' f' d ∧ HasRef e c' f' i' w ∧ refId hash c' f' i' = refId hash c f i := by
  obtain ⟨cl, hc⟩ := hc
  obtain ⟨cl', hd⟩ := hd
  obtain ⟨⟨m, hm⟩, _⟩ := he.cls c cl hc
  obtain ⟨_, crp, hcrp⟩ := he.cls d cl' hd
  cases hx : crp.assignments.find? (refId hash c f i) with
  | none =>
    left
    refine ⟨⟨e.refs.set c (m.set (f, i) v), e.crps.set d (crp.incState (refId hash c f i) v)⟩, ?_⟩
    simp only [GenDB.addRef, FMap.atKey_of_find hm, FMap.atKey_of_find hcrp, CRP.incorporate_eq hx, bind, Except.bind]
  | some w =>
    right
    refine ⟨by simp only [GenDB.addRef, FMap.atKey_of_find hm, FMap.atKey_of_find hcrp, CRP.incorporate_of_mem hx, bind, Except.bind], ?_⟩
    obtain ⟨c', f', i', a1, a2, a3⟩ := (he.agree d crp _ w hcrp).mp hx
    exact ⟨c', f', i', w, a1, a2, a3⟩

/-! ### Sequences of new references -/

/-- `Grow s hash P e e'`: some references are added one after the other, each of which meets `P`. -/
inductive Grow (s : PClean.Schema) (hash : String → Int) (P : Ents → String → String → Int → String → Int → Prop) : Ents → Ents → Prop
  | refl {e} : Grow s hash P e e
  | step {e e₁ e₂ c f i d v} : Grow s hash P e e₁ → Refers s c f d → (∀ w, ¬ HasRef e₁ c f i w) → P e₁ c f i d v →
      GenDB.addRef hash c f i d v e₁ = .ok e₂ → Grow s hash P e e₂

section
variable {s : PClean.Schema} {hash : String → Int} {P Q : Ents → String → String → Int → String → Int → Prop} {e e' e'' : Ents}

theorem Grow.single {c f : String} {i : Int} {d : String} {v : Int} (h1 : Refers s c f d) (h2 : ∀ w, ¬ HasRef e c f i w) (h3 : P e c f i d v)
    (h4 : GenDB.addRef hash c f i d v e = .ok e') : Grow s hash P e e' := .step .refl h1 h2 h3 h4

theorem Grow.trans (h : Grow s hash P e e') (h' : Grow s hash P e' e'') : Grow s hash P e e'' := by
  induction h' with
  | refl => exact h
  | step _ h1 h2 h3 h4 ih => exact .step ih h1 h2 h3 h4

theorem addRef_extends {c f : String} {i : Int} {d : String} {v : Int} (hn : ∀ w, ¬ HasRef e c f i w) (h : GenDB.addRef hash c f i d v e = .ok e') :
    Extends e e' := by
  intro c' f' i' w hw
  rw [addRef_hasRef h, if_neg]
  · exact hw
  · rintro ⟨rfl, rfl, rfl⟩
    exact hn w hw

theorem Grow.extends (h : Grow s hash P e e') : Extends e e' := by
  induction h with
  | refl => exact Extends.refl _
  | step _ _ h2 _ h4 ih => exact ih.trans (addRef_extends h2 h4)

theorem Grow.ok (h : Grow s hash P e e') (he : EntsOk s hash e) : EntsOk s hash e' := by
  induction h with
  | refl => exact he
  | step _ h1 h2 _ h4 ih => exact ih.addRef h1 h2 h4

theorem Grow.mono (h : Grow s hash P e e') (hPQ : ∀ e₁ c f i d v, Extends e e₁ → P e₁ c f i d v → Q e₁ c f i d v) : Grow s hash Q e e' := by
  induction h with
  | refl => exact .refl
  | step h0 h1 h2 h3 h4 ih => exact .step ih h1 h2 (hPQ _ _ _ _ _ _ h0.extends h3) h4

/-- The references of the entities that are reached from an entity are added. -/
def From (s : PClean.Schema) (c₀ : String) (i₀ : Int) (e : Ents) (c _f : String) (i : Int) (_d : String) (_v : Int) : Prop := Uses s e c₀ i₀ c i

/-- The references of the entities that are reached from an entity are added, and they lead to new entities. -/
def FromNew (s : PClean.Schema) (c₀ : String) (i₀ : Int) (e : Ents) (c f : String) (i : Int) (d : String) (v : Int) : Prop :=
  From s c₀ i₀ e c f i d v ∧ ∃ crp, e.crps.find? d = some crp ∧ v = crp.maxTable + 1

theorem From.root {c₀ c₁ : String} {i₀ i₁ : Int} {e₀ e : Ents} (hu : Uses s e₀ c₀ i₀ c₁ i₁) (hx : Extends e₀ e) {c f : String} {i : Int} {d : String} {v : Int}
    (h : From s c₁ i₁ e c f i d v) : From s c₀ i₀ e c f i d v := (hu.mono hx).trans h

theorem FromNew.root {c₀ c₁ : String} {i₀ i₁ : Int} {e₀ e : Ents} (hu : Uses s e₀ c₀ i₀ c₁ i₁) (hx : Extends e₀ e) {c f : String} {i : Int} {d : String}
    {v : Int} (h : FromNew s c₁ i₁ e c f i d v) : FromNew s c₀ i₀ e c f i d v := ⟨h.1.root hu hx, h.2⟩

theorem NoOrphans.addRef {rc : String} (ho : NoOrphans s rc e) {c f : String} {i : Int} {d : String} {v : Int} (hn : ∀ w, ¬ HasRef e c f i w)
    (hs : c = rc ∨ Referenced s e c i) (h : GenDB.addRef hash c f i d v e = .ok e') : NoOrphans s rc e' := by
  have hx := addRef_extends hn h
  have up : ∀ {c i}, Referenced s e c i → Referenced s e' c i := fun ⟨c, f, i, a, b⟩ => ⟨c, f, i, a, hx _ _ _ _ b⟩
  intro c' f' i' w hw
  rw [addRef_hasRef h] at hw
  split at hw
  · rename_i hk
    obtain ⟨rfl, rfl, rfl⟩ := hk
    exact hs.imp id up
  · exact (ho _ _ _ _ hw).imp id up

theorem Grow.noOrphans {rc c₀ : String} {i₀ : Int} (h : Grow s hash (From s c₀ i₀) e e') (hs : c₀ = rc ∨ Referenced s e c₀ i₀) (ho : NoOrphans s rc e) :
    NoOrphans s rc e' := by
  induction h with
  | refl => exact ho
  | step h0 h1 h2 h3 h4 ih =>
    refine ih.addRef h2 ?_ h4
    rcases Uses.referenced h3 with ⟨rfl, rfl⟩ | h
    · exact hs.imp id (fun ⟨c, f, i, a, b⟩ => ⟨c, f, i, a, h0.extends _ _ _ _ b⟩)
    · exact Or.inr h

theorem Unshared.addRef (he : EntsOk s hash e) (hu : Unshared s e) {c f : String} {i : Int} {d : String} {v : Int}
    (hr : Refers s c f d) (hv : ∃ crp, e.crps.find? d = some crp ∧ v = crp.maxTable + 1) (h : GenDB.addRef hash c f i d v e = .ok e') : Unshared s e' := by
  obtain ⟨crp, hd, rfl⟩ := hv
  have hno : ¬ Referenced s e d (crp.maxTable + 1) := by
    intro hx
    obtain ⟨x, hx⟩ := (he.table hd).mpr hx
    rw [new_table (he.wf d crp hd)] at hx
    cases hx
  intro c₁ f₁ i₁ c₂ f₂ i₂ d' w r1 r2 q1 q2
  rw [addRef_hasRef h] at q1 q2
  split at q1
  · rename_i k1
    obtain ⟨rfl, rfl, rfl⟩ := k1
    split at q2
    · rename_i k2
      obtain ⟨rfl, rfl, rfl⟩ := k2
      exact ⟨rfl, rfl, rfl⟩
    · exfalso
      have := refers_fun hr r1
      subst this q1
      exact hno ⟨_, _, _, r2, q2⟩
  · split at q2
    · rename_i k2
      obtain ⟨rfl, rfl, rfl⟩ := k2
      exfalso
      have := refers_fun hr r2
      subst this q2
      exact hno ⟨_, _, _, r1, q1⟩
    · exact hu _ _ _ _ _ _ _ _ r1 r2 q1 q2

theorem Grow.unshared {c₀ : String} {i₀ : Int} (h : Grow s hash (FromNew s c₀ i₀) e e') (he : EntsOk s hash e) (hu : Unshared s e) : Unshared s e' := by
  induction h with
  | refl => exact hu
  | step h0 h1 _ h3 h4 ih => exact Unshared.addRef (h0.ok he) ih h1 h3.2 h4

end

/-! ### The reference indices of a relation -/

/-- The relation has this reference index. -/
def RelEntry (relIdx : FMap String RefIdx) (rel : String) (i : Nat) (f : String) (j : Nat) : Prop := ∃ r, relIdx.find? rel = some r ∧ Entry r i f j

theorem relEntry_iff {relIdx : FMap String RefIdx} {rel : String} {i : Nat} {f : String} {j : Nat} :
    RelEntry relIdx rel i f j ↔ ∃ m, refsAt relIdx rel i = some m ∧ m.find? f = some j := by
  unfold RelEntry Entry refsAt
  cases h : relIdx.find? rel with
  | none => simp
  | some r => simp

/-- The indices are sound, and no position is referenced twice. -/
structure TreeIdx (s : PClean.Schema) (ds : List String) (E : Nat → String → Nat → Prop) : Prop where
  sound : ∀ i f j, E i f j → j < i ∧ ∃ x y, ds[i]? = some x ∧ ds[j]? = some y ∧ Refers s x f y
  one : ∀ i f i' f' j, E i f j → E i' f' j → i = i' ∧ f = f'

/-- `Reach e ds E a i b w`: from the entity `i` at position `a` the references lead to the entity `w` at position `b`. -/
inductive Reach (e : Ents) (ds : List String) (E : Nat → String → Nat → Prop) (a : Nat) (i : Int) : Nat → Int → Prop
  | self : Reach e ds E a i a i
  | step {b v f b' v' c} : Reach e ds E a i b v → E b f b' → ds[b]? = some c → HasRef e c f v v' → Reach e ds E a i b' v'

section
variable {s : PClean.Schema} {e e' : Ents} {ds : List String} {E : Nat → String → Nat → Prop} {a : Nat} {i : Int}

theorem Reach.mono (hx : Extends e e') {b : Nat} {w : Int} (h : Reach e ds E a i b w) : Reach e' ds E a i b w := by
  induction h with
  | self => exact .self
  | step _ h2 h3 h4 ih => exact .step ih h2 h3 (hx _ _ _ _ h4)

theorem Reach.trans {b : Nat} {w : Int} (h : Reach e ds E a i b w) {b' : Nat} {w' : Int} (h' : Reach e ds E b w b' w') : Reach e ds E a i b' w' := by
  induction h' with
  | self => exact h
  | step _ h2 h3 h4 ih => exact .step ih h2 h3 h4

theorem Reach.le (hE : TreeIdx s ds E) {b : Nat} {w : Int} (h : Reach e ds E a i b w) : b ≤ a := by
  induction h with
  | self => exact Nat.le_refl _
  | step _ h2 _ _ ih => exact Nat.le_of_lt (Nat.lt_of_lt_of_le (hE.sound _ _ _ h2).1 ih)

theorem Reach.fun (hE : TreeIdx s ds E) {b : Nat} {w : Int} (h : Reach e ds E a i b w) : ∀ {w'}, Reach e ds E a i b w' → w = w' := by
  induction h with
  | self =>
    intro w' h'
    cases h' with
    | self => rfl
    | step h1 h2 _ _ =>
      have := (hE.sound _ _ _ h2).1
      have := h1.le hE
      omega
  | step h1 h2 h3 h4 ih =>
    intro w' h'
    cases h' with
    | self =>
      have := (hE.sound _ _ _ h2).1
      have := h1.le hE
      omega
    | step k1 k2 k3 k4 =>
      obtain ⟨rfl, rfl⟩ := hE.one _ _ _ _ _ h2 k2
      rw [h3] at k3
      cases k3
      have := ih k1
      subst this
      exact h4.fun k4

theorem Reach.uses (hE : TreeIdx s ds E) {c : String} (hc : ds[a]? = some c) {b : Nat} {w : Int} (h : Reach e ds E a i b w) :
    ∃ d, ds[b]? = some d ∧ Uses s e c i d w := by
  induction h with
  | self => exact ⟨c, hc, .self⟩
  | step _ h2 h3 h4 ih =>
    obtain ⟨d, hd, hu⟩ := ih
    obtain ⟨_, x, y, hx, hy, hr⟩ := hE.sound _ _ _ h2
    rw [h3] at hd hx
    cases hd
    cases hx
    exact ⟨y, hy, .step hu hr h4⟩

end

/-- What the recursive functions leave in the items. -/
structure Filled (e : Ents) (ds : List String) (E : Nat → String → Nat → Prop) (a : Nat) (i : Int) (items items' : Items) : Prop where
  len : items'.length = items.length
  same : ∀ b, items'[b]? = items[b]? ∨ ∃ w, items'[b]? = some w ∧ Reach e ds E a i b w
  set : ∀ b w, Reach e ds E a i b w → items'[b]? = some w
  all : ∀ b v f b', Reach e ds E a i b v → E b f b' → ∃ c v', ds[b]? = some c ∧ HasRef e c f v v'

theorem setItem_ok {items items' : Items} {a : Nat} {i : Int} (h : setItem items a i = .ok items') : a < items.length ∧ items' = items.set a i := by
  unfold setItem at h
  split at h
  · cases h
    exact ⟨by assumption, rfl⟩
  · cases h

end GenDB
end Verif
