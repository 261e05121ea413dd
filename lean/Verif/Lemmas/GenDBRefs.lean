import Verif.Lemmas.GenDBSchema
/-!
Lemmas about the reference indices of classes.
-/
namespace Verif
namespace GenDB
open PClean

theorem foldl_shift_find (off : Nat) (l : List (String × Nat)) (hn : (l.map (·.1)).Nodup) (m : FMap String Nat) (f : String) :
    (l.foldl (fun m e => m.set e.1 (e.2 + off)) m).find? f = match FMap.lfind f l with
      | some j => some (j + off)
      | none => m.find? f := by
  induction l generalizing m with
  | nil => rfl
  | cons e l ih =>
    obtain ⟨k, j⟩ := e
    simp only [List.map_cons, List.nodup_cons] at hn
    simp only [List.foldl_cons]
    rw [ih hn.2]
    have hl : FMap.lfind f ((k, j) :: l) = if k = f then some j else FMap.lfind f l := rfl
    rw [hl]
    by_cases h : f = k
    · subst h
      have : FMap.lfind f l = none := FMap.lfind_none.mpr (fun e he h => hn.1 (List.mem_map.mpr ⟨e, he, h⟩))
      simp [this]
    · have hkf : k ≠ f := fun e => h e.symm
      simp [hkf, FMap.find?_set_ne _ h]

theorem shift_find (off : Nat) (ref : FMap String Nat) (m : FMap String Nat) (f : String) :
    (ref.entries.foldl (fun m e => m.set e.1 (e.2 + off)) m).find? f = match ref.find? f with
      | some j => some (j + off)
      | none => m.find? f :=
  foldl_shift_find off ref.entries ref.nodupKeys m f

theorem addInner_other {off : Nat} {l : List (Nat × FMap String Nat)} {child : FMap String Nat} {inner : RefIdx} {k : Nat}
    (h : ∀ e ∈ l, e.1 + off ≠ k) : (addInner off l child inner).find? k = inner.find? k := by
  induction l generalizing child inner with
  | nil => rfl
  | cons e l ih =>
    obtain ⟨i, r⟩ := e
    unfold addInner
    rw [ih (fun e he => h e (List.mem_cons_of_mem _ he))]
    exact FMap.find?_set_ne _ (fun e => h _ (List.mem_cons_self ..) e.symm) _

/-- what the shifted entry of a position holds -/
theorem addInner_mem {off : Nat} {l : List (Nat × FMap String Nat)} (hs : l.Pairwise (fun a b => a.1 < b.1)) {child : FMap String Nat} {inner : RefIdx}
    {i : Nat} {r : FMap String Nat} (hm : (i, r) ∈ l) :
    ∃ c', (addInner off l child inner).find? (i + off) = some c' ∧ (∀ f j, r.find? f = some j → c'.find? f = some (j + off)) ∧
      (∀ f j, c'.find? f = some j → child.find? f = some j ∨ ∃ i' r' j', (i', r') ∈ l ∧ r'.find? f = some j' ∧ j = j' + off) ∧
      (∀ f, (∃ j, child.find? f = some j) → ∃ j, c'.find? f = some j) ∧
      (∀ i' r' f j', (i', r') ∈ l → i' ≤ i → r'.find? f = some j' → ∃ j, c'.find? f = some j) := by
  induction l generalizing child inner with
  | nil => cases hm
  | cons e l ih =>
    obtain ⟨k, ref⟩ := e
    rw [List.pairwise_cons] at hs
    unfold addInner
    rcases List.mem_cons.mp hm with he | hm'
    · cases he
      refine ⟨r.entries.foldl (fun m e => m.set e.1 (e.2 + off)) child, ?_, ?_, ?_, ?_, ?_⟩
      · rw [addInner_other, FMap.find?_set_self]
        intro e he h
        have := hs.1 e he
        simp only at this
        omega
      · intro f j hf
        rw [shift_find, hf]
      · intro f j hf
        rw [shift_find] at hf
        split at hf
        · next j' hj' => exact Or.inr ⟨i, r, j', List.mem_cons_self .., hj', (Option.some.inj hf).symm⟩
        · exact Or.inl hf
      · rintro f ⟨j, hj⟩
        rw [shift_find]
        split
        · exact ⟨_, rfl⟩
        · exact ⟨j, hj⟩
      · intro i' r' f j' hm' hle hf
        rcases List.mem_cons.mp hm' with he | hm'
        · cases he
          rw [shift_find, hf]
          exact ⟨_, rfl⟩
        · have := hs.1 _ hm'
          simp only at this
          omega
    · obtain ⟨c', h1, h2, h3, h4, h5⟩ := ih hs.2 (child := ref.entries.foldl (fun m e => m.set e.1 (e.2 + off)) child)
        (inner := inner.set (k + off) (ref.entries.foldl (fun m e => m.set e.1 (e.2 + off)) child)) hm'
      refine ⟨c', h1, h2, ?_, ?_, ?_⟩
      · intro f j hf
        rcases h3 f j hf with h | ⟨i', r', j', ha, hb, hc⟩
        · rw [shift_find] at h
          split at h
          · next j' hj' => exact Or.inr ⟨k, ref, j', List.mem_cons_self .., hj', (Option.some.inj h).symm⟩
          · exact Or.inl h
        · exact Or.inr ⟨i', r', j', List.mem_cons_of_mem _ ha, hb, hc⟩
      · rintro f ⟨j, hj⟩
        refine h4 f ?_
        rw [shift_find]
        split
        · exact ⟨_, rfl⟩
        · exact ⟨j, hj⟩
      · intro i' r' f j' hm'' hle hf
        rcases List.mem_cons.mp hm'' with he | hm''
        · cases he
          refine h4 f ?_
          rw [shift_find, hf]
          exact ⟨_, rfl⟩
        · exact h5 i' r' f j' hm'' hle hf

theorem idx_sorted (m : RefIdx) : m.entries.Pairwise (fun a b => a.1 < b.1) := by
  have := m.sorted
  refine this.imp ?_
  intro a b h
  simpa [Key.lt] using h

/-- the field `f` to `d` is in the list, and the fields before it take up the positions below `o` -/
def FieldAt (s : PClean.Schema) (fs : List (String × String)) (o : Nat) (f d : String) : Prop :=
  ∃ pre post es, fs = pre ++ (f, d) :: post ∧ Sublayouts s pre es ∧ o = es.length

theorem FieldAt.mem {s : PClean.Schema} {fs o f d} (h : FieldAt s fs o f d) : (f, d) ∈ fs := by
  obtain ⟨pre, post, es, rfl, _, _⟩ := h
  simp

theorem FieldAt.append {s : PClean.Schema} {fs o f d} (h : FieldAt s fs o f d) (gs) : FieldAt s (fs ++ gs) o f d := by
  obtain ⟨pre, post, es, rfl, h1, h2⟩ := h
  exact ⟨pre, post ++ gs, es, by simp, h1, h2⟩

theorem fieldAt_snoc {s : PClean.Schema} {fs o f d g x} {es : List String} (hs : Sublayouts s fs es) :
    FieldAt s (fs ++ [(g, x)]) o f d ↔ FieldAt s fs o f d ∨ (o = es.length ∧ f = g ∧ d = x) := by
  constructor
  · rintro ⟨pre, post, es', h1, h2, h3⟩
    rcases List.eq_nil_or_concat post with rfl | ⟨post', e, rfl⟩
    · have := List.append_inj' (h1 : fs ++ [(g, x)] = pre ++ [(f, d)]) rfl
      cases this.2
      cases this.1
      right
      exact ⟨by rw [h3, h2.unique hs], rfl, rfl⟩
    · left
      have h1' : fs ++ [(g, x)] = (pre ++ (f, d) :: post') ++ [e] := by simpa using h1
      exact ⟨pre, post', es', (List.append_inj' h1' rfl).1, h2, h3⟩
  · rintro (h | ⟨rfl, rfl, rfl⟩)
    · exact h.append _
    · exact ⟨fs, [], es, by simp, hs, rfl⟩

/-- the fields before one, and the referenced class, lie below the end -/
theorem FieldAt.bound {s : PClean.Schema} {fs o f d} (h : FieldAt s fs o f d) {es ds : List String} (hs : Sublayouts s fs es) (hd : Layout s d ds) :
    o + ds.length ≤ es.length := by
  obtain ⟨pre, post, e1, rfl, h1, rfl⟩ := h
  obtain ⟨a, b, rfl, ha, hb⟩ := hs.split
  rw [ha.unique h1]
  cases hb with
  | cons h2 h3 =>
    rw [layout_unique h2 hd]
    simp only [List.length_append]
    omega

theorem refAt_iff {s : PClean.Schema} {c : String} {cl : Class} {es : List String} (hc : s.classes.find? c = some cl)
    (hs : Sublayouts s (refFields cl) es) {i : Nat} {f : String} {j : Nat} :
    RefAt s c i f j ↔ (i = es.length ∧ ∃ o d ds, FieldAt s (refFields cl) o f d ∧ Layout s d ds ∧ j = o + ds.length - 1) ∨
      ∃ o g d i' j', FieldAt s (refFields cl) o g d ∧ RefAt s d i' f j' ∧ i = o + i' ∧ j = o + j' := by
  constructor
  · intro h
    cases h with
    | own hc' hf h1 h2 h3 =>
      rw [hc] at hc'
      cases hc'
      left
      refine ⟨?_, _, _, _, ⟨_, _, _, hf, h1, rfl⟩, h2, by simp⟩
      rw [hf] at hs
      have := h1.append (.cons (f := f) h2 h3)
      rw [hs.unique this]
      simp
    | inner hc' hf h1 h2 =>
      rw [hc] at hc'
      cases hc'
      exact Or.inr ⟨_, _, _, _, _, ⟨_, _, _, hf, h1, rfl⟩, h2, rfl, rfl⟩
  · rintro (⟨rfl, o, d, ds, ⟨pre, post, e1, hf, h1, rfl⟩, h2, rfl⟩ | ⟨o, g, d, i', j', ⟨pre, post, e1, hf, h1, rfl⟩, h2, rfl, rfl⟩)
    · rw [hf] at hs
      obtain ⟨a, b, rfl, ha, hb⟩ := hs.split
      cases hb with
      | cons h3 h4 =>
        have e := RefAt.own hc hf h1 h2 h4
        rw [ha.unique h1, layout_unique h3 h2]
        simpa [List.append_assoc, Nat.add_assoc] using e
    · exact .inner hc hf h1 h2

theorem Layout.sub {s : PClean.Schema} {c : String} {ds : List String} (h : Layout s c ds) :
    ∃ cl es, s.classes.find? c = some cl ∧ Sublayouts s (refFields cl) es ∧ ds = es ++ [c] := by
  cases h with
  | mk h1 h2 => exact ⟨_, _, h1, h2, rfl⟩

theorem FieldAt.layout {s : PClean.Schema} {fs o f d} (h : FieldAt s fs o f d) {es : List String} (hs : Sublayouts s fs es) : ∃ ds, Layout s d ds := by
  obtain ⟨es', h1, _⟩ := sublayouts_mem hs h.mem
  exact ⟨es', h1⟩

/-- the entity at position `i` of the layout has a field `f` to the class at position `j` -/
theorem refAt_spec {s : PClean.Schema} {c : String} {i : Nat} {f : String} {j : Nat} (h : RefAt s c i f j) :
    ∀ {ds}, Layout s c ds → ∃ x y, ds[i]? = some x ∧ ds[j]? = some y ∧ Refers s x f y ∧ j < i := by
  induction h with
  | @own c cl pre f d post e1 e2 e3 hc hf h1 h2 h3 =>
    intro ds hl
    obtain ⟨cl', es, hc', hs, rfl⟩ := hl.sub
    rw [hc] at hc'
    cases hc'
    rw [hf] at hs
    have he := hs.unique (h1.append (.cons (f := f) h2 h3))
    have hp := h2.length_pos
    have hlast := h2.last
    refine ⟨c, d, ?_, ?_, ⟨cl, hc, by rw [hf]; simp⟩, ?_⟩
    · rw [he]; simp
    · have e : (e1 ++ e2).length - 1 = e1.length + (e2.length - 1) := by simp; omega
      rw [he, e]
      rw [List.append_assoc, List.getElem?_append_right (by omega), List.append_assoc, List.getElem?_append_left (by omega)]
      simpa using hlast
    · simp; omega
  | @inner c cl pre f d post e1 i g j hc hf h1 h2 ih =>
    intro ds hl
    obtain ⟨cl', es, hc', hs, rfl⟩ := hl.sub
    rw [hc] at hc'
    cases hc'
    rw [hf] at hs
    obtain ⟨a, b, rfl, ha, hb⟩ := hs.split
    cases hb with
    | @cons _ _ _ e2 e3 h3 h4 =>
      obtain ⟨x, y, hx, hy, hr, hlt⟩ := ih h3
      have := ha.unique h1
      subst this
      have li : i < e2.length := (List.getElem?_eq_some_iff.mp hx).1
      have lj : j < e2.length := (List.getElem?_eq_some_iff.mp hy).1
      refine ⟨x, y, ?_, ?_, hr, by omega⟩
      · rw [List.append_assoc, List.getElem?_append_right (by omega), List.append_assoc, List.getElem?_append_left (by omega)]
        simpa using hx
      · rw [List.append_assoc, List.getElem?_append_right (by omega), List.append_assoc, List.getElem?_append_left (by omega)]
        simpa using hy

theorem refAt_lt {s : PClean.Schema} {c : String} {i : Nat} {f : String} {j : Nat} (h : RefAt s c i f j) {ds} (hd : Layout s c ds) : i < ds.length := by
  obtain ⟨x, y, hx, _⟩ := refAt_spec h hd
  exact (List.getElem?_eq_some_iff.mp hx).1

/-- What is true of the reference indices `r` of the class `c`. -/
structure Good (s : PClean.Schema) (c : String) (r : RefIdx) : Prop where
  has : ∃ f d, Refers s c f d
  bound : ∀ ds, Layout s c ds → ∀ i ref, r.find? i = some ref → i < ds.length ∧ ∃ f j, ref.find? f = some j
  complete : ∀ i f j, RefAt s c i f j → Entry r i f j
  sound : ShallowAt s c → ∀ i f j, Entry r i f j → RefAt s c i f j
  acc : ∀ cl o f d i₁ h j₁ i₂ g j₂, s.classes.find? c = some cl → FieldAt s (refFields cl) o f d → RefAt s d i₁ h j₁ → RefAt s d i₂ g j₂ → i₁ ≤ i₂ →
    ∃ j, Entry r (o + i₂) h j

def IdxOk (s : PClean.Schema) (idx : FMap String RefIdx) : Prop := ∀ c r, idx.find? c = some r → Good s c r

theorem no_refAt {s : PClean.Schema} {d : String} {cl : Class} (hc : s.classes.find? d = some cl) (h : refFields cl = []) {i f j} : ¬ RefAt s d i f j := by
  intro hr
  cases hr with
  | own hc' hf _ _ _ => rw [hc] at hc'; cases hc'; rw [h] at hf; simp at hf
  | inner hc' hf _ _ => rw [hc] at hc'; cases hc'; rw [h] at hf; simp at hf

/-- the references of a class whose referenced classes have no references are its own -/
theorem refAt_flat {s : PClean.Schema} {d : String} (hflat : ∀ g y h z, Refers s d g y → ¬ Refers s y h z) {ds : List String} (hd : Layout s d ds)
    {i f j} (h : RefAt s d i f j) : i = ds.length - 1 := by
  obtain ⟨cl, es, hc, hs, rfl⟩ := hd.sub
  rcases (refAt_iff hc hs).mp h with ⟨rfl, _⟩ | ⟨o, g, x, i', j', h1, h2, _⟩
  · simp
  · exfalso
    obtain ⟨dx, hx⟩ := h1.layout hs
    obtain ⟨a, b, _, _, hr, _⟩ := refAt_spec h2 hx
    cases h2 with
    | own hx' hf _ _ _ => exact hflat g x _ _ ⟨cl, hc, h1.mem⟩ ⟨_, hx', by rw [hf]; exact List.mem_append_right _ (List.mem_cons_self ..)⟩
    | inner hx' hf _ _ => exact hflat g x _ _ ⟨cl, hc, h1.mem⟩ ⟨_, hx', by rw [hf]; exact List.mem_append_right _ (List.mem_cons_self ..)⟩

/-- The invariant of the loop over the variables of a class. -/
structure LoopOk (s : PClean.Schema) (pre : List (String × String)) (es : List String) (st : RefState) : Prop where
  off : st.off = es.length
  own : ∀ f j, st.own.find? f = some j ↔ ∃ o d ds, FieldAt s pre o f d ∧ Layout s d ds ∧ j = o + ds.length - 1
  bound : ∀ i ref, st.inner.find? i = some ref → i < st.off ∧ ∃ f j, ref.find? f = some j
  complete : ∀ o f d i g j, FieldAt s pre o f d → RefAt s d i g j → Entry st.inner (o + i) g (o + j)
  sound : (∀ f d, (f, d) ∈ pre → ∀ g y h z, Refers s d g y → ¬ Refers s y h z) → ∀ k g j, Entry st.inner k g j →
    ∃ o f d i j', FieldAt s pre o f d ∧ RefAt s d i g j' ∧ k = o + i ∧ j = o + j'
  acc : ∀ o f d i₁ h j₁ i₂ g j₂, FieldAt s pre o f d → RefAt s d i₁ h j₁ → RefAt s d i₂ g j₂ → i₁ ≤ i₂ → ∃ j, Entry st.inner (o + i₂) h j
  idx : IdxOk s st.idx

theorem loop_step {s : PClean.Schema} {pre : List (String × String)} {es : List String} {st : RefState} (hs : Sublayouts s pre es) (h : LoopOk s pre es st)
    {f d : String} (hf : f ∉ pre.map (·.1)) {ds : List String} (hd : Layout s d ds) {idx : FMap String RefIdx} (hi : IdxOk s idx)
    (hnone : idx.find? d = none → ∀ cl, s.classes.find? d = some cl → refFields cl = []) :
    LoopOk s (pre ++ [(f, d)]) (es ++ ds) ⟨st.off + ds.length, st.own.set f (st.off + ds.length - 1),
      (match idx.find? d with
        | none => st.inner
        | some m => addInner st.off m.entries ∅ st.inner), idx⟩ := by
  have hpos := hd.length_pos
  have hoff := h.off
  -- what the new `inner` holds
  have old : ∀ k, k < st.off → (match idx.find? d with
        | none => st.inner
        | some m => addInner st.off m.entries ∅ st.inner).find? k = st.inner.find? k := by
    intro k hk
    split
    · rfl
    · exact addInner_other (fun e _ => by omega)
  have fresh : ∀ k, st.off ≤ k → st.inner.find? k = none := by
    intro k hk
    cases hx : st.inner.find? k with
    | none => rfl
    | some r => have := (h.bound k r hx).1; omega
  refine ⟨?_, ?_, ?_, ?_, ?_, ?_, hi⟩
  · simp [hoff]
  · intro f' j
    rw [FMap.find?_set]
    split
    · next he =>
      subst he
      constructor
      · intro hj
        cases hj
        exact ⟨es.length, d, ds, (fieldAt_snoc hs).mpr (Or.inr ⟨rfl, rfl, rfl⟩), hd, by rw [hoff]⟩
      · rintro ⟨o, d', ds', h1, h2, rfl⟩
        rcases (fieldAt_snoc hs).mp h1 with h1 | ⟨rfl, _, rfl⟩
        · exact absurd (List.mem_map.mpr ⟨_, h1.mem, rfl⟩) hf
        · rw [layout_unique h2 hd, hoff]
    · next he =>
      rw [h.own]
      constructor
      · rintro ⟨o, d', ds', h1, h2, h3⟩
        exact ⟨o, d', ds', h1.append _, h2, h3⟩
      · rintro ⟨o, d', ds', h1, h2, h3⟩
        rcases (fieldAt_snoc hs).mp h1 with h1 | ⟨_, rfl, _⟩
        · exact ⟨o, d', ds', h1, h2, h3⟩
        · exact absurd rfl he
  · intro i ref hr
    simp only at hr ⊢
    by_cases hlt : i < st.off
    · rw [old i hlt] at hr
      have := h.bound i ref hr
      exact ⟨by omega, this.2⟩
    · split at hr
      · rw [fresh i (by omega)] at hr; cases hr
      · next m hm =>
        by_cases hex : ∃ e ∈ m.entries, e.1 + st.off = i
        · obtain ⟨⟨k, r⟩, he, rfl⟩ := hex
          have hk := FMap.mem_entries.mp he
          obtain ⟨c', h1, h2, _⟩ := addInner_mem (off := st.off) (idx_sorted m) (child := ∅) (inner := st.inner) he
          obtain ⟨b1, g, j, b2⟩ := (hi d m hm).bound ds hd k r hk
          simp only at hr
          rw [h1] at hr
          cases hr
          exact ⟨by simp only; omega, g, _, h2 g j b2⟩
        · rw [addInner_other (fun e he h => hex ⟨e, he, h⟩), fresh i (by omega)] at hr
          cases hr
  · intro o f' d' i g j h1 h2
    rcases (fieldAt_snoc hs).mp h1 with h1 | ⟨rfl, rfl, rfl⟩
    · obtain ⟨r, hr, hj⟩ := h.complete o f' d' i g j h1 h2
      exact ⟨r, by simp only; rw [old _ (h.bound _ _ hr).1]; exact hr, hj⟩
    · simp only
      cases hm : idx.find? d' with
      | none =>
        obtain ⟨cl, _, hcl, _⟩ := hd.sub
        exact absurd h2 (no_refAt hcl (hnone hm cl hcl))
      | some m =>
        obtain ⟨r, hr, hj⟩ := (hi d' m hm).complete i g j h2
        obtain ⟨c', k1, k2, _⟩ := addInner_mem (off := st.off) (idx_sorted m) (child := ∅) (inner := st.inner) (FMap.mem_entries.mpr hr)
        refine ⟨c', ?_, ?_⟩
        · rw [← hoff, Nat.add_comm]; exact k1
        · rw [← hoff, Nat.add_comm]; exact k2 g j hj
  · intro hflat k g j hk
    obtain ⟨r, hr, hj⟩ := hk
    simp only at hr
    by_cases hlt : k < st.off
    · rw [old k hlt] at hr
      obtain ⟨o, f', d', i, j', h1, h2, h3, h4⟩ := h.sound (fun f' d' hm => hflat f' d' (List.mem_append_left _ hm)) k g j ⟨r, hr, hj⟩
      exact ⟨o, f', d', i, j', h1.append _, h2, h3, h4⟩
    · cases hm : idx.find? d with
      | none => rw [hm] at hr; simp only at hr; rw [fresh k (by omega)] at hr; cases hr
      | some m =>
        rw [hm] at hr
        simp only at hr
        have gd := hi d m hm
        have hfl := hflat f d (by simp)
        have hsh : ShallowAt s d := fun f x g y h z a b _ => hfl f x g y a b
        -- all entries are at the last position
        have hall : ∀ i r, (i, r) ∈ m.entries → i = ds.length - 1 := by
          intro i r he
          have he' := FMap.mem_entries.mp he
          obtain ⟨_, g', j', hg⟩ := gd.bound ds hd i r he'
          exact refAt_flat hfl hd (gd.sound hsh i g' j' ⟨r, he', hg⟩)
        by_cases hex : ∃ e ∈ m.entries, e.1 + st.off = k
        · obtain ⟨⟨i, r'⟩, he, rfl⟩ := hex
          obtain ⟨c', k1, k2, k3, _⟩ := addInner_mem (off := st.off) (idx_sorted m) (child := ∅) (inner := st.inner) he
          simp only at hr
          rw [k1] at hr
          cases hr
          rcases k3 g j hj with h0 | ⟨i', r'', j', e1, e2, rfl⟩
          · simp at h0
          · have hi1 := hall _ _ he
            have hi2 := hall _ _ e1
            have : r'' = r' := by
              have a := FMap.mem_entries.mp he
              have b := FMap.mem_entries.mp e1
              rw [hi1] at a; rw [hi2] at b
              rw [a] at b
              exact (Option.some.inj b).symm
            subst this
            exact ⟨es.length, f, d, i, j', (fieldAt_snoc hs).mpr (Or.inr ⟨rfl, rfl, rfl⟩), gd.sound hsh i g j' ⟨_, FMap.mem_entries.mp he, e2⟩,
              by simp only; omega, by omega⟩
        · rw [addInner_other (fun e he h => hex ⟨e, he, h⟩), fresh k (by omega)] at hr
          cases hr
  · intro o f' d' i₁ g₁ j₁ i₂ g₂ j₂ h1 h2 h3 hle
    rcases (fieldAt_snoc hs).mp h1 with h1 | ⟨rfl, rfl, rfl⟩
    · obtain ⟨j, r, hr, hj⟩ := h.acc o f' d' i₁ g₁ j₁ i₂ g₂ j₂ h1 h2 h3 hle
      exact ⟨j, r, by simp only; rw [old _ (h.bound _ _ hr).1]; exact hr, hj⟩
    · simp only
      cases hm : idx.find? d' with
      | none =>
        obtain ⟨cl, _, hcl, _⟩ := hd.sub
        exact absurd h2 (no_refAt hcl (hnone hm cl hcl))
      | some m =>
        obtain ⟨r1, hr1, hj1⟩ := (hi d' m hm).complete i₁ g₁ j₁ h2
        obtain ⟨r2, hr2, hj2⟩ := (hi d' m hm).complete i₂ g₂ j₂ h3
        obtain ⟨c', k1, k2, _, _, k5⟩ := addInner_mem (off := st.off) (idx_sorted m) (child := ∅) (inner := st.inner) (FMap.mem_entries.mpr hr2)
        obtain ⟨j, hj⟩ := k5 i₁ r1 g₁ j₁ (FMap.mem_entries.mpr hr1) hle hj1
        exact ⟨j, c', by rw [← hoff, Nat.add_comm]; exact k1, hj⟩

/-- What a call of `compute_reference_indices_for` does. -/
def ComputeOk (s : PClean.Schema) (compute : String → FMap String RefIdx → Res (FMap String RefIdx)) : Prop :=
  ∀ d idx idx', IdxOk s idx → idx.find? d = none → compute d idx = .ok idx' →
    IdxOk s idx' ∧ (idx'.find? d = none → ∀ cl, s.classes.find? d = some cl → refFields cl = []) ∧ Grows idx idx'

theorem once_refs {s : PClean.Schema} {compute} (hc : ComputeOk s compute) {d : String} {idx idx' : FMap String RefIdx} (hi : IdxOk s idx)
    (h : once compute d idx = .ok idx') :
    IdxOk s idx' ∧ (idx'.find? d = none → ∀ cl, s.classes.find? d = some cl → refFields cl = []) ∧ Grows idx idx' := by
  unfold once at h
  split at h
  · next hd =>
    cases h
    obtain ⟨v, hv⟩ := FMap.contains_iff.mp hd
    exact ⟨hi, fun hn => absurd hv (by rw [hn]; simp), fun _ _ h => h⟩
  · next hd => exact hc d idx idx' hi (FMap.contains_false.mp (by simpa using hd)) h

theorem refsLoop_spec {s : PClean.Schema} {compute} (hc : ComputeOk s compute) {doms : Doms} (hdoms : DomsOk s doms) {vs : List (String × Variable)}
    {pre : List (String × String)} {es : List String} {st st' : RefState} (hs : Sublayouts s pre es) (hn : ((pre ++ fieldsOf vs).map (·.1)).Nodup)
    (h : LoopOk s pre es st) (hr : refsLoop compute doms vs st = .ok st') :
    ∃ es', Sublayouts s (pre ++ fieldsOf vs) es' ∧ LoopOk s (pre ++ fieldsOf vs) es' st' ∧ Grows st.idx st'.idx := by
  induction vs generalizing pre es st with
  | nil =>
    cases hr
    simp only [fieldsOf, List.filterMap_nil, List.append_nil]
    exact ⟨es, hs, h, fun _ _ h => h⟩
  | cons e vs ih =>
    obtain ⟨x, v⟩ := e
    unfold refsLoop at hr
    cases hv : v.spec with
    | scalar j p =>
      rw [hv] at hr
      rw [fieldsOf_scalar hv] at hn ⊢
      exact ih hs hn h hr
    | cls d =>
      rw [hv] at hr
      obtain ⟨idx, h1, hr⟩ := bind_ok.mp hr
      obtain ⟨ds, h2, hr⟩ := bind_ok.mp hr
      rw [fieldsOf_cls hv] at hn ⊢
      obtain ⟨k1, k2, k3⟩ := once_refs hc h.idx h1
      have hd : doms.find? d = some ds := by
        unfold FMap.atKey at h2
        split at h2
        · next hx => cases h2; exact hx
        · cases h2
      have hl := hdoms d ds hd
      have hx : x ∉ pre.map (·.1) := by
        intro hm
        rw [List.map_append, List.nodup_append] at hn
        exact hn.2.2 x hm x (by simp) rfl
      have step := loop_step hs h hx hl k1 k2
      have hs' := hs.append (.cons (f := x) hl .nil)
      simp only [List.append_nil] at hs'
      have e : pre ++ (x, d) :: fieldsOf vs = (pre ++ [(x, d)]) ++ fieldsOf vs := by simp
      rw [e] at hn ⊢
      obtain ⟨es', r1, r2, r3⟩ := ih hs' hn step hr
      exact ⟨es', r1, r2, fun c w hw => r3 c w (k3 c w hw)⟩

theorem fieldsOf_nodup (c : Class) : ((refFields c).map (·.1)).Nodup := by
  have h := c.vars.nodupKeys
  unfold FMap.keys at h
  have : ∀ l : List (String × Variable), (l.map (·.1)).Nodup → ((fieldsOf l).map (·.1)).Nodup := by
    intro l hl
    induction l with
    | nil => simp [fieldsOf]
    | cons e l ih =>
      obtain ⟨x, v⟩ := e
      simp only [List.map_cons, List.nodup_cons] at hl
      cases hv : v.spec with
      | scalar j p => rw [fieldsOf_scalar hv]; exact ih hl.2
      | cls d =>
        rw [fieldsOf_cls hv]
        simp only [List.map_cons, List.nodup_cons]
        refine ⟨?_, ih hl.2⟩
        intro hm
        apply hl.1
        obtain ⟨⟨y, d'⟩, hy, rfl⟩ := List.mem_map.mp hm
        unfold fieldsOf at hy
        obtain ⟨⟨z, w⟩, hz, hzz⟩ := List.mem_filterMap.mp hy
        split at hzz
        · cases hzz
        · cases hzz; exact List.mem_map.mpr ⟨_, hz, rfl⟩
  exact this _ h

theorem getClass_ok {s : PClean.Schema} {c : String} {cl : Class} : getClass s c = .ok cl ↔ s.classes.find? c = some cl := by
  unfold getClass
  split
  · next h => rw [h]; constructor <;> intro h <;> cases h
  · next h => rw [h]; constructor <;> intro h <;> cases h <;> rfl

theorem size_pos {W} {m : FMap String W} : m.size > 0 ↔ ∃ k v, m.find? k = some v := by
  unfold FMap.size
  constructor
  · intro h
    cases hm : m.entries with
    | nil => rw [hm] at h; simp at h
    | cons e l => exact ⟨e.1, e.2, FMap.mem_entries.mp (by rw [hm]; exact List.mem_cons_self ..)⟩
  · rintro ⟨k, v, h⟩
    exact List.length_pos_of_mem (FMap.mem_entries.mpr h)

theorem computeRefsFor_spec {s : PClean.Schema} {doms : Doms} (hdoms : DomsOk s doms) (n : Nat) : ComputeOk s (computeRefsFor s doms n) := by
  induction n with
  | zero => intro d idx idx' _ _ h; cases h
  | succ n ih =>
    intro d idx idx' hi hd h
    unfold computeRefsFor at h
    obtain ⟨cl, h1, h⟩ := bind_ok.mp h
    obtain ⟨st, h2, h⟩ := bind_ok.mp h
    have hcl := getClass_ok.mp h1
    have init : LoopOk s [] [] ⟨0, ∅, ∅, idx⟩ := by
      refine ⟨rfl, ?_, ?_, ?_, ?_, ?_, hi⟩
      · intro f j
        simp only [FMap.find?_empty]
        constructor
        · intro h; cases h
        · rintro ⟨o, d, ds, h1, _⟩
          cases h1.mem
      · intro i ref h; simp at h
      · intro o f d i g j h1; cases h1.mem
      · rintro _ k g j ⟨r, hr, _⟩; simp at hr
      · intro o f d i₁ g₁ j₁ i₂ g₂ j₂ h1; cases h1.mem
    obtain ⟨es, r1, r2, r3⟩ := refsLoop_spec ih hdoms .nil (fieldsOf_nodup cl) init h2
    simp only [List.nil_append] at r1 r2
    have r1 : Sublayouts s (refFields cl) es := r1
    have r2 : LoopOk s (refFields cl) es st := r2
    have hlay : Layout s d (es ++ [d]) := .mk hcl r1
    split at h
    · next hsz =>
      cases h
      obtain ⟨f0, j0, hf0⟩ := size_pos.mp hsz
      refine ⟨?_, fun hx => by simp at hx, ?_⟩
      · intro c r hr
        rw [FMap.find?_set] at hr
        split at hr
        · next he =>
          cases hr
          subst he
          have hfind : ∀ k, (st.inner.set st.off st.own).find? k = if k = st.off then some st.own else st.inner.find? k := fun k => FMap.find?_set ..
          refine ⟨?_, ?_, ?_, ?_, ?_⟩
          · obtain ⟨o, x, ds, hx, _⟩ := (r2.own f0 j0).mp hf0
            exact ⟨f0, x, cl, hcl, hx.mem⟩
          · intro ds hds i ref href
            rw [layout_unique hds hlay]
            rw [hfind] at href
            split at href
            · next he => cases href; exact ⟨by rw [he, r2.off]; simp, f0, j0, hf0⟩
            · have := r2.bound i ref href
              exact ⟨by have := r2.off; simp; omega, this.2⟩
          · intro i f j hr
            rcases (refAt_iff hcl r1).mp hr with ⟨rfl, hx⟩ | ⟨o, g, x, i', j', hx, hy, rfl, rfl⟩
            · exact ⟨st.own, by rw [hfind, if_pos r2.off.symm], (r2.own f j).mpr hx⟩
            · obtain ⟨r, ha, hb⟩ := r2.complete o g x i' f j' hx hy
              refine ⟨r, ?_, hb⟩
              rw [hfind, if_neg]
              · exact ha
              · have := (r2.bound _ _ ha).1
                omega
          · rintro hsh i f j ⟨r, ha, hb⟩
            rw [hfind] at ha
            rw [refAt_iff hcl r1]
            split at ha
            · next he =>
              cases ha
              left
              exact ⟨by rw [he, r2.off], (r2.own f j).mp hb⟩
            · right
              obtain ⟨o, g, x, i', j', a1, a2, a3, a4⟩ := r2.sound (fun f x hm g y h z e1 e2 => hsh f x g y h z ⟨cl, hcl, hm⟩ e1 e2) i f j ⟨r, ha, hb⟩
              exact ⟨o, g, x, i', j', a1, a2, a3, a4⟩
          · intro cl' o f x i₁ h' j₁ i₂ g j₂ hcl' e1 e2 e3 hle
            rw [hcl] at hcl'
            cases hcl'
            obtain ⟨j, r, ha, hb⟩ := r2.acc o f x i₁ h' j₁ i₂ g j₂ e1 e2 e3 hle
            refine ⟨j, r, ?_, hb⟩
            rw [hfind, if_neg]
            · exact ha
            · have := (r2.bound _ _ ha).1
              omega
        · exact r2.idx c r hr
      · intro c w hw
        rw [FMap.find?_set]
        split
        · next he => subst he; rw [hd] at hw; cases hw
        · exact r3 c w hw
    · next hsz =>
      cases h
      refine ⟨r2.idx, ?_, r3⟩
      intro _ cl' hcl'
      rw [hcl] at hcl'
      cases hcl'
      by_contra hne
      apply hsz
      obtain ⟨⟨f, x⟩, tl, he⟩ := List.exists_cons_of_ne_nil hne
      obtain ⟨ds, hx, _⟩ := sublayouts_mem r1 (f := f) (d := x) (by rw [he]; exact List.mem_cons_self ..)
      exact size_pos.mpr ⟨f, _, (r2.own f _).mpr ⟨0, x, ds, ⟨[], tl, [], he, .nil, rfl⟩, hx, rfl⟩⟩

theorem refsCache_spec {s : PClean.Schema} {doms : Doms} (hdoms : DomsOk s doms) {cs : List String} {idx idx' : FMap String RefIdx} (hi : IdxOk s idx)
    (h : refsCache s doms cs idx = .ok idx') :
    IdxOk s idx' ∧ (∀ c ∈ cs, idx'.find? c = none → ∀ cl, s.classes.find? c = some cl → refFields cl = []) ∧ Grows idx idx' := by
  induction cs generalizing idx with
  | nil => cases h; exact ⟨hi, by simp, fun _ _ h => h⟩
  | cons c cs ih =>
    unfold refsCache at h
    obtain ⟨m1, h1, h2⟩ := bind_ok.mp h
    obtain ⟨k1, k2, k3⟩ := once_refs (computeRefsFor_spec hdoms _) hi h1
    obtain ⟨r1, r2, r3⟩ := ih k1 h2
    refine ⟨r1, ?_, fun c w hw => r3 c w (k3 c w hw)⟩
    intro c' hc' hn
    rcases List.mem_cons.mp hc' with rfl | hc'
    · refine k2 ?_
      cases hx : m1.find? c' with
      | none => rfl
      | some w => rw [r3 _ _ hx] at hn; cases hn
    · exact r2 c' hc' hn

/-! ### Success -/

theorem refsLoop_ok {compute : String → FMap String RefIdx → Res (FMap String RefIdx)} {doms : Doms} {vs : List (String × Variable)}
    (hd : ∀ f d, (f, d) ∈ fieldsOf vs → ∃ ds, doms.find? d = some ds)
    (hc : ∀ d, (∃ f, (f, d) ∈ fieldsOf vs) → ∀ m, ∃ m', compute d m = .ok m') (st : RefState) :
    ∃ r, refsLoop compute doms vs st = .ok r := by
  induction vs generalizing st with
  | nil => exact ⟨_, rfl⟩
  | cons e vs ih =>
    obtain ⟨x, v⟩ := e
    unfold refsLoop
    cases hv : v.spec with
    | scalar j p =>
      rw [fieldsOf_scalar hv] at hd hc
      exact ih hd hc st
    | cls d =>
      rw [fieldsOf_cls hv] at hd hc
      have ih' := ih (fun f d hf => hd f d (List.mem_cons_of_mem _ hf)) (fun d ⟨f, hf⟩ => hc d ⟨f, List.mem_cons_of_mem _ hf⟩)
      simp only
      have : ∃ m1, once compute d st.idx = .ok m1 := by
        unfold once
        split
        · exact ⟨_, rfl⟩
        · exact hc d ⟨x, List.mem_cons_self ..⟩ _
      obtain ⟨m1, h1⟩ := this
      obtain ⟨ds, h2⟩ := hd x d (List.mem_cons_self ..)
      obtain ⟨r, hr⟩ := ih' ⟨st.off + ds.length, st.own.set x (st.off + ds.length - 1),
        (match m1.find? d with
          | none => st.inner
          | some m => addInner st.off m.entries ∅ st.inner), m1⟩
      exact ⟨r, bind_ok.mpr ⟨m1, h1, bind_ok.mpr ⟨ds, FMap.atKey_of_find h2, hr⟩⟩⟩

theorem computeRefsFor_ok {s : PClean.Schema} {doms : Doms} {r : String → Nat} (hr : ∀ c f d, Refers s c f d → r d < r c) (hcl : Closed s)
    (hdoms : ∀ c cl, s.classes.find? c = some cl → ∃ ds, doms.find? c = some ds) (n : Nat) :
    ∀ c, (∃ cl, s.classes.find? c = some cl) → r c < n → ∀ m, ∃ m', computeRefsFor s doms n c m = .ok m' := by
  induction n with
  | zero => intro c _ h; omega
  | succ n ih =>
    intro c ⟨cl, hc⟩ hn m
    unfold computeRefsFor
    obtain ⟨st, h2⟩ := refsLoop_ok (compute := computeRefsFor s doms n) (doms := doms) (vs := cl.vars.entries) (by
      intro f d hf
      obtain ⟨cl', h'⟩ := hcl c f d ⟨cl, hc, hf⟩
      exact hdoms d cl' h') (by
      rintro d ⟨f, hf⟩ m
      have hfd : Refers s c f d := ⟨cl, hc, hf⟩
      exact ih d (hcl c f d hfd) (by have := hr c f d hfd; omega) m) ⟨0, ∅, ∅, m⟩
    have : ∃ x, (if st.own.size > 0 then (.ok (st.idx.set c (st.inner.set st.off st.own)) : Res _) else .ok st.idx) = .ok x := by
      split <;> exact ⟨_, rfl⟩
    obtain ⟨x, hx⟩ := this
    exact ⟨x, bind_ok.mpr ⟨cl, getClass_ok.mpr hc, bind_ok.mpr ⟨st, h2, hx⟩⟩⟩

theorem refsCache_ok {s : PClean.Schema} {doms : Doms} (ha : Acyclic s) (hcl : Closed s)
    (hdoms : ∀ c cl, s.classes.find? c = some cl → ∃ ds, doms.find? c = some ds) {cs : List String}
    (hcs : ∀ c ∈ cs, ∃ cl, s.classes.find? c = some cl) (m : FMap String RefIdx) : ∃ m', refsCache s doms cs m = .ok m' := by
  obtain ⟨r, hr, hd⟩ := ha.rank hcl
  induction cs generalizing m with
  | nil => exact ⟨_, rfl⟩
  | cons c cs ih =>
    have : ∃ m1, once (computeRefsFor s doms (depth s)) c m = .ok m1 := by
      unfold once
      split
      · exact ⟨_, rfl⟩
      · exact computeRefsFor_ok hr hcl hdoms _ c (hcs c (List.mem_cons_self ..)) (hd c) m
    obtain ⟨m1, h1⟩ := this
    obtain ⟨m2, h2⟩ := ih (fun c hc => hcs c (List.mem_cons_of_mem _ hc)) m1
    exact ⟨m2, bind_ok.mpr ⟨m1, h1, h2⟩⟩

/-! ### Failure -/

theorem domainsLoop_err {compute : String → Doms → Res Doms} {vs : List (String × Variable)} {e : Err}
    (hc : ∀ d, (∃ f, (f, d) ∈ fieldsOf vs) → ∀ m, compute d m = .error e → e = .ub) {ds : List String} {m : Doms}
    (h : domainsLoop compute vs ds m = .error e) : e = .ub := by
  induction vs generalizing ds m with
  | nil => cases h
  | cons a vs ih =>
    obtain ⟨x, v⟩ := a
    unfold domainsLoop at h
    cases hv : v.spec with
    | scalar j p =>
      rw [hv] at h
      rw [fieldsOf_scalar hv] at hc
      exact ih hc h
    | cls d =>
      rw [hv] at h
      rw [fieldsOf_cls hv] at hc
      rcases UtilIO.bind_error_iff.mp h with h1 | ⟨m1, h1, h2⟩
      · unfold once at h1
        split at h1
        · cases h1
        · exact hc d ⟨x, List.mem_cons_self ..⟩ m h1
      · exact ih (fun d ⟨f, hf⟩ => hc d ⟨f, List.mem_cons_of_mem _ hf⟩) h2

theorem computeDomainsFor_err {s : PClean.Schema} (hcl : Closed s) {e : Err} (n : Nat) :
    ∀ c, (∃ cl, s.classes.find? c = some cl) → ∀ m, computeDomainsFor s n c m = .error e → e = .ub := by
  induction n with
  | zero => intro c _ m h; cases h; rfl
  | succ n ih =>
    intro c ⟨cl, hc⟩ m h
    unfold computeDomainsFor at h
    rcases UtilIO.bind_error_iff.mp h with h1 | ⟨cl', h1, h⟩
    · rw [getClass_ok.mpr hc] at h1; cases h1
    · rw [getClass_ok.mpr hc] at h1
      cases h1
      rcases UtilIO.bind_error_iff.mp h with h1 | ⟨p, _, h⟩
      · exact domainsLoop_err (fun d ⟨f, hf⟩ m hx => ih d (hcl c f d ⟨cl, hc, hf⟩) m hx) h1
      · cases h

theorem domainsCache_err {s : PClean.Schema} (hcl : Closed s) {e : Err} {cs : List String} (hcs : ∀ c ∈ cs, ∃ cl, s.classes.find? c = some cl)
    {m : Doms} (h : domainsCache s cs m = .error e) : e = .ub := by
  induction cs generalizing m with
  | nil => cases h
  | cons c cs ih =>
    unfold domainsCache at h
    rcases UtilIO.bind_error_iff.mp h with h1 | ⟨m1, _, h⟩
    · unfold once at h1
      split at h1
      · cases h1
      · exact computeDomainsFor_err hcl _ c (hcs c (List.mem_cons_self ..)) m h1
    · exact ih (fun c hc => hcs c (List.mem_cons_of_mem _ hc)) h

end GenDB
end Verif
