import Verif.Lemmas.GenDBData
/-!
The values of the rows of a database stay at the tuples of the rows through the transitions of references.
-/
namespace Verif
namespace GenDB
open PClean
noncomputable section
variable {V : Type} {F : Family V}

/-! ### The new tuples of the values that have been taken out -/

/-- gendb.cc:421-428: the new tuple of a stored one. -/
def Renewed (rels : Schema F) (relIdx : FMap String RefIdx) (e : Ents) (rel : String) (items k : Items) : Prop :=
  ∃ j, DB.back items = .ok j ∧ relationItems rels relIdx rel e items.length (items.length - 1) j (List.replicate items.length 0) = .ok k

section
variable {rels : Schema F} {relIdx : FMap String RefIdx} {e : Ents}

theorem newItems_spec {rel : String} {l : List (Items × V)} : ∀ {st st' : Stored V}, newItems rels relIdx e rel l st = .ok st' →
    (∀ x ∈ l, ∃ k, Renewed rels relIdx e rel x.1 k ∧ ∃ w, part st' rel k = some w) ∧ (∀ q k v, part st q k = some v → ∃ w, part st' q k = some w) ∧
    ∀ q k v, part st' q k = some v → part st q k = some v ∨ q = rel ∧ ∃ items, (items, v) ∈ l ∧ Renewed rels relIdx e rel items k := by
  induction l with
  | nil =>
    intro st st' h
    cases h
    exact ⟨fun x hx => (by cases hx), fun q k v h => ⟨v, h⟩, fun q k v h => Or.inl h⟩
  | cons x l ih =>
    obtain ⟨items, v⟩ := x
    intro st st' h
    unfold newItems at h
    obtain ⟨j, h1, h⟩ := bind_ok.mp h
    obtain ⟨k₁, h2, h⟩ := bind_ok.mp h
    obtain ⟨i1, i2, i3⟩ := ih h
    have hn : Renewed rels relIdx e rel items k₁ := ⟨j, h1, h2⟩
    refine ⟨?_, ?_, ?_⟩
    · intro x hx
      rcases List.mem_cons.mp hx with rfl | hx
      · exact ⟨k₁, hn, i2 rel k₁ v (by rw [part_store, if_pos ⟨rfl, rfl⟩])⟩
      · exact i1 x hx
    · intro q k w hw
      by_cases hk : q = rel ∧ k = k₁
      · exact i2 q k v (by rw [part_store, if_pos hk])
      · exact i2 q k w (by rw [part_store, if_neg hk]; exact hw)
    · intro q k w hw
      rcases i3 q k w hw with h | ⟨rfl, it, h, h'⟩
      · rw [part_store] at h
        split at h
        · rename_i hk
          cases h
          obtain ⟨rfl, rfl⟩ := hk
          exact Or.inr ⟨rfl, items, by simp, hn⟩
        · exact Or.inl h
      · exact Or.inr ⟨rfl, it, by simp [h], h'⟩

theorem newStored_spec {l : List (String × FMap Items V)} : ∀ {st st' : Stored V}, newStored rels relIdx e l st = .ok st' →
    (∀ q m items v, (q, m) ∈ l → m.find? items = some v → ∃ k, Renewed rels relIdx e q items k ∧ ∃ w, part st' q k = some w) ∧
    (∀ q k v, part st q k = some v → ∃ w, part st' q k = some w) ∧
    ∀ q k v, part st' q k = some v → part st q k = some v ∨ ∃ m items, (q, m) ∈ l ∧ m.find? items = some v ∧ Renewed rels relIdx e q items k := by
  induction l with
  | nil =>
    intro st st' h
    cases h
    exact ⟨fun q m items v hx => (by cases hx), fun q k v h => ⟨v, h⟩, fun q k v h => Or.inl h⟩
  | cons x l ih =>
    obtain ⟨rel, m₀⟩ := x
    intro st st' h
    unfold newStored at h
    obtain ⟨st₁, h1, h⟩ := bind_ok.mp h
    obtain ⟨i1, i2, i3⟩ := ih h
    obtain ⟨j1, j2, j3⟩ := newItems_spec h1
    refine ⟨?_, ?_, ?_⟩
    · intro q m items v hx hv
      rcases List.mem_cons.mp hx with e | hx
      · cases e
        obtain ⟨k, hk, w, hw⟩ := j1 (items, v) (FMap.mem_entries.mpr hv)
        exact ⟨k, hk, i2 _ _ _ hw⟩
      · exact i1 q m items v hx hv
    · intro q k w hw
      obtain ⟨w', hw'⟩ := j2 q k w hw
      exact i2 q k w' hw'
    · intro q k w hw
      rcases i3 q k w hw with h | ⟨m, it, h, h', h''⟩
      · rcases j3 q k w h with h | ⟨rfl, it, h', h''⟩
        · exact Or.inl h
        · exact Or.inr ⟨m₀, it, by simp, FMap.mem_entries.mp h', h''⟩
      · exact Or.inr ⟨m, it, by simp [h], h', h''⟩

theorem updateItems_spec {c f : String} {i v : Int} {st st' : Stored V} (h : updateItems rels relIdx e c f i v st = .ok st') :
    ∃ e', setRef e c f i v = .ok e' ∧ (∀ q items v, part st q items = some v → ∃ k, Renewed rels relIdx e' q items k ∧ ∃ w, part st' q k = some w) ∧
    ∀ q k v, part st' q k = some v → ∃ items, part st q items = some v ∧ Renewed rels relIdx e' q items k := by
  unfold updateItems at h
  obtain ⟨e', h1, h⟩ := bind_ok.mp h
  obtain ⟨i1, _, i3⟩ := newStored_spec h
  refine ⟨e', h1, ?_, ?_⟩
  · intro q items v hv
    unfold part at hv
    obtain ⟨m, hm, hv⟩ := Option.bind_eq_some_iff.mp hv
    exact i1 q m items v (FMap.mem_entries.mpr hm) hv
  · intro q k v hv
    rcases i3 q k v hv with h | ⟨m, items, h2, h3, h4⟩
    · unfold part at h
      simp at h
    · refine ⟨items, ?_, h4⟩
      unfold part
      rw [FMap.mem_entries.mp h2]
      exact h3

end

theorem Renewed.rowOf {D : DB F} {r : String → Nat} (hr : Ready D r) {q : String} (hq : Queried D q) {e e' : Ents} {id : Int} {items k : Items} (h : RowOf D e q id items)
    (hn : Renewed D.H.schema D.relIdx e' q items k) : RowOf D e' q id k := by
  obtain ⟨spec, hs, _, hlast, hE, hR⟩ := hr.query q hq
  obtain ⟨spec', h1, h2, h3⟩ := h
  rw [hs] at h1
  cases h1
  obtain ⟨j, hj, hk⟩ := hn
  unfold DB.back at hj
  rw [h3] at hj
  cases hj
  rw [h2.1] at hk
  have hd : spec.doms[spec.doms.length - 1]? = some D.schema.query.recordClass := by rw [← List.getLast?_eq_getElem?]; exact hlast
  have hne : spec.doms ≠ [] := by rintro h0; rw [h0] at hlast; cases hlast
  obtain ⟨f1, f2, _⟩ := Filled.follows hE hR (by simp) (relationItems_spec hs hE _ _ _ _ _ hk _ hd)
  refine ⟨spec, hs, f1, ?_⟩
  rw [List.getLast?_eq_getElem?, f1.1]
  exact f2 hne

/-! ### The states of a transition -/

section
variable {D₀ : DB F} {r : String → Nat} {R : String → Int → V → Prop} {c f : String} {i : Int}

/-- Each row that has a value has a tuple. -/
def HasTuples (D₀ : DB F) (R : String → Int → V → Prop) (e : Ents) : Prop := ∀ q, Queried D₀ q → ∀ id v, R q id v → ∃ k, RowOf D₀ e q id k

/-- The values of the query relations are the values of the rows, at the tuples of the rows. -/
structure Held (D₀ : DB F) (R : String → Int → V → Prop) (e : Ents) (H : HIRM F) : Prop where
  tidy : H.Tidy
  schema : H.schema = D₀.H.schema
  rows : HasTuples D₀ R e
  vals : ∀ q, Queried D₀ q → ∀ k v, H.value q k = some v ↔ ∃ id, R q id v ∧ RowOf D₀ e q id k

/-- The reference touches the tuple of the row. -/
def Moves (D₀ : DB F) (c f : String) (i : Int) (q : String) (id : Int) : Prop := ∃ k, RowOf D₀ D₀.ents q id k ∧ Touch D₀ c f i q k

/-- The values of the rows that the reference touches have been taken out. -/
structure Without (D₀ : DB F) (R : String → Int → V → Prop) (c f : String) (i : Int) (H : HIRM F) : Prop where
  tidy : H.Tidy
  schema : H.schema = D₀.H.schema
  vals : ∀ q, Queried D₀ q → ∀ k v, H.value q k = some v ↔ ∃ id, R q id v ∧ ¬ Moves D₀ c f i q id ∧ RowOf D₀ D₀.ents q id k

/-- The values that have been taken out, at the tuples for the references `e`. -/
def Stash (D₀ : DB F) (R : String → Int → V → Prop) (c f : String) (i : Int) (e : Ents) (st : Stored V) : Prop :=
  ∀ q, Queried D₀ q → ∀ k v, part st q k = some v ↔ ∃ id, R q id v ∧ Moves D₀ c f i q id ∧ RowOf D₀ e q id k

theorem Held.of_ents {e e' : Ents} {H : HIRM F} (h : Held D₀ R e H) (he : ∀ c f i v, HasRef e c f i v ↔ HasRef e' c f i v) : Held D₀ R e' H :=
  ⟨h.tidy, h.schema, fun q hq id v hv => by
    obtain ⟨k, hk⟩ := h.rows q hq id v hv
    exact ⟨k, (RowOf.congr he).mp hk⟩, fun q hq k v => by
    rw [h.vals q hq k v]
    exact exists_congr fun id => and_congr_right fun _ => RowOf.congr he⟩

theorem Held.quiet {e : Ents} {H H' : HIRM F} (h : Held D₀ R e H) (hq : Quiet (Queried D₀) H H') : Held D₀ R e H' :=
  ⟨HIRM.Next.tidy hq h.tidy, hq.schema.trans h.schema, h.rows, fun q hq' k v => by rw [hq.value hq' k]; exact h.vals q hq' k v⟩

theorem Without.quiet {H H' : HIRM F} (h : Without D₀ R c f i H) (hq : Quiet (Queried D₀) H H') : Without D₀ R c f i H' :=
  ⟨HIRM.Next.tidy hq h.tidy, hq.schema.trans h.schema, fun q hq' k v => by rw [hq.value hq' k]; exact h.vals q hq' k v⟩

/-- taking the values out -/
theorem Held.took (hr : Ready D₀ r) {e : Ents} {H H' : HIRM F} {st st' : Stored V} (ha : Agree c f i D₀.ents e) (hrows : HasTuples D₀ R D₀.ents) (h : Held D₀ R e H)
    (ht : Took (Queried D₀) (Touch D₀ c f i) H st H' st') : Without D₀ R c f i H' := by
  refine ⟨ht.tidy, ht.schema.trans h.schema, fun q hq k v => ?_⟩
  have h1 : H'.value q k = some v ↔ H.value q k = some v ∧ ¬ Touch D₀ c f i q k := by
    by_cases hk : Touch D₀ c f i q k
    · rw [ht.out q k hq hk]
      simp [hk]
    · rw [ht.kept q k hq hk]
      simp [hk]
  rw [h1, h.vals q hq k v]
  constructor
  · rintro ⟨⟨id, h2, h3⟩, h4⟩
    obtain ⟨k₀, h5⟩ := hrows q hq id v h2
    have h6 : ¬ Touch D₀ c f i q k₀ := fun h => h4 ((RowOf.touch hr ha hq h5 h3).mp h)
    have h7 := h5.untouched ha h6
    have h8 := RowOf.unique hr hq h3 h7
    subst h8
    refine ⟨id, h2, ?_, h5⟩
    rintro ⟨k₁, h9, h10⟩
    rw [RowOf.unique hr hq h9 h5] at h10
    exact h6 h10
  · rintro ⟨id, h2, h3, h4⟩
    have h6 : ¬ Touch D₀ c f i q k := fun h => h3 ⟨k, h4, h⟩
    exact ⟨⟨id, h2, h4.untouched ha h6⟩, h6⟩

/-- the values that have been taken out of the first state -/
theorem Held.stash (hr : Ready D₀ r) {H H' : HIRM F} {st' : Stored V} (h : Held D₀ R D₀.ents H) (ht : Took (Queried D₀) (Touch D₀ c f i) H ∅ H' st') :
    Stash D₀ R c f i D₀.ents st' := by
  intro q hq k v
  have h1 : part st' q k = some v ↔ H.value q k = some v ∧ Touch D₀ c f i q k := by
    by_cases hk : Touch D₀ c f i q k ∧ ∃ w, H.value q k = some w
    · obtain ⟨hk, w, hw⟩ := hk
      rw [ht.stored q k w hq hk hw, hw]
      simp [hk]
    · rw [ht.rest q k hq (fun h => ?_)]
      · constructor
        · intro h
          unfold part at h
          simp at h
        · rintro ⟨h2, h3⟩
          exact absurd ⟨h3, v, h2⟩ hk
      · cases hx : H.value q k with
        | none => rfl
        | some w => exact absurd ⟨h, w, hx⟩ hk
  rw [h1, h.vals q hq k v]
  constructor
  · rintro ⟨⟨id, h2, h3⟩, h4⟩
    exact ⟨id, h2, ⟨k, h3, h4⟩, h3⟩
  · rintro ⟨id, h2, ⟨k₁, h3, h4⟩, h5⟩
    rw [RowOf.unique hr hq h3 h5] at h4
    exact ⟨⟨id, h2, h5⟩, h4⟩

/-- gendb.cc:408-433: the new tuples are those of the new value of the reference -/
theorem Stash.update (hr : Ready D₀ r) {e e₁ : Ents} {v : Int} {st st' : Stored V} (h : Stash D₀ R c f i D₀.ents st)
    (hs : setRef e c f i v = .ok e₁) (hu : updateItems D₀.H.schema D₀.relIdx e c f i v st = .ok st') :
    Stash D₀ R c f i e₁ st' ∧ ∀ q, Queried D₀ q → ∀ id v, R q id v → Moves D₀ c f i q id → ∃ k, RowOf D₀ e₁ q id k := by
  obtain ⟨e', h1, h2, h3⟩ := updateItems_spec hu
  rw [hs] at h1
  cases h1
  refine ⟨fun q hq k v => ⟨fun hv => ?_, ?_⟩, ?_⟩
  · obtain ⟨items, h4, h5⟩ := h3 q k v hv
    obtain ⟨id, h6, h7, h8⟩ := (h q hq items v).mp h4
    exact ⟨id, h6, h7, h5.rowOf hr hq h8⟩
  · rintro ⟨id, h4, h5, h6⟩
    obtain ⟨k₀, h7, h8⟩ := h5
    have h9 := (h q hq k₀ v).mpr ⟨id, h4, ⟨k₀, h7, h8⟩, h7⟩
    obtain ⟨k', h10, w, h11⟩ := h2 q k₀ v h9
    have := RowOf.unique hr hq (h10.rowOf hr hq h7) h6
    subst this
    obtain ⟨items, h12, h13⟩ := h3 q k' w h11
    obtain ⟨id', _, _, h14⟩ := (h q hq items w).mp h12
    have := RowOf.row (h13.rowOf hr hq h14) h6
    subst this
    have := RowOf.unique hr hq h14 h7
    subst this
    rw [h9] at h12
    cases h12
    exact h11
  · rintro q hq id v hv ⟨k₀, h7, h8⟩
    obtain ⟨k', h10, _⟩ := h2 q k₀ v ((h q hq k₀ v).mpr ⟨id, hv, ⟨k₀, h7, h8⟩, h7⟩)
    exact ⟨k', h10.rowOf hr hq h7⟩

/-- putting the values back -/
theorem Without.gave (hr : Ready D₀ r) {e₁ : Ents} {st : Stored V} {H H' : HIRM F} (ha : Agree c f i D₀.ents e₁) (hrows : HasTuples D₀ R D₀.ents)
    (h : Without D₀ R c f i H) (hst : Stash D₀ R c f i e₁ st) (hex : ∀ q, Queried D₀ q → ∀ id v, R q id v → Moves D₀ c f i q id → ∃ k, RowOf D₀ e₁ q id k)
    (hg : Gave (Queried D₀) (fun q k v => part st q k = some v) H H') : Held D₀ R e₁ H' := by
  have still : ∀ q id k, Queried D₀ q → ¬ Moves D₀ c f i q id → RowOf D₀ D₀.ents q id k → RowOf D₀ e₁ q id k :=
    fun q id k _ hn hk => hk.untouched ha (fun ht => hn ⟨k, hk, ht⟩)
  refine ⟨hg.tidy, hg.schema.trans h.schema, ?_, fun q hq k v => ⟨fun hv => ?_, ?_⟩⟩
  · intro q hq id v hv
    by_cases hm : Moves D₀ c f i q id
    · exact hex q hq id v hv hm
    · obtain ⟨k, hk⟩ := hrows q hq id v hv
      exact ⟨k, still q id k hq hm hk⟩
  · rcases hg.only q k v hq hv with h1 | h1
    · obtain ⟨id, h2, h3, h4⟩ := (h.vals q hq k v).mp h1
      exact ⟨id, h2, still q id k hq h3 h4⟩
    · obtain ⟨id, h2, h3, h4⟩ := (hst q hq k v).mp h1
      exact ⟨id, h2, h4⟩
  · rintro ⟨id, h2, h3⟩
    by_cases hm : Moves D₀ c f i q id
    · have hp := (hst q hq k v).mpr ⟨id, h2, hm, h3⟩
      obtain ⟨w, hw⟩ := hg.has q k v hq hp
      rcases hg.only q k w hq hw with h1 | h1
      · obtain ⟨id', _, h5, h6⟩ := (h.vals q hq k w).mp h1
        have := RowOf.row h6 h3
        subst this
        exact absurd hm h5
      · rw [hp] at h1
        cases h1
        exact hw
    · obtain ⟨k₀, hk₀⟩ := hrows q hq id v h2
      have := RowOf.unique hr hq (still q id k₀ hq hm hk₀) h3
      subst this
      exact hg.kept q k₀ v hq ((h.vals q hq k₀ v).mpr ⟨id, h2, hm, hk₀⟩)

end

end
end GenDB
end Verif
