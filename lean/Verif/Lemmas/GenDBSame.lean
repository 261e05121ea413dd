import Verif.Lemmas.GenDBWired
/-!
What the functions of `GenDB` never change.
-/
namespace Verif
namespace GenDB
open PClean
noncomputable section
variable {V : Type} {F : Family V}

theorem sampleRelation_schema : ∀ {n : Nat} {H : HIRM F} {r : String} {k : Items} {t : Tape} {v : V} {H' : HIRM F} {t' : Tape},
    HIRM.sampleRelation n H r k t = .ok (v, H', t') → H'.schema = H.schema := by
  intro n
  induction n with
  | zero => intro H r k t v H' t' h; cases h
  | succ n ih =>
    intro H r k t v H' t' h
    unfold HIRM.sampleRelation at h
    obtain ⟨spec, h1, h⟩ := bind_ok.mp h
    have hone : ∀ {H₁ : HIRM F} {t₁ : Tape}, H₁.sampleOne r k t₁ = .ok (v, H', t') → H'.schema = H₁.schema := by
      intro H₁ t₁ h
      unfold HIRM.sampleOne at h
      simp only [bind_ok] at h
      obtain ⟨⟨tb, I⟩, _, ⟨id, rel⟩, _, ⟨x, σ, rel', t₃⟩, _, h4⟩ := h
      cases h4
      rfl
    cases spec with
    | clean => exact hone h
    | noisy e ds b o =>
      dsimp only at h
      obtain ⟨⟨tb, rel⟩, _, h⟩ := bind_ok.mp h
      dsimp only at h
      obtain ⟨bv, _, h⟩ := bind_ok.mp h
      obtain ⟨bi, _, h⟩ := bind_ok.mp h
      split at h
      · exact hone h
      · obtain ⟨⟨x, H₂, t₂⟩, h3, h4⟩ := bind_ok.mp h
        exact (hone h4).trans (ih h3)

/-- The databases differ only in their HIRM, which has the same schema, and in their entities. -/
structure Same (D D' : DB F) : Prop where
  schema : D'.schema = D.schema
  hash : D'.hash = D.hash
  relIdx : D'.relIdx = D.relIdx
  classRels : D'.classRels = D.classRels
  rels : D'.H.schema = D.H.schema

theorem Same.refl (D : DB F) : Same D D := ⟨rfl, rfl, rfl, rfl, rfl⟩

theorem Same.trans {D D' D'' : DB F} (h : Same D D') (h' : Same D' D'') : Same D D'' :=
  ⟨h'.1.trans h.1, h'.2.trans h.2, h'.3.trans h.3, h'.4.trans h.4, h'.5.trans h.5⟩

theorem Same.ents (D : DB F) (e : Ents) : Same D { D with ents := e } := ⟨rfl, rfl, rfl, rfl, rfl⟩

theorem ensureValue_same {D : DB F} {r : String} {k : Items} {t : Tape} {D' : DB F} {t' : Tape} (h : D.ensureValue r k t = .ok (D', t')) : Same D D' := by
  unfold DB.ensureValue at h
  obtain ⟨⟨tb, rel⟩, _, h⟩ := bind_ok.mp h
  dsimp only at h
  split at h
  · cases h; exact .refl _
  · obtain ⟨⟨x, H, t₂⟩, h3, h4⟩ := bind_ok.mp h
    cases h4
    exact ⟨rfl, rfl, rfl, rfl, sampleRelation_schema h3⟩

theorem forBase_same {rec : String → Int → DB F → Tape → Res (DB F × Tape)} (hrec : ∀ c i D t D' t', rec c i D t = .ok (D', t') → Same D D') {r : String} {k : Items}
    {D : DB F} {t : Tape} {D' : DB F} {t' : Tape} (h : DB.forBase rec r k D t = .ok (D', t')) : Same D D' := by
  unfold DB.forBase at h
  obtain ⟨spec, _, h⟩ := bind_ok.mp h
  cases spec with
  | clean => cases h; exact .refl _
  | noisy e ds b o =>
    simp only [bind_ok] at h
    obtain ⟨bi, _, bs, _, c, _, i, _, h⟩ := h
    exact hrec _ _ _ _ _ _ h

theorem forRels_same {rec : String → Int → DB F → Tape → Res (DB F × Tape)} (hrec : ∀ c i D t D' t', rec c i D t = .ok (D', t') → Same D D') {c : String} {i : Int} :
    ∀ {l : List String} {D : DB F} {t : Tape} {D' : DB F} {t' : Tape}, DB.forRels rec c i l D t = .ok (D', t') → Same D D' := by
  intro l
  induction l with
  | nil => intro D t D' t' h; cases h; exact .refl _
  | cons r l ih =>
    intro D t D' t' h
    unfold DB.forRels at h
    simp only [bind_ok] at h
    obtain ⟨⟨_, e, t₁⟩, _, spec, _, items, _, ⟨D₁, t₂⟩, h1, ⟨D₂, t₃⟩, h2, h3⟩ := h
    exact (((Same.ents D e).trans (forBase_same hrec h1)).trans (ensureValue_same h2)).trans (ih h3)

theorem forClass_same : ∀ {n : Nat} {c : String} {i : Int} {D : DB F} {t : Tape} {D' : DB F} {t' : Tape}, DB.forClass n c i D t = .ok (D', t') → Same D D' := by
  intro n
  induction n with
  | zero => intro c i D t D' t' h; cases h
  | succ n ih =>
    intro c i D t D' t' h
    unfold DB.forClass at h
    obtain ⟨rels, _, h⟩ := bind_ok.mp h
    exact forRels_same (fun _ _ _ _ _ _ h => ih h) h

theorem incorporateQuery_same {n : Nat} {r : String} {k : Items} {v : V} {D : DB F} {t : Tape} {D' : DB F} {t' : Tape}
    (h : DB.incorporateQuery n r k v D t = .ok (D', t')) : Same D D' := by
  unfold DB.incorporateQuery at h
  obtain ⟨⟨D₁, t₁⟩, h1, h⟩ := bind_ok.mp h
  obtain ⟨⟨H, t₂⟩, h2, h⟩ := bind_ok.mp h
  cases h
  refine (forBase_same (fun _ _ _ _ _ _ h => forClass_same h) h1).trans ⟨rfl, rfl, rfl, rfl, ?_⟩
  unfold HIRM.incorporate at h2
  simp only [bind_ok] at h2
  obtain ⟨⟨tb, I⟩, _, ⟨I', t''⟩, _, h5⟩ := h2
  cases h5
  rfl

theorem rowItems_same {u : Bool} {r : String} {id : Int} {k : Items} {D : DB F} {t : Tape} {D' : DB F} {t' : Tape}
    (h : DB.rowItems u r id D t = .ok (k, D', t')) : Same D D' := by
  unfold DB.rowItems at h
  obtain ⟨f, _, h⟩ := bind_ok.mp h
  dsimp only at h
  split at h
  · simp only [bind_ok] at h
    obtain ⟨spec, _, ⟨items, e⟩, _, h⟩ := h
    cases h
    exact .ents _ _
  · simp only [bind_ok] at h
    obtain ⟨⟨items, e, t₁⟩, _, h⟩ := h
    cases h
    exact .ents _ _

theorem incorporateLoop_same {n : Nat} {u : Bool} {id : Int} : ∀ {l : List (String × V)} {D : DB F} {t : Tape} {D' : DB F} {t' : Tape},
    DB.incorporateLoop n u id l D t = .ok (D', t') → Same D D' := by
  intro l
  induction l with
  | nil => intro D t D' t' h; cases h; exact .refl _
  | cons qv l ih =>
    obtain ⟨q, v⟩ := qv
    intro D t D' t' h
    unfold DB.incorporateLoop at h
    simp only [bind_ok] at h
    obtain ⟨⟨k, D₁, t₁⟩, h1, ⟨D₂, t₂⟩, h2, h3⟩ := h
    exact ((rowItems_same h1).trans (incorporateQuery_same h2)).trans (ih h3)

/-- `q` is a noisy relation of the class `c`, whose base is another relation of `c`. -/
structure Loops (D : DB F) (c q : String) : Prop where
  rels : ∃ l, D.classRels.find? c = some l ∧ q ∈ l
  spec : ∃ e ds b o sp, D.H.schema.find? q = some (.noisy e ds b o) ∧ D.H.schema.find? b = some sp ∧ sp.doms.getLast? = some c

theorem Loops.same {D D' : DB F} {c q : String} (h : Loops D c q) (hs : Same D D') : Loops D' c q := by
  obtain ⟨h1, h2⟩ := h
  rw [← hs.classRels] at h1
  rw [← hs.rels] at h2
  exact ⟨h1, h2⟩

theorem Loops.forBase {D : DB F} {c q : String} (h : Loops D c q) {rec : String → Int → DB F → Tape → Res (DB F × Tape)}
    (hrec : ∀ i D t x, Loops D c q → rec c i D t ≠ .ok x) {k : Items} {t : Tape} {x : DB F × Tape} : DB.forBase rec q k D t ≠ .ok x := by
  intro hx
  obtain ⟨e, ds, b, o, sp, h1, h2, h3⟩ := h.spec
  unfold DB.forBase at hx
  obtain ⟨spec, h0, hx⟩ := bind_ok.mp hx
  rw [FMap.atKey_of_find h1] at h0
  cases h0
  obtain ⟨bi, _, hx⟩ := bind_ok.mp hx
  obtain ⟨sp', h0, hx⟩ := bind_ok.mp hx
  rw [FMap.atKey_of_find h2] at h0
  cases h0
  obtain ⟨c', hc, hx⟩ := bind_ok.mp hx
  obtain ⟨i, _, hx⟩ := bind_ok.mp hx
  unfold DB.back at hc
  rw [h3] at hc
  cases hc
  exact hrec _ _ _ _ h hx

/-- `sample_and_incorporate_for_class` never returns for such a class. -/
theorem Loops.forClass {c q : String} : ∀ (n : Nat) {D : DB F}, Loops D c q → ∀ {i : Int} {t : Tape} {x : DB F × Tape}, DB.forClass n c i D t ≠ .ok x := by
  intro n
  induction n with
  | zero => intro D _ i t x h; cases h
  | succ n ih =>
    intro D hl i t x h
    unfold DB.forClass at h
    obtain ⟨l, h1, h2⟩ := hl.rels
    rw [FMap.atKey_of_find h1] at h
    have key : ∀ (l : List String) (D : DB F) (t : Tape), Loops D c q → q ∈ l → DB.forRels (DB.forClass n) c i l D t ≠ .ok x := by
      intro l
      induction l with
      | nil => intro D t _ h; cases h
      | cons r l ihl =>
        intro D t hl hm h
        unfold DB.forRels at h
        simp only [bind_ok] at h
        obtain ⟨⟨_, e, t₁⟩, _, spec, _, items, _, ⟨D₁, t₂⟩, k1, ⟨D₂, t₃⟩, k2, k3⟩ := h
        have hl₁ := hl.same (Same.ents D e)
        rcases List.mem_cons.mp hm with rfl | hm
        · exact hl₁.forBase (fun i D t x hl => ih hl) k1
        · exact ihl _ _ ((hl₁.same (forBase_same (fun _ _ _ _ _ _ h => forClass_same h) k1)).same (ensureValue_same k2)) hm k3
    exact key l D t hl h2 h

theorem Loops.incorporateLoop {c q : String} {n : Nat} {u : Bool} {id : Int} {x : DB F × Tape} : ∀ {l : List (String × V)} {D : DB F} {t : Tape}, Loops D c q → q ∈ l.map (·.1) →
    DB.incorporateLoop n u id l D t ≠ .ok x := by
  intro l
  induction l with
  | nil => intro D t _ h; cases h
  | cons qv l ih =>
    obtain ⟨q', v⟩ := qv
    intro D t hl hm h
    unfold DB.incorporateLoop at h
    simp only [bind_ok] at h
    obtain ⟨⟨k, D₁, t₁⟩, h1, ⟨D₂, t₂⟩, h2, h3⟩ := h
    have hl₁ := hl.same (rowItems_same h1)
    rcases List.mem_cons.mp hm with he | hm
    · have he : q = q' := he
      subst he
      unfold DB.incorporateQuery at h2
      obtain ⟨⟨D₃, t₃⟩, k1, _⟩ := bind_ok.mp h2
      exact hl₁.forBase (fun i D t x hl => Loops.forClass n hl) k1
    · exact ih (hl₁.same (incorporateQuery_same h2)) hm h3

end
end GenDB
end Verif
