import Verif.Lemmas.GenDBStay
import Verif.Lemmas.GenDBLoad
/-!
Rows that are incorporated into a database keep the values of the other rows where they are, whatever the distributions are and whatever has been done to the
database before.
-/
namespace Verif
namespace GenDB
open PClean
noncomputable section
variable {V : Type} {F : Family V} {s : PClean.Schema} {hash : String → Int} {mkC : String → FMap String String → Res F.C}
  {mkE : String → FMap String String → Res F.E} {clean finalOnly : Bool} {t₀ t₁ : Tape} {D₀ : DB F} {D D' : DB F}

/-! ### The query fields of a database that has been made -/

/-- the relation of a query field has values that are observed -/
theorem field_observed {Ly : Layouts} {b : Build F} (hf : Fine s clean) (hL : layoutsOf s = .ok Ly) (h : makeSchema s Ly mkC mkE clean finalOnly = .ok b) {k : String} {f : QueryField}
    (hk : s.query.fields.find? k = some f) {spec : RelSpec F} (hspec : b.schema.find? k = some spec) : spec.observed = true := by
  obtain ⟨hops, d, x, j, p, hp⟩ := hf.query.path k f hk
  obtain ⟨ds, hds⟩ := field_layout hL hp
  have hfield := (C62_relations hf.names hf.query hL h).2.1 k f hops d x j p ds hk hp hds
  cases hops with
  | nil =>
    cases clean with
    | true =>
      obtain ⟨C, _, h1, _⟩ := hfield
      rw [h1] at hspec
      cases hspec
      rfl
    | false =>
      obtain ⟨C, _, h1, _⟩ := hfield
      rw [h1] at hspec
      cases hspec
      rfl
  | cons hop hops =>
    cases finalOnly with
    | true =>
      obtain ⟨e', r, _, h1, _⟩ := hfield
      rw [h1] at hspec
      cases hspec
      rfl
    | false =>
      obtain ⟨c, g⟩ := hop
      obtain ⟨e', _, hall⟩ := hfield
      obtain ⟨q1, _⟩ := hall [] c g hops rfl
      simp only [linkRel] at q1
      rw [show b.schema.find? k = _ from q1] at hspec
      cases hspec
      rfl

/-- what a query field asks for, by the reference indices of its relation -/
theorem Laid.rowOf (hm : Laid s hash mkC mkE clean finalOnly D₀) (hf : Fine s clean) (hi : Indexed s finalOnly) {q : String} (hq : Queried D₀ q) :
    ∃ spec, D₀.H.schema.find? q = some spec ∧ spec.observed = true ∧ spec.doms.getLast? = some D₀.schema.query.recordClass ∧
      TreeIdx D₀.schema spec.doms (RelEntry D₀.relIdx q) ∧ Rooted spec.doms (RelEntry D₀.relIdx q) ∧ ∀ e id k, RowOf D₀ e q id k ↔ TupleOf s e q id k := by
  obtain ⟨Ly, b, h1, h2, h3, h4⟩ := hm.build
  obtain ⟨f, hq⟩ := hq
  rw [hm.schema] at hq
  obtain ⟨hops, d, x, j, p, hp⟩ := hf.query.path q f hq
  obtain ⟨spec, ds, ha⟩ := hm.asks q f hops d x j p hq hp
  have hlay : Layout s d ds := by have := ha.layout; rwa [hm.schema] at this
  have hcomp := hm.complete hf hi hq hp hlay
  have hk := kind_field hf h1 h2 hq hp hlay (spec := spec) (by rw [← h4]; exact ha.known)
  have heq : RelEntry D₀.relIdx q = TupleRef D₀.schema d ds.length hops := by
    funext i g j'
    refine propext ⟨fun he => ?_, hcomp i g j'⟩
    rw [hm.schema]
    exact hk.sound i g j' (by rw [← h3]; exact he)
  obtain ⟨a1, a2, a3, _⟩ := ha.tree
  refine ⟨spec, ha.known, field_observed hf h1 h2 hq (by rw [← h4]; exact ha.known), a3, by rw [heq]; exact a1, by rw [heq]; exact a2, ?_⟩
  intro e id k
  rw [← hm.schema, ← ha.tupleOf]
  unfold RowOf RowTuple
  rw [heq]
  constructor
  · rintro ⟨spec', k1, k2⟩
    rw [ha.known] at k1
    cases k1
    exact k2
  · intro h
    exact ⟨spec, ha.known, h⟩

theorem Laid.ready (hm : Laid s hash mkC mkE clean finalOnly D₀) (hf : Fine s clean) (hi : Indexed s finalOnly) :
    ∃ r, Ready D₀ r ∧ Wired D₀.schema D₀.relIdx D₀.classRels D₀.H.schema D₀.schema.query.recordClass r := by
  obtain ⟨r, hw⟩ := hm.wired
  have hlast : ∀ q, Queried D₀ q → ∀ spec, D₀.H.schema.find? q = some spec → spec.doms.getLast? = some D₀.schema.query.recordClass := by
    intro q hq spec hs
    obtain ⟨spec', h1, _, h2, _⟩ := hm.rowOf hf hi hq
    rw [hs] at h1
    cases h1
    exact h2
  refine ⟨r, ⟨hw.rank, ?_, ?_, ?_⟩, hw⟩
  · intro q hq
    obtain ⟨spec, h1, h2, h3, h4, h5, _⟩ := hm.rowOf hf hi hq
    exact ⟨spec, h1, h2, h3, h4, h5⟩
  · intro n spec b hn hb hq
    obtain ⟨sp, tl, c, c', h1, _, _, h2, _, h3, _⟩ := hw.base n spec b hn hb
    rw [hlast b hq sp h1] at h2
    cases h2
    exact h3 rfl
  · intro d rels n hd h1 h2 hq
    obtain ⟨spec, h3, h4⟩ := hw.of d rels n h1 h2
    rw [hlast n hq spec h3] at h4
    cases h4
    exact hd rfl

theorem under_of {r : String → Nat} (hrank : ∀ c f d, Refers D.schema c f d → r d < r c) {B : Nat} (hb : ∀ c, r c < B)
    (ho : NoOrphans D.schema D.schema.query.recordClass D.ents) : Under D r := by
  have : ∀ n c f i v, B - r c ≤ n → HasRef D.ents c f i v → r c ≤ r D.schema.query.recordClass := by
    intro n
    induction n with
    | zero => intro c f i v hn; have := hb c; omega
    | succ n ih =>
      intro c f i v hn hv
      rcases ho c f i v hv with rfl | ⟨c', f', i', h1, h2⟩
      · exact Nat.le_refl _
      · have := hrank _ _ _ h1
        have := hb c'
        have := ih c' f' i' i (by omega) h2
        omega
  exact fun c f i v hv => this _ c f i v (Nat.le_refl _) hv


/-! ### A tuple is incorporated only once -/

theorem _root_.Verif.Rel.incorporate_new {σ σ' : Verif.Doms} {b : Option (BaseView V)} {r r' : Rel F} (hr : r.Indexed) {items : Items} {v : V} {t t' : Tape}
    (h : r.incorporate σ b items v t = .ok (σ', r', t')) : r.data.contains items = false := by
  cases r with
  | clean c r =>
    obtain ⟨⟨σ₁, r₁, t₁⟩, h1, h⟩ := bind_ok.mp h
    exact (CleanRel.incorporate_idx h1).2.2.1
  | noisy e p r =>
    obtain ⟨b', _, h⟩ := bind_ok.mp h
    obtain ⟨⟨σ₁, r₁, t₁⟩, h1, h⟩ := bind_ok.mp h
    unfold NoisyRel.incorporate at h1
    obtain ⟨bi, _, h1⟩ := bind_ok.mp h1
    obtain ⟨bv, _, h1⟩ := bind_ok.mp h1
    obtain ⟨⟨σ₂, em, t₂⟩, h2, h1⟩ := bind_ok.mp h1
    have hr : r.Indexed := hr
    show r.data.contains items = false
    rw [← hr.keys]
    exact (CleanRel.incorporate_idx h2).2.2.1

theorem hirm_incorporate_new {H H' : HIRM F} (ht : H.Tidy) {q : String} {k : Items} {v : V} {t t' : Tape} (h : H.incorporate q k v t = .ok (H', t')) :
    H.value q k = none := by
  obtain ⟨⟨tb, I⟩, h1, h⟩ := bind_ok.mp h
  obtain ⟨⟨I', u⟩, h2, h⟩ := bind_ok.mp h
  obtain ⟨⟨id, rel⟩, h3, h2⟩ := bind_ok.mp h2
  obtain ⟨⟨σ, rel', u'⟩, h4, h2⟩ := bind_ok.mp h2
  obtain ⟨hT, hI⟩ := HIRM.relationToIrm_ok.mp h1
  have hx := FMap.atKey_ok.mp h3
  have hn := Rel.incorporate_new (ht.irms tb I hI q _ hx).1 h4
  rw [HIRM.value_of (HIRM.relOf_some.mpr ⟨hT, I, hI, hx⟩)]
  exact FMap.contains_false.mp hn

/-! ### What does not touch the query relations, and adds references only -/

/-- The query relations are as before, and references of classes that are not above `B` have been added. -/
structure Calm (D₀ : DB F) (r : String → Nat) (B : Nat) (D D' : DB F) : Prop where
  quiet : Quiet (Queried D₀) D.H D'.H
  same : Same D₀ D'
  grow : Grow D₀.schema D₀.hash (fun _ c _ _ _ _ => r c ≤ B) D.ents D'.ents

section
variable {r : String → Nat} {B : Nat}

theorem Calm.refl (hs : Same D₀ D) : Calm D₀ r B D D := ⟨.refl _, hs, .refl⟩

theorem Calm.trans {D'' : DB F} (h : Calm D₀ r B D D') (h' : Calm D₀ r B D' D'') : Calm D₀ r B D D'' :=
  ⟨HIRM.Next.trans h.quiet h'.quiet, h'.same, h.grow.trans h'.grow⟩

theorem Grow.under {e e' : Ents} (h : Grow s hash (fun _ c _ _ _ _ => r c ≤ B) e e') (hu : ∀ c f i v, HasRef e c f i v → r c ≤ B) :
    ∀ c f i v, HasRef e' c f i v → r c ≤ B := by
  induction h with
  | refl => exact hu
  | step _ _ _ h3 h4 ih =>
    intro c' f' i' w hw
    rw [addRef_hasRef h4] at hw
    split at hw
    · rename_i hk
      rw [hk.1]
      exact h3
    · exact ih _ _ _ _ hw

theorem From.grow (hr : ∀ c f d, Refers s c f d → r d < r c) {c : String} {i : Int} {e e' : Ents} (h : Grow s hash (From s c i) e e') (hc : r c ≤ B) :
    Grow s hash (fun _ c _ _ _ _ => r c ≤ B) e e' := by
  refine h.mono fun e₁ c' f i' d v _ hf => ?_
  rcases Uses.rank hr hf with h | ⟨rfl, _⟩
  · omega
  · exact hc

theorem forBase_calm (hw : Wired D₀.schema D₀.relIdx D₀.classRels D₀.H.schema D₀.schema.query.recordClass r) {rec : String → Int → DB F → Tape → Res (DB F × Tape)} {c₀ : String}
    (hrec : ∀ c i D' t t', r c < r c₀ → c ≠ D₀.schema.query.recordClass → rec c i D t = .ok (D', t') → Calm D₀ r B D D') (hs : Same D₀ D) {rel : String} {spec : RelSpec F}
    (hspec : D₀.H.schema.find? rel = some spec) (hlast : spec.doms.getLast? = some c₀) {items : Items} {t t' : Tape}
    (h : DB.forBase rec rel items D t = .ok (D', t')) : Calm D₀ r B D D' := by
  unfold DB.forBase at h
  obtain ⟨spec', h1, h⟩ := bind_ok.mp h
  rw [hs.rels, FMap.atKey_of_find hspec] at h1
  cases h1
  cases spec with
  | clean c ds o => cases h; exact .refl hs
  | noisy e ds base o =>
    obtain ⟨bi, _, h⟩ := bind_ok.mp h
    obtain ⟨bspec, h2, h⟩ := bind_ok.mp h
    obtain ⟨c, h3, h⟩ := bind_ok.mp h
    obtain ⟨i, _, h⟩ := bind_ok.mp h
    obtain ⟨sp, tl, c', c'', k1, _, k2, k3, k4, k5, _⟩ := hw.base rel _ base hspec rfl
    rw [hs.rels, FMap.atKey_of_find k1] at h2
    cases h2
    unfold DB.back at h3
    rw [k3] at h3
    cases h3
    rw [hlast] at k2
    cases k2
    exact hrec _ _ _ _ _ k4 k5 h

theorem forRels_calm (hr : Ready D₀ r) (hw : Wired D₀.schema D₀.relIdx D₀.classRels D₀.H.schema D₀.schema.query.recordClass r)
    {rec : String → Int → DB F → Tape → Res (DB F × Tape)} {c : String}
    (hrec : ∀ c' i D D' t t', Same D₀ D → r c' < r c → c' ≠ D₀.schema.query.recordClass → rec c' i D t = .ok (D', t') → Calm D₀ r B D D') (hB : r c ≤ B) {i : Int}
    {l : List String} : ∀ {D D' : DB F} {t t' : Tape}, Same D₀ D → (∀ n ∈ l, ¬ Queried D₀ n ∧ ∃ spec, D₀.H.schema.find? n = some spec ∧ spec.doms.getLast? = some c) →
      DB.forRels rec c i l D t = .ok (D', t') → Calm D₀ r B D D' := by
  induction l with
  | nil => intro D D' t t' hs _ h; cases h; exact .refl hs
  | cons n l ih =>
    intro D D' t t' hs hl h
    unfold DB.forRels at h
    obtain ⟨⟨_, e, t₁⟩, h1, h⟩ := bind_ok.mp h
    dsimp only at h
    obtain ⟨spec', h2, h⟩ := bind_ok.mp h
    obtain ⟨items, _, h⟩ := bind_ok.mp h
    obtain ⟨⟨D₁, t₂⟩, h3, h⟩ := bind_ok.mp h
    dsimp only at h
    obtain ⟨⟨D₂, t₃⟩, h4, h⟩ := bind_ok.mp h
    obtain ⟨hq, spec, hspec, hlast⟩ := hl n (by simp)
    have hs1 : Same D₀ { D with ents := e } := hs.trans (.ents D e)
    have c0 : Calm D₀ r B D { D with ents := e } := by
      refine ⟨.refl _, hs1, ?_⟩
      have hg := (sampleAncestors_spec _ _ _ _ _ _ _ _ h1).1
      rw [hs.schema, hs.hash] at hg
      exact From.grow hr.rank hg hB
    have c1 : Calm D₀ r B { D with ents := e } D₁ := forBase_calm hw (fun c' i D' t t' => hrec c' i _ D' t t' hs1) hs1 hspec hlast h3
    have hb : NoBase (Queried D₀) D₁.H.schema := by rw [c1.same.rels]; exact hr.base
    have c2 : Calm D₀ r B D₁ D₂ := by
      have hq2 := ensureValue_quiet hb hq h4
      have he : D₂.ents = D₁.ents ∧ Same D₁ D₂ := by
        unfold DB.ensureValue at h4
        obtain ⟨⟨_, rel⟩, _, h4⟩ := bind_ok.mp h4
        dsimp only at h4
        split at h4
        · cases h4; exact ⟨rfl, .refl _⟩
        · obtain ⟨⟨_, H, _⟩, _, h4⟩ := bind_ok.mp h4
          cases h4
          exact ⟨rfl, rfl, rfl, rfl, rfl, hq2.schema⟩
      exact ⟨hq2, c1.same.trans he.2, by rw [he.1]; exact .refl⟩
    exact ((c0.trans c1).trans c2).trans (ih c2.same (fun n hn => hl n (by simp [hn])) h)

theorem forClass_calm (hr : Ready D₀ r) (hw : Wired D₀.schema D₀.relIdx D₀.classRels D₀.H.schema D₀.schema.query.recordClass r) (n : Nat) :
    ∀ (c : String) (i : Int) (D D' : DB F) (t t' : Tape), Same D₀ D → r c ≤ B → c ≠ D₀.schema.query.recordClass → DB.forClass n c i D t = .ok (D', t') → Calm D₀ r B D D' := by
  induction n with
  | zero => intro c i D D' t t' _ _ _ h; cases h
  | succ n ih =>
    intro c i D D' t t' hs hB hc h
    unfold DB.forClass at h
    obtain ⟨rels, h1, h⟩ := bind_ok.mp h
    rw [hs.classRels] at h1
    have h1 := FMap.atKey_ok.mp h1
    exact forRels_calm hr hw (fun c' i D D' t t' hs hlt hne => ih c' i D D' t t' hs (by omega) hne) hB hs (fun m hm => ⟨hr.cls c rels m hc h1 hm, hw.of c rels m h1 hm⟩) h

/-! ### Rows -/

/-- the values stay where they are when references are added -/
theorem Held.extends {R : String → Int → V → Prop} (hr : Ready D₀ r) {e e' : Ents} {H : HIRM F} (h : Held D₀ R e H) (hx : Extends e e') : Held D₀ R e' H := by
  have mono : ∀ {q id k}, RowOf D₀ e q id k → RowOf D₀ e' q id k := fun ⟨spec, h1, h2, h3⟩ => ⟨spec, h1, h2.mono hx, h3⟩
  refine ⟨h.tidy, h.schema, fun q hq id v hv => ?_, fun q hq k v => ?_⟩
  · obtain ⟨k, hk⟩ := h.rows q hq id v hv
    exact ⟨k, mono hk⟩
  · rw [h.vals q hq k v]
    constructor
    · rintro ⟨id, h1, h2⟩
      exact ⟨id, h1, mono h2⟩
    · rintro ⟨id, h1, h2⟩
      obtain ⟨k₀, h3⟩ := h.rows q hq id v h1
      have := RowOf.unique hr hq (mono h3) h2
      subst this
      exact ⟨id, h1, h3⟩

/-- a value of a row is added -/
theorem Held.put {R : String → Int → V → Prop} (hr : Ready D₀ r) {e : Ents} {H H' : HIRM F} (h : Held D₀ R e H) {q : String} (hq : Queried D₀ q) {id : Int} {k : Items}
    (hk : RowOf D₀ e q id k) {v : V} {t t' : Tape} (hi : H.incorporate q k v t = .ok (H', t')) :
    Held D₀ (fun q' id' v' => R q' id' v' ∨ q' = q ∧ id' = id ∧ v' = v) e H' ∧ ∀ w, ¬ R q id w := by
  have hnew := hirm_incorporate_new h.tidy hi
  have hno : ∀ w, ¬ R q id w := by
    intro w hw
    have := (h.vals q hq k w).mpr ⟨id, hw, hk⟩
    rw [hnew] at this
    cases this
  obtain ⟨g1, d, g2, g3⟩ := HIRM.incorporate_next hi
  refine ⟨⟨g1.tidy h.tidy, g1.schema.trans h.schema, ?_, ?_⟩, hno⟩
  · rintro p hp id' v' (h1 | ⟨rfl, rfl, rfl⟩)
    · exact h.rows p hp id' v' h1
    · exact ⟨k, hk⟩
  · intro p hp k' v'
    by_cases hpq : p = q
    · subst hpq
      rw [HIRM.value_dataOf g3, FMap.find?_set]
      by_cases hkk : k' = k
      · subst hkk
        rw [if_pos rfl]
        constructor
        · intro hv
          cases hv
          exact ⟨id, Or.inr ⟨rfl, rfl, rfl⟩, hk⟩
        · rintro ⟨id', h1 | ⟨_, _, rfl⟩, h2⟩
          · have := RowOf.row h2 hk
            subst this
            exact absurd h1 (hno v')
          · rfl
      · rw [if_neg hkk, ← HIRM.value_dataOf g2, h.vals p hp k' v']
        constructor
        · rintro ⟨id', h1, h2⟩
          exact ⟨id', Or.inl h1, h2⟩
        · rintro ⟨id', h1 | ⟨_, rfl, _⟩, h2⟩
          · exact ⟨id', h1, h2⟩
          · exact absurd (RowOf.unique hr hp h2 hk) hkk
    · rw [g1.value hpq, h.vals p hp k' v']
      refine exists_congr fun id' => and_congr_left fun _ => ⟨Or.inl, ?_⟩
      rintro (h1 | ⟨h2, _⟩)
      · exact h1
      · exact absurd h2 hpq

theorem Held.congr {R R' : String → Int → V → Prop} {e : Ents} {H : HIRM F} (h : Held D₀ R e H) (hR : ∀ q id v, R q id v ↔ R' q id v) : Held D₀ R' e H := by
  have : R = R' := by
    funext q id v
    exact propext (hR q id v)
  rw [← this]
  exact h

/-- What the incorporation of a row leads to: the values are those of before and of the row, which had no values for these query fields. -/
structure RowTaken (D₀ : DB F) (r : String → Nat) (R : String → Int → V → Prop) (id : Int) (row : List (String × V)) (D' : DB F) : Prop where
  same : Same D₀ D'
  ok : EntsOk D₀.schema D₀.hash D'.ents
  under : ∀ c f i v, HasRef D'.ents c f i v → r c ≤ r D₀.schema.query.recordClass
  held : Held D₀ (fun q id' v => R q id' v ∨ id' = id ∧ (q, v) ∈ row) D'.ents D'.H
  new : ∀ q v, (q, v) ∈ row → ∀ w, ¬ R q id w

theorem incorporateLoop_taken (hm : Laid s hash mkC mkE clean finalOnly D₀) (hf : Fine s clean) (hi : Indexed s finalOnly) (hr : Ready D₀ r)
    (hw : Wired D₀.schema D₀.relIdx D₀.classRels D₀.H.schema D₀.schema.query.recordClass r) {n : Nat} {unique : Bool} {id : Int} {row : List (String × V)} :
    ∀ {D D' : DB F} {R : String → Int → V → Prop} {t t' : Tape}, Same D₀ D → EntsOk D₀.schema D₀.hash D.ents →
      (∀ c f i v, HasRef D.ents c f i v → r c ≤ r D₀.schema.query.recordClass) → Held D₀ R D.ents D.H → (∀ q v, (q, v) ∈ row → Queried D₀ q) →
      DB.incorporateLoop n unique id row D t = .ok (D', t') → RowTaken D₀ r R id row D' := by
  induction row with
  | nil =>
    intro D D' R t t' hs hok hu hh _ h
    cases h
    exact ⟨hs, hok, hu, hh.congr (fun q id' v => by simp), fun q v h => by cases h⟩
  | cons x row ih =>
    obtain ⟨q, v⟩ := x
    intro D D' R t t' hs hok hu hh hrow h
    unfold DB.incorporateLoop at h
    obtain ⟨⟨items, D₁, t₁⟩, h1, h⟩ := bind_ok.mp h
    dsimp only at h
    obtain ⟨⟨D₂, t₂⟩, h2, h⟩ := bind_ok.mp h
    have hq := hrow q v (by simp)
    obtain ⟨spec₀, hspec, _, hlast, _, _, hiff⟩ := hm.rowOf hf hi hq
    have hq' := hq
    obtain ⟨f, hf'⟩ := hq'
    rw [hm.schema] at hf'
    obtain ⟨hops, d, y, j, p, hp⟩ := hf.query.path q f hf'
    obtain ⟨spec, ds, ha⟩ := hm.asks q f hops d y j p hf' hp
    have hcp := hm.complete hf hi hf' hp (by have := ha.layout; rwa [hm.schema] at this)
    have hD : D = D₀.at D.H D.ents := by
      obtain ⟨k1, k2, k3, k4, k5⟩ := hs
      cases D
      cases D₀
      simp only at k1 k2 k3 k4
      subst k1; subst k2; subst k3; subst k4
      rfl
    rw [hD] at h1
    obtain ⟨e₁, rfl, g1, _, hk⟩ := rowItems_spec hw ha hs.rels (fun _ => hcp) h1
    have hs1 : Same D₀ (D₀.at D.H e₁) := ⟨rfl, rfl, rfl, rfl, hs.rels⟩
    have hk : RowOf D₀ e₁ q id items := by
      rw [hiff, ← hm.schema]
      exact ha.tupleOf.mp hk
    have hh1 : Held D₀ R e₁ D.H := hh.extends hr g1.extends
    unfold DB.incorporateQuery at h2
    obtain ⟨⟨D₃, t₃⟩, h3, h2⟩ := bind_ok.mp h2
    dsimp only at h2
    obtain ⟨⟨H₄, t₄⟩, h4, h2⟩ := bind_ok.mp h2
    cases h2
    have hc : Calm D₀ r (r D₀.schema.query.recordClass) (D₀.at D.H e₁) D₃ :=
      forBase_calm hw (fun c i D' t t' hlt hne => forClass_calm hr hw n c i _ D' t t' hs1 (by omega) hne) hs1 hspec hlast h3
    have hk3 : RowOf D₀ D₃.ents q id items := by
      obtain ⟨sp, k1, k2, k3⟩ := hk
      exact ⟨sp, k1, k2.mono hc.grow.extends, k3⟩
    obtain ⟨hput, hno⟩ := ((hh1.extends hr hc.grow.extends).quiet hc.quiet).put hr hq hk3 h4
    have hs4 : Same D₀ { D₃ with H := H₄ } := ⟨hc.same.schema, hc.same.hash, hc.same.relIdx, hc.same.classRels, hput.schema⟩
    have hg := (From.grow (B := r D₀.schema.query.recordClass) hr.rank g1 (Nat.le_refl _)).trans hc.grow
    have hend := ih (D := { D₃ with H := H₄ }) hs4 (hg.ok hok) (hg.under hu) hput (fun q v hx => hrow q v (by simp [hx])) h
    refine ⟨hend.same, hend.ok, hend.under, hend.held.congr (fun q' id' v' => ?_), ?_⟩
    · simp only [List.mem_cons, Prod.mk.injEq]
      tauto
    · intro q' v' hx w hw'
      rcases List.mem_cons.mp hx with hx | hx
      · cases hx
        exact hno w hw'
      · exact hend.new q' v' hx w (Or.inl hw')

end

end
end GenDB
end Verif
