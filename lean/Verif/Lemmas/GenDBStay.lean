import Verif.Lemmas.GenDBHeld
/-!
The values of the rows stay at the tuples of the rows: `transition_reference` and all that is made of it.
-/
namespace Verif
namespace GenDB
open PClean
noncomputable section
variable {V : Type} {F : Family V}

/-! ### What does not touch the query relations -/

section
variable {Q : String → Prop}

theorem singleRels_quiet {i : Int} {l : List String} : ∀ {D D' : DB F} {st st' : Stored V} {lp : WithBot ℝ}, NoBase Q D.H.schema → (∀ n ∈ l, ¬ Q n) →
    DB.singleRels i l D st = .ok (lp, D', st') → Quiet Q D.H D'.H ∧ ∀ q, Q q → st'.find? q = st.find? q := by
  induction l with
  | nil => intro D D' st st' lp _ _ h; cases h; exact ⟨.refl _, fun _ _ => rfl⟩
  | cons n l ih =>
    intro D D' st st' lp hb hl h
    unfold DB.singleRels at h
    obtain ⟨k, _, h⟩ := bind_ok.mp h
    obtain ⟨⟨lp₁, H₁, st₁⟩, h1, h⟩ := bind_ok.mp h
    obtain ⟨⟨lp₂, D₂, st₂⟩, h2, h⟩ := bind_ok.mp h
    cases h
    obtain ⟨a1, a2⟩ := unincSingle_quiet hb (hl n (by simp)) h1
    have hb' : NoBase Q H₁.schema := by rw [a1.schema]; exact hb
    obtain ⟨b1, b2⟩ := ih (D := { D with H := H₁ }) hb' (fun n hn => hl n (by simp [hn])) h2
    exact ⟨HIRM.Next.trans a1 b1, fun q hq => (b2 q hq).trans (a2 q hq)⟩

theorem singleDoms_quiet {i : Int} {l : List String} : ∀ {D D' : DB F} {out out' : DomOut} {lp : WithBot ℝ},
    DB.singleDoms i l D out = .ok (lp, D', out') → Quiet Q D.H D'.H := by
  induction l with
  | nil => intro D D' out out' lp h; cases h; exact .refl _
  | cons n l ih =>
    intro D D' out out' lp h
    unfold DB.singleDoms at h
    obtain ⟨k, _, h⟩ := bind_ok.mp h
    obtain ⟨j, _, h⟩ := bind_ok.mp h
    obtain ⟨⟨lp₁, H₁, st₁⟩, h1, h⟩ := bind_ok.mp h
    obtain ⟨⟨lp₂, D₂, st₂⟩, h2, h⟩ := bind_ok.mp h
    cases h
    exact HIRM.Next.trans (dropEntity_quiet _ _ _ _ _ _ _ h1) (ih (D := { D with H := H₁ }) h2)

theorem unincSingleton_quiet {D D' : DB F} {c f : String} {i : Int} {d : String} (hb : NoBase Q D.H.schema)
    (hd : ∀ rels n, D.classRels.find? d = some rels → n ∈ rels → ¬ Q n) {st st' : Stored V} {out out' : DomOut} {ent ent' : EntOut} {lp : WithBot ℝ}
    (h : D.unincSingleton c f i d st out ent = .ok (lp, D', st', out', ent')) : Quiet Q D.H D'.H ∧ ∀ q, Q q → st'.find? q = st.find? q := by
  unfold DB.unincSingleton at h
  obtain ⟨v, _, h⟩ := bind_ok.mp h
  obtain ⟨⟨lp₁, e, ent₁⟩, _, h⟩ := bind_ok.mp h
  obtain ⟨rels, h1, h⟩ := bind_ok.mp h
  obtain ⟨⟨lp₂, D₂, st₂⟩, h3, h⟩ := bind_ok.mp h
  dsimp only at h
  obtain ⟨⟨lp₃, D₃, out₃⟩, h4, h⟩ := bind_ok.mp h
  cases h
  obtain ⟨a1, a2⟩ := singleRels_quiet (D := { D with ents := e }) hb (fun n hn => hd rels n (FMap.atKey_ok.mp h1) hn) h3
  exact ⟨HIRM.Next.trans a1 (singleDoms_quiet h4), a2⟩

theorem ensureValue_quiet {D D' : DB F} {n : String} {k : Items} {t t' : Tape} (hb : NoBase Q D.H.schema) (hn : ¬ Q n) (h : D.ensureValue n k t = .ok (D', t')) :
    Quiet Q D.H D'.H := by
  unfold DB.ensureValue at h
  obtain ⟨⟨tb, rel⟩, _, h⟩ := bind_ok.mp h
  dsimp only at h
  split at h
  · cases h; exact .refl _
  · obtain ⟨⟨v, H, t₁⟩, h1, h⟩ := bind_ok.mp h
    cases h
    exact HIRM.sampleRelation_next _ _ _ _ _ _ hn (fun m e ds b o _ hm => hb m _ b hm rfl) h1

theorem seatRels_quiet {i : Int} {l : List String} : ∀ {D D' : DB F} {t t' : Tape}, NoBase Q D.H.schema → (∀ n ∈ l, ¬ Q n) →
    DB.seatRels i l D t = .ok (D', t') → Quiet Q D.H D'.H := by
  induction l with
  | nil => intro D D' t t' _ _ h; cases h; exact .refl _
  | cons n l ih =>
    intro D D' t t' hb hl h
    unfold DB.seatRels at h
    obtain ⟨k, _, h⟩ := bind_ok.mp h
    obtain ⟨⟨D₁, t₁⟩, h1, h⟩ := bind_ok.mp h
    have a := ensureValue_quiet hb (hl n (by simp)) h1
    have hb' : NoBase Q D₁.H.schema := by rw [a.schema]; exact hb
    exact HIRM.Next.trans a (ih hb' (fun n hn => hl n (by simp [hn])) h)

theorem seatIf_quiet {a : DB.MoveArgs V} {table : Int} {D D' : DB F} {t t' : Tape} (hb : NoBase Q D.H.schema)
    (hd : ∀ rels n, D.classRels.find? a.d = some rels → n ∈ rels → ¬ Q n) (h : DB.seatIf a table D t = .ok (D', t')) :
    Quiet Q D.H D'.H ∧ Same D D' ∧ Extends D.ents D'.ents := by
  unfold DB.seatIf at h
  split at h
  · unfold DB.seatNew at h
    obtain ⟨⟨_, e, t₂⟩, h2, h⟩ := bind_ok.mp h
    dsimp only at h
    obtain ⟨rels, h3, h⟩ := bind_ok.mp h
    have ho := seatRels_only h
    refine ⟨seatRels_quiet (D := { D with ents := e }) hb (fun n hn => hd rels n (FMap.atKey_ok.mp h3) hn) h, (Same.ents D e).trans ho.same, ?_⟩
    rw [ho.ents]
    exact (sampleAncestors_spec _ _ _ _ _ _ _ _ h2).1.extends
  · cases h
    exact ⟨.refl _, .refl _, fun _ _ _ _ h => h⟩

theorem clearIf_quiet {a : DB.MoveArgs V} {table : Int} {D D' : DB F} {m : DB.Move F} {st' : Stored V} {out out' : DomOut} {ent' : EntOut} {lp : WithBot ℝ} (hb : NoBase Q D.H.schema)
    (hd : ∀ rels n, D.classRels.find? a.d = some rels → n ∈ rels → ¬ Q n) (h : DB.clearIf a table D m out = .ok (lp, D', st', out', ent')) :
    Quiet Q D.H D'.H ∧ ∀ q, Q q → st'.find? q = m.single.find? q := by
  unfold DB.clearIf at h
  split at h
  · exact unincSingleton_quiet hb hd h
  · cases h
    exact ⟨.refl _, fun _ _ => rfl⟩

theorem mergeStored_find {st st' : Stored V} {q : String} (h : st'.find? q = none) : (DB.mergeStored st st').find? q = st.find? q := by
  unfold DB.mergeStored
  have hall : ∀ x ∈ st'.entries, x.1 ≠ q := by
    rintro ⟨n, m⟩ hx rfl
    rw [FMap.mem_entries.mp hx] at h
    cases h
  generalize st'.entries = l at hall
  induction l generalizing st with
  | nil => rfl
  | cons x l ih =>
    rw [List.foldl_cons, ih (fun y hy => hall y (by simp [hy]))]
    split
    · rfl
    · rw [FMap.find?_set, if_neg (fun e => hall x (by simp) e.symm)]

end

/-! ### The loop over the candidates -/

section
variable {D₀ : DB F} {r : String → Nat} {R : String → Int → V → Prop} {c f : String} {i : Int} {d : String} {crp : CRP} {single : Int}

theorem Trying.agree {D : DB F} (h : Trying D₀ c f i d crp single D) : Agree c f i D₀.ents D.ents := h.keeps

theorem Agree.setRef {e e₁ e₂ : Ents} {v : Int} (h : Agree c f i e e₁) (hs : GenDB.setRef e₁ c f i v = .ok e₂) : Agree c f i e e₂ := by
  intro c' f' i' w hne hw
  rw [setRef_hasRef hs, if_neg hne]
  exact h _ _ _ _ hne hw

/-- What holds of the values while the candidates are tried. -/
structure Loop (D₀ : DB F) (R : String → Int → V → Prop) (c f : String) (i : Int) (m : DB.Move F) : Prop where
  out : Without D₀ R c f i m.D.H
  single : ∀ q, Queried D₀ q → m.single.find? q = none

theorem Loop.oneTable (hr : Ready D₀ r) (hd : d ≠ D₀.schema.query.recordClass) (hrows : HasTuples D₀ R D₀.ents) {D : DB F} (h : Trying D₀ c f i d crp single D)
    {a : DB.MoveArgs V} (ha : a.c = c ∧ a.f = f ∧ a.i = i ∧ a.d = d) (hst : Stash D₀ R c f i D₀.ents a.stored) (hi : IndsOf D₀ c f (Queried D₀) a.inds)
    {table : Int} {w : ℝ} {m m' : DB.Move F} (hm : Without D₀ R c f i D.H) (hs : ∀ q, Queried D₀ q → m.single.find? q = none) {t t' : Tape}
    (ht : DB.oneTable a table w D m t = .ok (m', t')) : Loop D₀ R c f i m' := by
  obtain ⟨rfl, rfl, rfl, rfl⟩ := ha
  have hcls : ∀ {D' : DB F}, Same D₀ D' → ∀ rels n, D'.classRels.find? a.d = some rels → n ∈ rels → ¬ Queried D₀ n := by
    intro D' hs' rels n h1 h2
    rw [hs'.classRels] at h1
    exact hr.cls a.d rels n hd h1 h2
  have hbase : ∀ {H : HIRM F}, H.schema = D₀.H.schema → NoBase (Queried D₀) H.schema := by
    intro H he
    rw [he]
    exact hr.base
  unfold DB.oneTable at ht
  split at ht
  · cases ht
    exact ⟨hm, hs⟩
  · unfold DB.tryTable at ht
    obtain ⟨⟨D₁, t₁⟩, h1, ht⟩ := bind_ok.mp ht
    dsimp only at ht
    obtain ⟨q1, q2, q3⟩ := seatIf_quiet (Q := Queried D₀) (hbase hm.schema) (hcls h.same) h1
    obtain ⟨st, h2, ht⟩ := bind_ok.mp ht
    obtain ⟨⟨H, t₂⟩, h3, ht⟩ := bind_ok.mp ht
    dsimp only at ht
    obtain ⟨⟨lp, D₂, st₂, out, t₃⟩, h4, ht⟩ := bind_ok.mp ht
    dsimp only at ht
    obtain ⟨⟨lp', D₃, single', out', ent⟩, h5, ht⟩ := bind_ok.mp ht
    cases ht
    have hs1 : Same D₀ D₁ := h.same.trans q2
    have ho1 := hm.quiet q1
    have hag : Agree a.c a.f a.i D₀.ents D₁.ents := fun c' f' i' w hne hw => q3 _ _ _ _ (h.agree _ _ _ _ hne hw)
    rw [hs1.rels, hs1.relIdx] at h2
    obtain ⟨e₁, k1, _⟩ := updateItems_spec h2
    obtain ⟨k2, k3⟩ := hst.update hr k1 h2
    have hag1 := hag.setRef k1
    have hheld := ho1.gave hr hag1 hrows k2 k3 (putStored_put ho1.tidy (hbase ho1.schema) h3)
    have hs2 : Same D₀ { D₁ with H := H } := hs1.trans (OnlyH.of (putRels_schema h3)).same
    have htook := unincReference_took hr hs2 hheld.tidy hi h4
    have ho2 : Without D₀ R a.c a.f a.i D₂.H := hheld.took hr hag1 hrows htook
    have hs3 : Same D₀ D₂ := hs2.trans (unincReference_only h4).same
    obtain ⟨q4, q5⟩ := clearIf_quiet (Q := Queried D₀) (hbase ho2.schema) (hcls hs3) h5
    exact ⟨ho2.quiet q4, fun q hq => (q5 q hq).trans (hs q hq)⟩

theorem Loop.candidates (hr : Ready D₀ r) (hd : d ≠ D₀.schema.query.recordClass) (hrows : HasTuples D₀ R D₀.ents) (hsingle : crp.tables.find? single = none)
    {a : DB.MoveArgs V} (ha : a.c = c ∧ a.f = f ∧ a.i = i ∧ a.d = d ∧ a.single = single) (hnew : a.single = a.init ∨ ¬ Referenced D₀.schema D₀.ents d single)
    (hst : Stash D₀ R c f i D₀.ents a.stored) (hi : IndsOf D₀ c f (Queried D₀) a.inds)
    {l : List (Int × ℝ)} : ∀ {m m' : DB.Move F} {t t' : Tape}, Trying D₀ c f i d crp single m.D → m.ent = ∅ → Loop D₀ R c f i m →
    DB.candidates a l m t = .ok (m', t') → Loop D₀ R c f i m' := by
  induction l with
  | nil => intro m m' t t' _ _ h hc; cases hc; exact h
  | cons x l ih =>
    intro m m' t t' h hm hl hc
    obtain ⟨table, w⟩ := x
    unfold DB.candidates at hc
    obtain ⟨e, h1, hc⟩ := bind_ok.mp hc
    obtain ⟨⟨m₁, t₁⟩, h2, hc⟩ := bind_ok.mp hc
    rw [ha.1, ha.2.1, ha.2.2.1] at h1
    have hT := h.setRef hr.rank h1
    obtain ⟨k1, k2⟩ := hT.oneTable hr.rank hsingle ha hnew (setRef_without h1).2.2 hm h2
    exact ih k1 k2 (Loop.oneTable hr hd hrows hT ⟨ha.1, ha.2.1, ha.2.2.1, ha.2.2.2.1⟩ hst hi hl.out hl.single h2) hc

end

/-! ### The transitions -/

section
variable {r : String → Nat} {R : String → Int → V → Prop}

theorem moveRef_held {D D' : DB F} (hr : Ready D r) (hok : EntsOk D.schema D.hash D.ents) {c f : String} {i : Int}
    {d : String} {v : Int} {crp : CRP} {w : FMap Int ℝ} {t t' : Tape} (href : Refers D.schema c f d) (hv : HasRef D.ents c f i v) (hd : D.ents.crps.find? d = some crp)
    (hrc : d ≠ D.schema.query.recordClass) (hw : crp.tablesWeightsGibbs v = .ok w) (hh : Held D R D.ents D.H) (h : D.moveRef c f i d v crp w t = .ok (D', t')) :
    Held D R D'.ents D'.H := by
  have hcls : ∀ {D' : DB F}, Same D D' → ∀ rels n, D'.classRels.find? d = some rels → n ∈ rels → ¬ Queried D n := by
    intro D' hs' rels n h1 h2
    rw [hs'.classRels] at h1
    exact hr.cls d rels n hrc h1 h2
  have hbase : ∀ {H : HIRM F}, H.schema = D.H.schema → NoBase (Queried D) H.schema := by
    intro H he
    rw [he]
    exact hr.base
  have hag0 : Agree c f i D.ents D.ents := fun _ _ _ _ _ h => h
  unfold DB.moveRef at h
  obtain ⟨inds, hinds, h⟩ := bind_ok.mp h
  obtain ⟨⟨cur, D₁, stored, out, t₁⟩, h1, h⟩ := bind_ok.mp h
  dsimp only at h
  obtain ⟨⟨cur', m⟩, h2, h⟩ := bind_ok.mp h
  dsimp only at h
  obtain ⟨⟨m₁, t₂⟩, h3, h⟩ := bind_ok.mp h
  have hinds := domainInds_spec hinds
  have ho := unincReference_only h1
  have htook := unincReference_took hr (.refl D) hh.tidy hinds h1
  have hout₁ := hh.took hr hag0 hh.rows htook
  have hstash := hh.stash hr htook
  unfold DB.leave at h2
  obtain ⟨crp₀, k1, h2⟩ := bind_ok.mp h2
  rw [ho.ents, FMap.atKey_of_find hd] at k1
  cases k1
  obtain ⟨crp', k2, h2⟩ := bind_ok.mp h2
  rw [ho.same.hash] at k2
  dsimp only at h2
  have hi := (hok.agree d crp _ v hd).mpr ⟨c, f, i, href, hv, rfl⟩
  obtain ⟨g1, g2, g3⟩ := gibbs_single (hok.wf d crp hd) hi k2 hw
  have hT : Trying D c f i d crp' (DB.singleOf crp v w.keys) { D₁ with ents := { D₁.ents with crps := D₁.ents.crps.set d crp' } } := by
    have hl := hok.loosen href hv hd k2
    refine ⟨ho.same.trans (.ents _ _), by rw [ho.ents]; exact hl, by simp, ?_, ?_⟩
    · intro c' f' i' x _ hx
      rw [ho.ents]
      exact hx
    · intro c' f' i' x _ hx
      rw [ho.ents] at hx
      exact Or.inl hx
  have hm : (Trying D c f i d crp' (DB.singleOf crp v w.keys) m.D ∧ m.ent = ∅) ∧ Loop D R c f i m := by
    split at h2
    · rename_i hs
      obtain ⟨⟨lp, D₂, st, out', ent⟩, h5, h2⟩ := bind_ok.mp h2
      cases h2
      have hl := hT.loose
      rw [← hT.same.schema, ← hT.same.hash] at hl
      have hv' : HasRef ({ D₁ with ents := { D₁.ents with crps := D₁.ents.crps.set d crp' } } : DB F).ents c f i v := by
        rw [ho.ents]; exact hv
      obtain ⟨q1, q2⟩ := unincSingleton_loose hl hv' hT.crp (by rw [← hs]; exact g1) h5
      obtain ⟨q3, q4⟩ := unincSingleton_quiet (Q := Queried D) (hbase hT.same.rels) (hcls hT.same) h5
      exact ⟨⟨hT.only q1, q2⟩, hout₁.quiet q3, fun q hq => by rw [q4 q hq]; simp⟩
    · cases h2
      exact ⟨⟨hT, rfl⟩, hout₁, fun q _ => by simp⟩
  have hnew : DB.singleOf crp v w.keys = v ∨ ¬ Referenced D.schema D.ents d (DB.singleOf crp v w.keys) := by
    refine g3.imp id ?_
    intro hno hx
    obtain ⟨x, hx⟩ := (hok.table hd).mpr hx
    rw [hno] at hx
    cases hx
  obtain ⟨hT₁, hent⟩ := Trying.candidates hr.rank g1 (a := { c := c, f := f, i := i, d := d, init := v, single := DB.singleOf crp v w.keys, cur := cur + cur', inds := inds, stored := stored })
    ⟨rfl, rfl, rfl, rfl, rfl⟩ hnew hm.1.1 hm.1.2 h3
  have hL := Loop.candidates hr hrc hh.rows g1 (a := { c := c, f := f, i := i, d := d, init := v, single := DB.singleOf crp v w.keys, cur := cur + cur', inds := inds, stored := stored })
    ⟨rfl, rfl, rfl, rfl, rfl⟩ hnew hstash hinds hm.1.1 hm.1.2 hm.2 h3
  unfold DB.finish at h
  obtain ⟨⟨k, t₃⟩, _, h⟩ := bind_ok.mp h
  dsimp only at h
  obtain ⟨v', _, h⟩ := bind_ok.mp h
  obtain ⟨st, h6, h⟩ := bind_ok.mp h
  obtain ⟨out', _, h⟩ := bind_ok.mp h
  unfold DB.reincorporate at h
  obtain ⟨⟨H₁, t₄⟩, h8, h⟩ := bind_ok.mp h
  dsimp only at h
  obtain ⟨e, h9, h⟩ := bind_ok.mp h
  obtain ⟨⟨H₂, t₅⟩, h10, h⟩ := bind_ok.mp h
  dsimp only at h
  obtain ⟨H₃, h11, h⟩ := bind_ok.mp h
  cases h
  rw [hent, hT₁.same.schema, hT₁.same.hash] at h9
  obtain ⟨s1, s2⟩ := settleEnts_loose hT₁.loose h9
  rw [hT₁.same.rels, hT₁.same.relIdx] at h6
  obtain ⟨e₁, u1, _⟩ := updateItems_spec h6
  obtain ⟨u2, u3⟩ := hstash.update hr u1 h6
  have hag := hT₁.agree.setRef u1
  have hout := hL.out.quiet (rejoin_quiet h8)
  have hst : Stash D R c f i e₁ (if DB.singleOf crp v w.keys = v' then DB.mergeStored st m₁.single else st) := by
    split
    · intro q hq k x
      rw [← u2 q hq k x]
      unfold part
      rw [mergeStored_find (hL.single q hq)]
    · exact u2
  have hheld := hout.gave hr hag hh.rows hst u3 (putStored_put hout.tidy (hbase hout.schema) h10)
  have hlast : Held D R e₁ H₃ := by
    unfold HIRM.cleanupRelationClusters at h11
    exact hheld.quiet (HIRM.cleanupLoop_next _ _ _ h11)
  refine hlast.of_ents fun c' f' i' x => ?_
  rw [s2, setRef_hasRef u1]

/-- No reference is of a class above that of the rows. -/
def Under (D : DB F) (r : String → Nat) : Prop := ∀ c f i v, HasRef D.ents c f i v → r c ≤ r D.schema.query.recordClass

theorem RefMoved.under {D D' : DB F} (hr : Ready D r) {c f : String} {i : Int} (h : RefMoved D c f i D') (hu : Under D r) : Under D' r := by
  obtain ⟨d, v, v', h1, h2, h3, _⟩ := h.value
  have hc := hu _ _ _ _ h2
  unfold Under
  rw [h.same.schema]
  intro c' f' i' w hw
  by_cases hk : c' = c ∧ f' = f ∧ i' = i
  · obtain ⟨rfl, _, _⟩ := hk
    exact hc
  · rcases h.news _ _ _ _ hk hw with hw' | ⟨d', j, hd', _, hu'⟩
    · exact hu _ _ _ _ hw'
    · have := hr.rank _ _ _ hd'
      rcases Uses.rank hr.rank hu' with h | ⟨h, _⟩
      · omega
      · subst h; omega

/-- The values of the rows are at their tuples, and what is needed for that to stay so. -/
structure Stays (R : String → Int → V → Prop) (r : String → Nat) (D : DB F) : Prop where
  ready : Ready D r
  ok : EntsOk D.schema D.hash D.ents
  under : Under D r
  held : Held D R D.ents D.H

theorem Held.same {D D' : DB F} (hs : Same D D') {e : Ents} {H : HIRM F} (h : Held D R e H) : Held D' R e H := by
  obtain ⟨h1, h2, h3, h4⟩ := h
  refine ⟨h1, h2.trans hs.rels.symm, fun q hq id v hv => ?_, fun q hq k v => ?_⟩
  · rw [hs.queried] at hq
    obtain ⟨k, hk⟩ := h3 q hq id v hv
    exact ⟨k, (RowOf.same hs).mpr hk⟩
  · rw [hs.queried] at hq
    rw [h4 q hq k v]
    exact exists_congr fun id => and_congr_right fun _ => (RowOf.same hs).symm

theorem transitionReference_stays {D D' : DB F} {c f : String} {i : Int} {t t' : Tape} (h : Stays R r D) (ht : D.transitionReference c f i t = .ok (D', t')) :
    Stays R r D' := by
  have hm := transitionReference_moved h.ready.rank h.ok ht
  refine ⟨h.ready.same hm.same, by rw [hm.same.schema, hm.same.hash]; exact hm.ok, hm.under h.ready h.under, ?_⟩
  unfold DB.transitionReference at ht
  obtain ⟨d, h1, ht⟩ := bind_ok.mp ht
  obtain ⟨v, h2, ht⟩ := bind_ok.mp ht
  obtain ⟨crp, h3, ht⟩ := bind_ok.mp ht
  obtain ⟨w, h4, ht⟩ := bind_ok.mp ht
  have hr := refTarget_ok.mp h1
  have hv := getRef_ok.mp h2
  split at ht
  · cases ht
    exact h.held
  · refine (moveRef_held h.ready h.ok hr hv (FMap.atKey_ok.mp h3) ?_ h4 h.held ht).same hm.same
    rintro rfl
    have := h.ready.rank _ _ _ hr
    have := h.under _ _ _ _ hv
    omega

theorem transitionRefs_stays {c : String} {l : List (String × Int)} : ∀ {D D' : DB F} {t t' : Tape}, Stays R r D → DB.transitionRefs c l D t = .ok (D', t') → Stays R r D' := by
  induction l with
  | nil => intro D D' t t' hs h; cases h; exact hs
  | cons x l ih =>
    intro D D' t t' hs h
    obtain ⟨f, i⟩ := x
    unfold DB.transitionRefs at h
    obtain ⟨⟨D₁, t₁⟩, h1, h⟩ := bind_ok.mp h
    exact ih (transitionReference_stays hs h1) h

theorem transitionVars_stays {rec : String → DB F → Tape → Res (DB F × Tape)} (hrec : ∀ d (D D' : DB F) t t', Stays R r D → rec d D t = .ok (D', t') → Stays R r D')
    {vs : List (String × Variable)} : ∀ {D D' : DB F} {t t' : Tape}, Stays R r D → DB.transitionVars rec vs D t = .ok (D', t') → Stays R r D' := by
  induction vs with
  | nil => intro D D' t t' hs h; cases h; exact hs
  | cons x vs ih =>
    intro D D' t t' hs h
    obtain ⟨f, v⟩ := x
    unfold DB.transitionVars at h
    split at h
    · exact ih hs h
    · obtain ⟨⟨D₁, t₁⟩, h1, h⟩ := bind_ok.mp h
      exact ih (hrec _ _ _ _ _ hs h1) h

theorem transitionClass_stays {n : Nat} : ∀ (c : String) (D D' : DB F) (t t' : Tape), Stays R r D → DB.transitionClass n c D t = .ok (D', t') → Stays R r D' := by
  induction n with
  | zero => intro c D D' t t' _ h; cases h
  | succ n ih =>
    intro c D D' t t' hs h
    unfold DB.transitionClass at h
    obtain ⟨cl, _, h⟩ := bind_ok.mp h
    obtain ⟨⟨D₁, t₁⟩, h1, h⟩ := bind_ok.mp h
    dsimp only at h
    obtain ⟨m, _, h⟩ := bind_ok.mp h
    exact transitionRefs_stays (transitionVars_stays ih hs h1) h

theorem hirm_stays {D : DB F} {H : HIRM F} {k : Nat} {t t' : Tape} (hs : Stays R r D) (h : HIRM.inference k D.H t = .ok (H, t')) : Stays R r { D with H := H } := by
  obtain ⟨h1, h2, h3⟩ := HIRM.inference_tidy k D.H t _ hs.held.tidy h
  dsimp only at h1 h2 h3
  have hsame : Same D { D with H := H } := (OnlyH.of h2).same
  refine ⟨hs.ready.same hsame, hs.ok, hs.under, Held.same hsame ⟨h1, h2, hs.held.rows, fun q hq k v => ?_⟩⟩
  rw [← hs.held.vals q hq k v]
  unfold HIRM.value
  rw [h3 q]
  rintro ⟨spec, k1, k2⟩
  obtain ⟨spec', k3, k4, _⟩ := hs.ready.query q hq
  rw [k1] at k3
  cases k3
  rw [k2] at k4
  cases k4

theorem inference_stays {k n : Nat} : ∀ {D D' : DB F} {t t' : Tape}, Stays R r D → DB.inference k n D t = .ok (D', t') → Stays R r D' := by
  induction n with
  | zero => intro D D' t t' hs h; cases h; exact hs
  | succ n ih =>
    intro D D' t t' hs h
    unfold DB.inference at h
    obtain ⟨⟨D₁, t₁⟩, h1, h⟩ := bind_ok.mp h
    unfold DB.inferenceStep at h1
    obtain ⟨⟨H₁, t₂⟩, h2, h1⟩ := bind_ok.mp h1
    dsimp only at h1
    exact ih (transitionClass_stays _ _ _ _ _ (hirm_stays hs h2) h1) h

end

end
end GenDB
end Verif
