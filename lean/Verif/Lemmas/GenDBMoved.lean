import Verif.Lemmas.GenDBMoveEnts
import Verif.Lemmas.HIRMSchema
/-!
What the transitions of references leave as it is.
-/
namespace Verif
namespace GenDB
open PClean
noncomputable section
variable {V : Type} {F : Family V}

/-! ### The schema of the HIRM -/

theorem takeOut_schema {H H' : HIRM F} {r : String} {k : Items} {lp : WithBot ℝ} {v : V} (h : H.takeOut r k = .ok (lp, v, H')) : H'.schema = H.schema := by
  unfold HIRM.takeOut at h
  obtain ⟨⟨tb, I⟩, _, h⟩ := bind_ok.mp h
  obtain ⟨⟨id, rel⟩, _, h⟩ := bind_ok.mp h
  obtain ⟨⟨lp', v', rel'⟩, _, h⟩ := bind_ok.mp h
  cases h
  rfl

theorem unincRel_schema {n : Nat} : ∀ {H H' : HIRM F} {r : String} {k : Items} {ind : Nat} {st st' : Stored V} {lp : WithBot ℝ},
    unincRel n H r k ind st = .ok (lp, H', st') → H'.schema = H.schema := by
  induction n with
  | zero => intro H H' r k ind st st' lp h; cases h
  | succ n ih =>
    intro H H' r k ind st st' lp h
    unfold unincRel at h
    obtain ⟨⟨id, rel⟩, _, h⟩ := bind_ok.mp h
    dsimp only at h
    split at h
    · cases h; rfl
    · obtain ⟨⟨lp', v, H₁⟩, h1, h⟩ := bind_ok.mp h
      dsimp only at h
      obtain ⟨spec, _, h⟩ := bind_ok.mp h
      have := takeOut_schema h1
      cases spec with
      | clean => cases h; exact this
      | noisy e ds b o =>
        dsimp only at h
        obtain ⟨bi, _, h⟩ := bind_ok.mp h
        obtain ⟨⟨lp₂, H₂, st₂⟩, h2, h⟩ := bind_ok.mp h
        cases h
        exact (ih h2).trans this

theorem unincItems_schema {n : Nat} {r : String} {ind : Nat} {i : Int} {l : List Items} : ∀ {H H' : HIRM F} {st st' : Stored V} {lp : WithBot ℝ},
    unincItems n r ind i l H st = .ok (lp, H', st') → H'.schema = H.schema := by
  induction l with
  | nil => intro H H' st st' lp h; cases h; rfl
  | cons k l ih =>
    intro H H' st st' lp h
    unfold unincItems at h
    obtain ⟨j, _, h⟩ := bind_ok.mp h
    split at h
    · obtain ⟨⟨lp₁, H₁, st₁⟩, h1, h⟩ := bind_ok.mp h
      obtain ⟨⟨lp₂, H₂, st₂⟩, h2, h⟩ := bind_ok.mp h
      cases h
      exact (ih h2).trans (unincRel_schema h1)
    · exact ih h

theorem unincInds_schema {n : Nat} {r : String} {i : Int} {l : List Items} {inds : List Nat} : ∀ {H H' : HIRM F} {st st' : Stored V} {lp : WithBot ℝ},
    unincInds n r i l inds H st = .ok (lp, H', st') → H'.schema = H.schema := by
  induction inds with
  | nil => intro H H' st st' lp h; cases h; rfl
  | cons k inds ih =>
    intro H H' st st' lp h
    unfold unincInds at h
    obtain ⟨⟨lp₁, H₁, st₁⟩, h1, h⟩ := bind_ok.mp h
    obtain ⟨⟨lp₂, H₂, st₂⟩, h2, h⟩ := bind_ok.mp h
    cases h
    exact (ih h2).trans (unincItems_schema h1)

theorem unincRels_schema {n : Nat} {c : String} {i : Int} {l : List (String × List Nat)} : ∀ {H H' : HIRM F} {st st' : Stored V} {t t' : Tape} {lp : WithBot ℝ},
    unincRels n c i l H st t = .ok (lp, H', st', t') → H'.schema = H.schema := by
  induction l with
  | nil => intro H H' st st' t t' lp h; cases h; rfl
  | cons x l ih =>
    intro H H' st st' t t' lp h
    obtain ⟨rel, inds⟩ := x
    unfold unincRels at h
    obtain ⟨⟨id, r⟩, _, h⟩ := bind_ok.mp h
    dsimp only at h
    obtain ⟨m, _, h⟩ := bind_ok.mp h
    split at h
    · exact ih h
    · obtain ⟨⟨lp₁, H₁, st₁⟩, h1, h⟩ := bind_ok.mp h
      dsimp only at h
      obtain ⟨⟨lp₂, H₂, st₂, t₂⟩, h2, h⟩ := bind_ok.mp h
      cases h
      exact (ih h2).trans (unincInds_schema h1)

theorem dropRefs_schema {rec : Int → Nat → HIRM F → DomOut → Res (WithBot ℝ × HIRM F × DomOut)}
    (hrec : ∀ v j H out lp H' out', rec v j H out = .ok (lp, H', out') → H'.schema = H.schema) {e : Ents} {c : String} {i : Int} {l : List (String × Nat)} :
    ∀ {H H' : HIRM F} {out out' : DomOut} {lp : WithBot ℝ}, dropRefs rec e c i l H out = .ok (lp, H', out') → H'.schema = H.schema := by
  induction l with
  | nil => intro H H' out out' lp h; cases h; rfl
  | cons x l ih =>
    intro H H' out out' lp h
    obtain ⟨f, j⟩ := x
    unfold dropRefs at h
    obtain ⟨v, _, h⟩ := bind_ok.mp h
    obtain ⟨⟨lp₁, H₁, st₁⟩, h1, h⟩ := bind_ok.mp h
    obtain ⟨⟨lp₂, H₂, st₂⟩, h2, h⟩ := bind_ok.mp h
    cases h
    exact (ih h2).trans (hrec _ _ _ _ _ _ _ h1)

theorem dropEntity_schema {relIdx : FMap String RefIdx} {e : Ents} {rel : String} {n : Nat} : ∀ (v : Int) (j : Nat) (H : HIRM F) (out : DomOut) (lp : WithBot ℝ)
    (H' : HIRM F) (out' : DomOut), dropEntity relIdx e rel n v j H out = .ok (lp, H', out') → H'.schema = H.schema := by
  induction n with
  | zero => intro v j H out lp H' out' h; cases h
  | succ n ih =>
    intro v j H out lp H' out' h
    unfold dropEntity at h
    obtain ⟨⟨code, I⟩, _, h⟩ := bind_ok.mp h
    dsimp only at h
    obtain ⟨spec, _, h⟩ := bind_ok.mp h
    obtain ⟨c, _, h⟩ := bind_ok.mp h
    obtain ⟨dom, _, h⟩ := bind_ok.mp h
    split at h
    · cases h; rfl
    · obtain ⟨has, _, h⟩ := bind_ok.mp h
      split at h
      · cases h; rfl
      · obtain ⟨cluster, _, h⟩ := bind_ok.mp h
        obtain ⟨dom', _, h⟩ := bind_ok.mp h
        split at h
        · cases h; rfl
        · obtain ⟨⟨lp₁, H₁, st₁⟩, h1, h⟩ := bind_ok.mp h
          cases h
          exact (dropRefs_schema ih h1 :)

theorem dropInds_schema {relIdx : FMap String RefIdx} {e : Ents} {f : String} {v : Int} {rel : String} {inds : List Nat} :
    ∀ {H H' : HIRM F} {out out' : DomOut} {lp : WithBot ℝ}, dropInds relIdx e f v rel inds H out = .ok (lp, H', out') → H'.schema = H.schema := by
  induction inds with
  | nil => intro H H' out out' lp h; cases h; rfl
  | cons x l ih =>
    intro H H' out out' lp h
    unfold dropInds at h
    obtain ⟨_, _, h⟩ := bind_ok.mp h
    obtain ⟨_, _, h⟩ := bind_ok.mp h
    obtain ⟨_, _, h⟩ := bind_ok.mp h
    obtain ⟨_, _, h⟩ := bind_ok.mp h
    obtain ⟨⟨lp₁, H₁, st₁⟩, h1, h⟩ := bind_ok.mp h
    obtain ⟨⟨lp₂, H₂, st₂⟩, h2, h⟩ := bind_ok.mp h
    cases h
    exact (ih h2).trans (dropEntity_schema _ _ _ _ _ _ _ h1)

theorem dropRels_schema {relIdx : FMap String RefIdx} {e : Ents} {f : String} {v : Int} {l : List (String × List Nat)} :
    ∀ {H H' : HIRM F} {out out' : DomOut} {lp : WithBot ℝ}, dropRels relIdx e f v l H out = .ok (lp, H', out') → H'.schema = H.schema := by
  induction l with
  | nil => intro H H' out out' lp h; cases h; rfl
  | cons x l ih =>
    intro H H' out out' lp h
    obtain ⟨rel, inds⟩ := x
    unfold dropRels at h
    obtain ⟨⟨lp₁, H₁, st₁⟩, h1, h⟩ := bind_ok.mp h
    obtain ⟨⟨lp₂, H₂, st₂⟩, h2, h⟩ := bind_ok.mp h
    cases h
    exact (ih h2).trans (dropInds_schema h1)

theorem incorporate_schema {H H' : HIRM F} {r : String} {k : Items} {v : V} {t t' : Tape} (h : H.incorporate r k v t = .ok (H', t')) : H'.schema = H.schema := by
  unfold HIRM.incorporate at h
  simp only [bind_ok] at h
  obtain ⟨⟨tb, I⟩, _, ⟨I', t₁⟩, _, h⟩ := h
  cases h
  rfl

theorem putItems_schema {rel : String} {l : List (Items × V)} : ∀ {H H' : HIRM F} {t t' : Tape}, putItems rel l H t = .ok (H', t') → H'.schema = H.schema := by
  induction l with
  | nil => intro H H' t t' h; cases h; rfl
  | cons x l ih =>
    intro H H' t t' h
    obtain ⟨k, v⟩ := x
    unfold putItems at h
    obtain ⟨⟨_, _⟩, _, h⟩ := bind_ok.mp h
    dsimp only at h
    split at h
    · exact ih h
    · obtain ⟨⟨H₁, t₁⟩, h1, h⟩ := bind_ok.mp h
      exact (ih h).trans (incorporate_schema h1)

theorem putRel_schema {st : Stored V} {n : Nat} : ∀ {rel : String} {H H' : HIRM F} {t t' : Tape}, putRel st n rel H t = .ok (H', t') → H'.schema = H.schema := by
  induction n with
  | zero => intro rel H H' t t' h; cases h
  | succ n ih =>
    intro rel H H' t t' h
    unfold putRel at h
    obtain ⟨⟨H₁, t₁⟩, h1, h⟩ := bind_ok.mp h
    dsimp only at h
    obtain ⟨m, _, h⟩ := bind_ok.mp h
    refine (putItems_schema h).trans ?_
    unfold putBase at h1
    obtain ⟨spec, _, h1⟩ := bind_ok.mp h1
    cases spec with
    | clean => cases h1; rfl
    | noisy e ds b o =>
      dsimp only at h1
      split at h1
      · exact ih h1
      · cases h1; rfl

theorem putRels_schema {st : Stored V} {n : Nat} {l : List String} : ∀ {H H' : HIRM F} {t t' : Tape}, putRels n st l H t = .ok (H', t') → H'.schema = H.schema := by
  induction l with
  | nil => intro H H' t t' h; cases h; rfl
  | cons x l ih =>
    intro H H' t t' h
    unfold putRels at h
    obtain ⟨⟨H₁, t₁⟩, h1, h⟩ := bind_ok.mp h
    exact (ih h).trans (putRel_schema h1)

theorem unincSingle_schema {crps : FMap String CRP} {n : Nat} : ∀ {H H' : HIRM F} {r : String} {k : Items} {st st' : Stored V} {lp : WithBot ℝ},
    unincSingle crps n H r k st = .ok (lp, H', st') → H'.schema = H.schema := by
  induction n with
  | zero => intro H H' r k st st' lp h; cases h
  | succ n ih =>
    intro H H' r k st st' lp h
    unfold unincSingle at h
    obtain ⟨⟨id, rel⟩, _, h⟩ := bind_ok.mp h
    dsimp only at h
    obtain ⟨spec, _, h⟩ := bind_ok.mp h
    split at h
    · cases h; rfl
    · obtain ⟨_, _, h⟩ := bind_ok.mp h
      obtain ⟨_, _, h⟩ := bind_ok.mp h
      obtain ⟨_, _, h⟩ := bind_ok.mp h
      split at h
      · cases h; rfl
      · obtain ⟨⟨lp', v, H₁⟩, h1, h⟩ := bind_ok.mp h
        have := takeOut_schema h1
        cases spec with
        | clean => cases h; exact this
        | noisy e ds b o =>
          dsimp only at h
          obtain ⟨bi, _, h⟩ := bind_ok.mp h
          obtain ⟨⟨lp₂, H₂, st₂⟩, h2, h⟩ := bind_ok.mp h
          cases h
          exact (ih h2).trans this

theorem rejoin_schema {l : List ((Int × String × Int) × Int)} : ∀ {H H' : HIRM F} {t t' : Tape}, DB.rejoin l H t = .ok (H', t') → H'.schema = H.schema := by
  induction l with
  | nil => intro H H' t t' h; cases h; rfl
  | cons x l ih =>
    intro H H' t t' h
    obtain ⟨⟨code, c, item⟩, cluster⟩ := x
    unfold DB.rejoin at h
    obtain ⟨I, _, h⟩ := bind_ok.mp h
    obtain ⟨dom, _, h⟩ := bind_ok.mp h
    split at h
    · exact ih h
    · obtain ⟨⟨dom', t₁⟩, h1, h⟩ := bind_ok.mp h
      dsimp only at h
      exact (ih h :)

/-! ### The database -/

/-- Only the HIRM changes, and not its schema. -/
structure OnlyH (D D' : DB F) : Prop where
  same : Same D D'
  ents : D'.ents = D.ents

theorem OnlyH.refl (D : DB F) : OnlyH D D := ⟨.refl _, rfl⟩
theorem OnlyH.trans {D D' D'' : DB F} (h : OnlyH D D') (h' : OnlyH D' D'') : OnlyH D D'' := ⟨h.same.trans h'.same, h'.ents.trans h.ents⟩
theorem OnlyH.of {D : DB F} {H : HIRM F} (h : H.schema = D.H.schema) : OnlyH D { D with H := H } := ⟨⟨rfl, rfl, rfl, rfl, h⟩, rfl⟩

theorem unincReference_only {D D' : DB F} {inds : FMap String (List Nat)} {c f : String} {i : Int} {st st' : Stored V} {out out' : DomOut} {t t' : Tape}
    {lp : WithBot ℝ} (h : D.unincReference inds c f i st out t = .ok (lp, D', st', out', t')) : OnlyH D D' := by
  unfold DB.unincReference at h
  obtain ⟨⟨lp₁, H₁, st₁, t₁⟩, h1, h⟩ := bind_ok.mp h
  obtain ⟨v, _, h⟩ := bind_ok.mp h
  obtain ⟨⟨lp₂, H₂, out₂⟩, h2, h⟩ := bind_ok.mp h
  cases h
  exact .of ((dropRels_schema h2).trans (unincRels_schema h1))

theorem singleRels_only {i : Int} {l : List String} : ∀ {D D' : DB F} {st st' : Stored V} {lp : WithBot ℝ}, DB.singleRels i l D st = .ok (lp, D', st') → OnlyH D D' := by
  induction l with
  | nil => intro D D' st st' lp h; cases h; exact .refl _
  | cons r l ih =>
    intro D D' st st' lp h
    unfold DB.singleRels at h
    obtain ⟨k, _, h⟩ := bind_ok.mp h
    obtain ⟨⟨lp₁, H₁, st₁⟩, h1, h⟩ := bind_ok.mp h
    obtain ⟨⟨lp₂, D₂, st₂⟩, h2, h⟩ := bind_ok.mp h
    cases h
    exact (OnlyH.of (unincSingle_schema h1)).trans (ih h2)

theorem singleDoms_only {i : Int} {l : List String} : ∀ {D D' : DB F} {out out' : DomOut} {lp : WithBot ℝ}, DB.singleDoms i l D out = .ok (lp, D', out') → OnlyH D D' := by
  induction l with
  | nil => intro D D' st st' lp h; cases h; exact .refl _
  | cons r l ih =>
    intro D D' st st' lp h
    unfold DB.singleDoms at h
    obtain ⟨k, _, h⟩ := bind_ok.mp h
    obtain ⟨j, _, h⟩ := bind_ok.mp h
    obtain ⟨⟨lp₁, H₁, st₁⟩, h1, h⟩ := bind_ok.mp h
    obtain ⟨⟨lp₂, D₂, st₂⟩, h2, h⟩ := bind_ok.mp h
    cases h
    exact (OnlyH.of (dropEntity_schema _ _ _ _ _ _ _ h1)).trans (ih h2)

theorem ensureValue_only {D : DB F} {r : String} {k : Items} {t : Tape} {D' : DB F} {t' : Tape} (h : D.ensureValue r k t = .ok (D', t')) : OnlyH D D' := by
  refine ⟨ensureValue_same h, ?_⟩
  unfold DB.ensureValue at h
  obtain ⟨⟨tb, rel⟩, _, h⟩ := bind_ok.mp h
  dsimp only at h
  split at h
  · cases h; rfl
  · obtain ⟨⟨_, _, _⟩, _, h⟩ := bind_ok.mp h
    cases h
    rfl

theorem seatRels_only {i : Int} {l : List String} : ∀ {D D' : DB F} {t t' : Tape}, DB.seatRels i l D t = .ok (D', t') → OnlyH D D' := by
  induction l with
  | nil => intro D D' t t' h; cases h; exact .refl _
  | cons r l ih =>
    intro D D' t t' h
    unfold DB.seatRels at h
    obtain ⟨k, _, h⟩ := bind_ok.mp h
    obtain ⟨⟨D₁, t₁⟩, h1, h⟩ := bind_ok.mp h
    exact (ensureValue_only h1).trans (ih h)

/-- gendb.cc:619-658 when the entity of the loose reference has no table. -/
theorem unincSingleton_loose {D D' : DB F} {c f : String} {i v : Int} {d : String} (h : Loose D.schema D.hash c f i d D.ents) (hv : HasRef D.ents c f i v)
    {crp : CRP} (hd : D.ents.crps.find? d = some crp) (ht : crp.tables.find? v = none) {st st' : Stored V} {out out' : DomOut} {ent ent' : EntOut} {lp : WithBot ℝ}
    (hu : D.unincSingleton c f i d st out ent = .ok (lp, D', st', out', ent')) : OnlyH D D' ∧ ent' = ent := by
  unfold DB.unincSingleton at hu
  obtain ⟨v', _, hu₁⟩ := bind_ok.mp hu
  obtain ⟨⟨lp₁, e, ent₁⟩, h2, hu₂⟩ := bind_ok.mp hu₁
  obtain ⟨he, hent⟩ := clearRefs_loose h hv hd ht h2
  clear hu hu₁ h2
  subst he hent
  obtain ⟨rels, _, hu⟩ := bind_ok.mp hu₂
  obtain ⟨⟨lp₂, D₂, st₂⟩, h3, hu⟩ := bind_ok.mp hu
  dsimp only at hu
  obtain ⟨⟨lp₃, D₃, out₃⟩, h4, hu⟩ := bind_ok.mp hu
  cases hu
  exact ⟨(singleRels_only h3).trans (singleDoms_only h4), rfl⟩

/-! ### The loop over the candidates -/

theorem Grow.from_hasRef {s : PClean.Schema} {hash : String → Int} {e e' : Ents} {d : String} {j : Int} (hg : Grow s hash (From s d j) e e') {c f : String} {i w : Int}
    (h : HasRef e' c f i w) : HasRef e c f i w ∨ Uses s e' d j c i := by
  induction hg with
  | refl => exact Or.inl h
  | step _ h1 h2 h3 h4 ih =>
    have hx := addRef_extends h2 h4
    rw [addRef_hasRef h4] at h
    split at h
    · rename_i hk
      obtain ⟨rfl, rfl, rfl⟩ := hk
      exact Or.inr (Uses.mono hx h3)
    · exact (ih h).imp id (Uses.mono hx)

/-- From an entity of class `d` no reference of a class that refers to `d` is reached. -/
theorem Uses.other {s : PClean.Schema} {r : String → Nat} (hrank : ∀ c f d, Refers s c f d → r d < r c) {e e' : Ents} {c f : String} {i : Int} {d : String}
    (hr : Refers s c f d) (h : ∀ c' f' i' w, ¬ (c' = c ∧ f' = f ∧ i' = i) → HasRef e c' f' i' w → HasRef e' c' f' i' w) {j : Int} {c' : String} {i' : Int} (hu : Uses s e d j c' i') : Uses s e' d j c' i' := by
  induction hu with
  | self => exact .self
  | step hu h2 h3 ih =>
    refine .step ih h2 (h _ _ _ _ ?_ h3)
    rintro ⟨rfl, _, _⟩
    have := hrank _ _ _ hr
    rcases Uses.rank hrank hu with h | ⟨h, _⟩
    · omega
    · subst h; omega

/-- What holds of the entities while the candidates are tried. -/
structure Trying (D₀ : DB F) (c f : String) (i : Int) (d : String) (crp : CRP) (single : Int) (D : DB F) : Prop where
  same : Same D₀ D
  loose : Loose D₀.schema D₀.hash c f i d D.ents
  crp : D.ents.crps.find? d = some crp
  keeps : ∀ c' f' i' w, ¬ (c' = c ∧ f' = f ∧ i' = i) → HasRef D₀.ents c' f' i' w → HasRef D.ents c' f' i' w
  news : ∀ c' f' i' w, ¬ (c' = c ∧ f' = f ∧ i' = i) → HasRef D.ents c' f' i' w → 
    HasRef D₀.ents c' f' i' w ∨ ¬ Referenced D₀.schema D₀.ents d single ∧ Uses D₀.schema D.ents d single c' i'

section
variable {D₀ : DB F} {c f : String} {i : Int} {d : String} {crp : CRP} {single : Int} {D : DB F}

theorem Trying.only (h : Trying D₀ c f i d crp single D) {D' : DB F} (ho : OnlyH D D') : Trying D₀ c f i d crp single D' := by
  obtain ⟨h1, h2, h3, h4, h5⟩ := h
  exact ⟨h1.trans ho.same, by rw [ho.ents]; exact h2, by rw [ho.ents]; exact h3, by rw [ho.ents]; exact h4, by rw [ho.ents]; exact h5⟩

theorem Trying.setRef {r : String → Nat} (hrank : ∀ c f d, Refers D₀.schema c f d → r d < r c) (h : Trying D₀ c f i d crp single D) {v : Int} {e : Ents}
    (hs : GenDB.setRef D.ents c f i v = .ok e) : Trying D₀ c f i d crp single { D with ents := e } := by
  obtain ⟨h1, h2, h3, h4, h5⟩ := h
  have hh := setRef_hasRef hs
  refine ⟨h1.trans (.ents _ _), h2.setRef hs, ?_, ?_, ?_⟩
  · show e.crps.find? d = _
    rw [(setRef_without hs).2.1]
    exact h3
  · intro c' f' i' w hne hw
    show HasRef e c' f' i' w
    rw [hh, if_neg hne]
    exact h4 _ _ _ _ hne hw
  · intro c' f' i' w hne hw
    have hw : HasRef e c' f' i' w := hw
    rw [hh, if_neg hne] at hw
    exact (h5 _ _ _ _ hne hw).imp id (fun h => ⟨h.1, Uses.other hrank h2.refers (fun c' f' i' w hne hw => by rw [hh, if_neg hne]; exact hw) h.2⟩)

theorem Trying.grow {r : String → Nat} (hrank : ∀ c f d, Refers D₀.schema c f d → r d < r c) (h : Trying D₀ c f i d crp single D)
    (hnew : ¬ Referenced D₀.schema D₀.ents d single) {e : Ents} (hg : Grow D₀.schema D₀.hash (From D₀.schema d single) D.ents e) : Trying D₀ c f i d crp single { D with ents := e } := by
  obtain ⟨h1, h2, h3, h4, h5⟩ := h
  obtain ⟨g1, g2⟩ := h2.grow hrank hg
  refine ⟨h1.trans (.ents _ _), g1, g2.trans h3, fun c' f' i' w hne hw => hg.extends _ _ _ _ (h4 _ _ _ _ hne hw), ?_⟩
  intro c' f' i' w hne hw
  rcases hg.from_hasRef hw with hw | hu
  · exact (h5 _ _ _ _ hne hw).imp id (fun h => ⟨h.1, h.2.mono hg.extends⟩)
  · exact Or.inr ⟨hnew, hu⟩

theorem Trying.oneTable {r : String → Nat} (hrank : ∀ c f d, Refers D₀.schema c f d → r d < r c) (h : Trying D₀ c f i d crp single D)
    (hsingle : crp.tables.find? single = none) {a : DB.MoveArgs V} (ha : a.c = c ∧ a.f = f ∧ a.i = i ∧ a.d = d ∧ a.single = single)
    (hnew : a.single = a.init ∨ ¬ Referenced D₀.schema D₀.ents d single) {table : Int} {w : ℝ}
    (hv : HasRef D.ents c f i table) {m m' : DB.Move F} (hm : m.ent = ∅) {t t' : Tape} (ht : DB.oneTable a table w D m t = .ok (m', t')) :
    Trying D₀ c f i d crp single m'.D ∧ m'.ent = ∅ := by
  obtain ⟨rfl, rfl, rfl, rfl, rfl⟩ := ha
  unfold DB.oneTable at ht
  split at ht
  · cases ht
    exact ⟨h, hm⟩
  · rename_i hti
    unfold DB.tryTable at ht
    obtain ⟨⟨D₁, t₁⟩, h1, ht⟩ := bind_ok.mp ht
    dsimp only at ht
    have hseat : Trying D₀ a.c a.f a.i a.d crp a.single D₁ ∧ HasRef D₁.ents a.c a.f a.i table := by
      unfold DB.seatIf at h1
      split at h1
      · rename_i hs
        subst hs
        unfold DB.seatNew at h1
        obtain ⟨⟨_, e, t₂⟩, h2, h1⟩ := bind_ok.mp h1
        dsimp only at h1
        obtain ⟨rels, _, h1⟩ := bind_ok.mp h1
        rw [h.same.schema, h.same.hash] at h2
        have hg := (sampleAncestors_spec _ _ _ _ _ _ _ _ h2).1
        refine ⟨(h.grow hrank (hnew.resolve_left hti) hg).only (seatRels_only h1), ?_⟩
        rw [(seatRels_only h1).ents]
        exact hg.extends _ _ _ _ hv
      · cases h1
        exact ⟨h, hv⟩
    obtain ⟨st, _, ht⟩ := bind_ok.mp ht
    obtain ⟨⟨H, t₂⟩, h3, ht⟩ := bind_ok.mp ht
    dsimp only at ht
    obtain ⟨⟨lp, D₂, st₂, out, t₃⟩, h4, ht⟩ := bind_ok.mp ht
    dsimp only at ht
    obtain ⟨⟨lp', D₃, single', out', ent⟩, h5, ht⟩ := bind_ok.mp ht
    cases ht
    have hH : OnlyH D₁ { D₁ with H := H } := .of (putRels_schema h3)
    have h2' : OnlyH D₁ D₂ := hH.trans (unincReference_only h4)
    have hT := hseat.1.only h2'
    have hv' : HasRef D₂.ents a.c a.f a.i table := by rw [h2'.ents]; exact hseat.2
    unfold DB.clearIf at h5
    split at h5
    · rename_i hs
      have hl : Loose D₂.schema D₂.hash a.c a.f a.i a.d D₂.ents := by rw [hT.same.schema, hT.same.hash]; exact hT.loose
      obtain ⟨k1, k2⟩ := unincSingleton_loose hl hv' hT.crp (by rw [hs]; exact hsingle) h5
      exact ⟨hT.only k1, by rw [k2]; exact hm⟩
    · cases h5
      exact ⟨hT, hm⟩

theorem Trying.candidates {r : String → Nat} (hrank : ∀ c f d, Refers D₀.schema c f d → r d < r c) (hsingle : crp.tables.find? single = none) {a : DB.MoveArgs V}
    (ha : a.c = c ∧ a.f = f ∧ a.i = i ∧ a.d = d ∧ a.single = single) (hnew : a.single = a.init ∨ ¬ Referenced D₀.schema D₀.ents d single) {l : List (Int × ℝ)} : ∀ {m m' : DB.Move F} {t t' : Tape},
    Trying D₀ c f i d crp single m.D → m.ent = ∅ → DB.candidates a l m t = .ok (m', t') → Trying D₀ c f i d crp single m'.D ∧ m'.ent = ∅ := by
  induction l with
  | nil => intro m m' t t' h hm hc; cases hc; exact ⟨h, hm⟩
  | cons x l ih =>
    intro m m' t t' h hm hc
    obtain ⟨table, w⟩ := x
    unfold DB.candidates at hc
    obtain ⟨e, h1, hc⟩ := bind_ok.mp hc
    obtain ⟨⟨m₁, t₁⟩, h2, hc⟩ := bind_ok.mp hc
    rw [ha.1, ha.2.1, ha.2.2.1] at h1
    obtain ⟨k1, k2⟩ := (h.setRef hrank h1).oneTable hrank hsingle ha hnew (setRef_without h1).2.2 hm h2
    exact ih k1 k2 hc

end

theorem cleanupRelationClusters_schema {H H' : HIRM F} (h : H.cleanupRelationClusters = .ok H') : H'.schema = H.schema := by
  unfold HIRM.cleanupRelationClusters at h
  revert h
  generalize H.schema.keys = l
  induction l generalizing H with
  | nil => intro h; cases h; rfl
  | cons r l ih =>
    intro h
    unfold HIRM.cleanupLoop at h
    obtain ⟨⟨tb, I⟩, _, h⟩ := bind_ok.mp h
    dsimp only at h
    obtain ⟨⟨id, rel⟩, _, h⟩ := bind_ok.mp h
    dsimp only at h
    exact (ih h :)

/-- What `transition_reference` does to the entities. -/
structure RefMoved (D : DB F) (c f : String) (i : Int) (D' : DB F) : Prop where
  same : Same D D'
  ok : EntsOk D.schema D.hash D'.ents
  keeps : ∀ c' f' i' w, ¬ (c' = c ∧ f' = f ∧ i' = i) → HasRef D.ents c' f' i' w → HasRef D'.ents c' f' i' w
  value : ∃ d v v', Refers D.schema c f d ∧ HasRef D.ents c f i v ∧ HasRef D'.ents c f i v' ∧
    (v' = v ∨ (∃ c' f' i', ¬ (c' = c ∧ f' = f ∧ i' = i) ∧ Refers D.schema c' f' d ∧ HasRef D.ents c' f' i' v') ∨ ¬ Referenced D.schema D.ents d v')
  news : ∀ c' f' i' w, ¬ (c' = c ∧ f' = f ∧ i' = i) → HasRef D'.ents c' f' i' w →
    HasRef D.ents c' f' i' w ∨ ∃ d j, Refers D.schema c f d ∧ ¬ Referenced D.schema D.ents d j ∧ Uses D.schema D'.ents d j c' i'

theorem moveRef_moved {D D' : DB F} {r : String → Nat} (hrank : ∀ c f d, Refers D.schema c f d → r d < r c) (hok : EntsOk D.schema D.hash D.ents) {c f : String} {i : Int}
    {d : String} {v : Int} {crp : CRP} {w : FMap Int ℝ} {t t' : Tape} (hr : Refers D.schema c f d) (hv : HasRef D.ents c f i v) (hd : D.ents.crps.find? d = some crp)
    (hw : crp.tablesWeightsGibbs v = .ok w) (h : D.moveRef c f i d v crp w t = .ok (D', t')) : RefMoved D c f i D' := by
  unfold DB.moveRef at h
  obtain ⟨inds, _, h⟩ := bind_ok.mp h
  obtain ⟨⟨cur, D₁, stored, out, t₁⟩, h1, h⟩ := bind_ok.mp h
  dsimp only at h
  obtain ⟨⟨cur', m⟩, h2, h⟩ := bind_ok.mp h
  dsimp only at h
  obtain ⟨⟨m₁, t₂⟩, h3, h⟩ := bind_ok.mp h
  have ho := unincReference_only h1
  unfold DB.leave at h2
  obtain ⟨crp₀, k1, h2⟩ := bind_ok.mp h2
  rw [ho.ents, FMap.atKey_of_find hd] at k1
  cases k1
  obtain ⟨crp', k2, h2⟩ := bind_ok.mp h2
  rw [ho.same.hash] at k2
  dsimp only at h2
  have hi := (hok.agree d crp _ v hd).mpr ⟨c, f, i, hr, hv, rfl⟩
  obtain ⟨g1, g2, g3⟩ := gibbs_single (hok.wf d crp hd) hi k2 hw
  have hT : Trying D c f i d crp' (DB.singleOf crp v w.keys) { D₁ with ents := { D₁.ents with crps := D₁.ents.crps.set d crp' } } := by
    have hl := hok.loosen hr hv hd k2
    refine ⟨ho.same.trans (.ents _ _), by rw [ho.ents]; exact hl, by simp, ?_, ?_⟩
    · intro c' f' i' x _ hx
      rw [ho.ents]
      exact hx
    · intro c' f' i' x _ hx
      rw [ho.ents] at hx
      exact Or.inl hx
  have hm : Trying D c f i d crp' (DB.singleOf crp v w.keys) m.D ∧ m.ent = ∅ := by
    split at h2
    · rename_i hs
      obtain ⟨⟨lp, D₂, st, out', ent⟩, h5, h2⟩ := bind_ok.mp h2
      cases h2
      have hl := hT.loose
      rw [← hT.same.schema, ← hT.same.hash] at hl
      have hv' : HasRef ({ D₁ with ents := { D₁.ents with crps := D₁.ents.crps.set d crp' } } : DB F).ents c f i v := by
        rw [ho.ents]; exact hv
      obtain ⟨q1, q2⟩ := unincSingleton_loose hl hv' hT.crp (by rw [← hs]; exact g1) h5
      exact ⟨hT.only q1, q2⟩
    · cases h2
      exact ⟨hT, rfl⟩
  have hnew : DB.singleOf crp v w.keys = v ∨ ¬ Referenced D.schema D.ents d (DB.singleOf crp v w.keys) := by
    refine g3.imp id ?_
    intro hno hx
    obtain ⟨x, hx⟩ := (hok.table hd).mpr hx
    rw [hno] at hx
    cases hx
  obtain ⟨hT₁, hent⟩ := Trying.candidates hrank g1 (a := { c := c, f := f, i := i, d := d, init := v, single := DB.singleOf crp v w.keys, cur := cur + cur', inds := inds, stored := stored })
    ⟨rfl, rfl, rfl, rfl, rfl⟩ hnew hm.1 hm.2 h3
  unfold DB.finish at h
  obtain ⟨⟨k, t₃⟩, _, h⟩ := bind_ok.mp h
  dsimp only at h
  obtain ⟨v', h7, h⟩ := bind_ok.mp h
  obtain ⟨st, _, h⟩ := bind_ok.mp h
  obtain ⟨out', _, h⟩ := bind_ok.mp h
  unfold DB.reincorporate at h
  obtain ⟨⟨H₁, t₄⟩, h8, h⟩ := bind_ok.mp h
  dsimp only at h
  obtain ⟨e, h9, h⟩ := bind_ok.mp h
  obtain ⟨⟨H₂, t₅⟩, h10, h⟩ := bind_ok.mp h
  dsimp only at h
  obtain ⟨H₃, h11, h⟩ := bind_ok.mp h
  cases h
  rw [hent, hT₁.same.schema, hT₁.same.hash] at h9
  obtain ⟨s1, s2⟩ := settleEnts_loose hT₁.loose h9
  have hmem : v' ∈ w.keys := by
    unfold atR at h7
    split at h7
    · rename_i hx
      cases h7
      exact List.mem_of_getElem? hx
    · cases h7
  have hH : H₃.schema = m₁.D.H.schema := by
    have e1 := rejoin_schema h8
    have e2 := putRels_schema h10
    have e3 := cleanupRelationClusters_schema h11
    rw [e3, e2, e1]
  refine ⟨hT₁.same.trans ⟨rfl, rfl, rfl, rfl, hH⟩, s1, ?_, ?_, ?_⟩
  · intro c' f' i' x hne hx
    show HasRef e c' f' i' x
    rw [s2, if_neg hne]
    exact hT₁.keeps _ _ _ _ hne hx
  · refine ⟨d, v, v', hr, hv, (s2 c f i v').mpr (by simp), ?_⟩
    rcases (g2 v').mp hmem with rfl | hx
    · exact hnew.imp id Or.inr
    · right
      left
      obtain ⟨x, hx⟩ := FMap.contains_iff.mp hx
      obtain ⟨j, hj⟩ := (CRP.unincorporate_seating (hok.wf d crp hd) hi k2).1.nonempty _ _ hx
      have hj := ((CRP.unincorporate_seating (hok.wf d crp hd) hi k2).1.mem j v').mpr ⟨x, hx, hj⟩
      rw [(CRP.unincorporate_seating (hok.wf d crp hd) hi k2).2.1, FMap.find?_erase] at hj
      split at hj
      · cases hj
      · rename_i hne
        obtain ⟨c', f', i', a1, a2, a3⟩ := (hok.agree d crp j v' hd).mp hj
        refine ⟨c', f', i', ?_, a1, a2⟩
        rintro ⟨rfl, rfl, rfl⟩
        exact hne a3.symm
  · intro c' f' i' x hne hx
    have hx : HasRef e c' f' i' x := hx
    have hx' := hx
    rw [s2, if_neg hne] at hx
    rcases hT₁.news _ _ _ _ hne hx with h | h
    · exact Or.inl h
    · exact Or.inr ⟨d, _, hr, h.1, Uses.other hrank hr (fun c' f' i' w hne hw => by rw [s2, if_neg hne]; exact hw) h.2⟩

theorem RefMoved.refl {D : DB F} (hok : EntsOk D.schema D.hash D.ents) {c f d : String} {i v : Int} (hr : Refers D.schema c f d) (hv : HasRef D.ents c f i v) :
    RefMoved D c f i D :=
  ⟨.refl _, hok, fun _ _ _ _ _ h => h, ⟨d, v, v, hr, hv, hv, Or.inl rfl⟩, fun _ _ _ _ _ h => Or.inl h⟩

theorem transitionReference_moved {D D' : DB F} {r : String → Nat} (hrank : ∀ c f d, Refers D.schema c f d → r d < r c) (hok : EntsOk D.schema D.hash D.ents)
    {c f : String} {i : Int} {t t' : Tape} (h : D.transitionReference c f i t = .ok (D', t')) : RefMoved D c f i D' := by
  unfold DB.transitionReference at h
  obtain ⟨d, h1, h⟩ := bind_ok.mp h
  obtain ⟨v, h2, h⟩ := bind_ok.mp h
  obtain ⟨crp, h3, h⟩ := bind_ok.mp h
  obtain ⟨w, h4, h⟩ := bind_ok.mp h
  have hr := refTarget_ok.mp h1
  have hv := getRef_ok.mp h2
  split at h
  · cases h
    exact .refl hok hr hv
  · exact moveRef_moved hrank hok hr hv (FMap.atKey_ok.mp h3) h4 h

/-- What all transitions of references do to the entities. -/
structure Kept (D D' : DB F) : Prop where
  same : Same D D'
  ok : EntsOk D.schema D.hash D'.ents
  keeps : ∀ c f i v, HasRef D.ents c f i v → ∃ v', HasRef D'.ents c f i v'
  flat : (∀ c f d g e, Refers D.schema c f d → ¬ Refers D.schema d g e) → ∀ rc, NoOrphans D.schema rc D.ents → NoOrphans D.schema rc D'.ents

theorem Kept.refl {D : DB F} (hok : EntsOk D.schema D.hash D.ents) : Kept D D := ⟨.refl D, hok, fun _ _ _ v h => ⟨v, h⟩, fun _ _ h => h⟩

theorem Kept.trans {D D' D'' : DB F} (h : Kept D D') (h' : Kept D' D'') : Kept D D'' := by
  refine ⟨h.same.trans h'.same, ?_, ?_, ?_⟩
  · have := h'.ok
    rw [h.same.schema, h.same.hash] at this
    exact this
  · intro c f i v hv
    obtain ⟨v', hv'⟩ := h.keeps c f i v hv
    exact h'.keeps c f i v' hv'
  · intro hf rc ho
    have := h'.flat
    rw [h.same.schema] at this
    exact this hf rc (h.flat hf rc ho)

/-- If the entities of the class have no references then none is left behind. -/
theorem RefMoved.noOrphans {D D' : DB F} {c f : String} {i : Int} (h : RefMoved D c f i D')
    (hf : ∀ d, Refers D.schema c f d → ∀ g e, ¬ Refers D.schema d g e) {rc : String} (ho : NoOrphans D.schema rc D.ents) : NoOrphans D.schema rc D'.ents := by
  have keep : ∀ c', (∃ f' w, ∃ i', HasRef D'.ents c' f' i' w) → ∀ i', Referenced D.schema D.ents c' i' → Referenced D.schema D'.ents c' i' := by
    rintro c' ⟨f', w, i₀, hw⟩ i' ⟨c₂, f₂, i₂, hr, hh⟩
    refine ⟨c₂, f₂, i₂, hr, h.keeps _ _ _ _ ?_ hh⟩
    rintro ⟨rfl, rfl, rfl⟩
    obtain ⟨d, hd⟩ := h.ok.typed _ _ _ _ hw
    exact hf _ hr _ _ hd
  intro c' f' i' w hw
  by_cases hk : c' = c ∧ f' = f ∧ i' = i
  · obtain ⟨rfl, rfl, rfl⟩ := hk
    obtain ⟨_, v, _, _, hv, _⟩ := h.value
    exact (ho _ _ _ _ hv).imp id (keep _ ⟨_, _, _, hw⟩ _)
  · rcases h.news _ _ _ _ hk hw with hw' | ⟨d, j, hr, _, hu⟩
    · exact (ho _ _ _ _ hw').imp id (keep _ ⟨_, _, _, hw⟩ _)
    · exfalso
      have : ∀ {d' v'}, Uses D.schema D'.ents d j d' v' → d' = d := by
        intro d' v' hu
        induction hu with
        | self => rfl
        | step _ hr' _ ih => subst ih; exact absurd hr' (hf _ hr _ _)
      have := this hu
      subst this
      obtain ⟨e, he⟩ := h.ok.typed _ _ _ _ hw
      exact hf _ hr _ _ he

theorem RefMoved.kept {D D' : DB F} {c f : String} {i : Int} (h : RefMoved D c f i D') : Kept D D' := by
  refine ⟨h.same, h.ok, ?_, fun hf rc ho => h.noOrphans (fun d hd g e => hf _ _ _ _ _ hd) ho⟩
  intro c' f' i' v hv
  by_cases hk : c' = c ∧ f' = f ∧ i' = i
  · obtain ⟨rfl, rfl, rfl⟩ := hk
    obtain ⟨_, _, v', _, _, hv', _⟩ := h.value
    exact ⟨v', hv'⟩
  · exact ⟨v, h.keeps _ _ _ _ hk hv⟩

section
variable {r : String → Nat}

theorem transitionRefs_kept {c : String} {l : List (String × Int)} : ∀ {D D' : DB F} {t t' : Tape}, (∀ c f d, Refers D.schema c f d → r d < r c) →
    EntsOk D.schema D.hash D.ents → DB.transitionRefs c l D t = .ok (D', t') → Kept D D' := by
  induction l with
  | nil => intro D D' t t' _ hok h; cases h; exact .refl hok
  | cons x l ih =>
    intro D D' t t' hrank hok h
    obtain ⟨f, i⟩ := x
    unfold DB.transitionRefs at h
    obtain ⟨⟨D₁, t₁⟩, h1, h⟩ := bind_ok.mp h
    have hk := (transitionReference_moved hrank hok h1).kept
    exact hk.trans (ih (by rw [hk.same.schema]; exact hrank) (by rw [hk.same.schema, hk.same.hash]; exact hk.ok) h)

theorem transitionVars_kept {rec : String → DB F → Tape → Res (DB F × Tape)}
    (hrec : ∀ d (D D' : DB F) t t', (∀ c f d, Refers D.schema c f d → r d < r c) → EntsOk D.schema D.hash D.ents → rec d D t = .ok (D', t') → Kept D D')
    {vs : List (String × Variable)} : ∀ {D D' : DB F} {t t' : Tape}, (∀ c f d, Refers D.schema c f d → r d < r c) →
    EntsOk D.schema D.hash D.ents → DB.transitionVars rec vs D t = .ok (D', t') → Kept D D' := by
  induction vs with
  | nil => intro D D' t t' _ hok h; cases h; exact .refl hok
  | cons x vs ih =>
    intro D D' t t' hrank hok h
    obtain ⟨f, v⟩ := x
    unfold DB.transitionVars at h
    split at h
    · exact ih hrank hok h
    · obtain ⟨⟨D₁, t₁⟩, h1, h⟩ := bind_ok.mp h
      have hk := hrec _ _ _ _ _ hrank hok h1
      exact hk.trans (ih (by rw [hk.same.schema]; exact hrank) (by rw [hk.same.schema, hk.same.hash]; exact hk.ok) h)

theorem transitionClass_kept {n : Nat} : ∀ (c : String) (D D' : DB F) (t t' : Tape), (∀ c f d, Refers D.schema c f d → r d < r c) →
    EntsOk D.schema D.hash D.ents → DB.transitionClass n c D t = .ok (D', t') → Kept D D' := by
  induction n with
  | zero => intro c D D' t t' _ _ h; cases h
  | succ n ih =>
    intro c D D' t t' hrank hok h
    unfold DB.transitionClass at h
    obtain ⟨cl, _, h⟩ := bind_ok.mp h
    obtain ⟨⟨D₁, t₁⟩, h1, h⟩ := bind_ok.mp h
    dsimp only at h
    obtain ⟨m, _, h⟩ := bind_ok.mp h
    have hk := transitionVars_kept ih hrank hok h1
    exact hk.trans (transitionRefs_kept (by rw [hk.same.schema]; exact hrank) (by rw [hk.same.schema, hk.same.hash]; exact hk.ok) h)

theorem inference_kept {k n : Nat} : ∀ {D D' : DB F} {t t' : Tape}, (∀ c f d, Refers D.schema c f d → r d < r c) →
    EntsOk D.schema D.hash D.ents → DB.inference k n D t = .ok (D', t') → Kept D D' := by
  induction n with
  | zero => intro D D' t t' _ hok h; cases h; exact .refl hok
  | succ n ih =>
    intro D D' t t' hrank hok h
    unfold DB.inference at h
    obtain ⟨⟨D₁, t₁⟩, h1, h⟩ := bind_ok.mp h
    unfold DB.inferenceStep at h1
    obtain ⟨⟨H₁, t₂⟩, h2, h1⟩ := bind_ok.mp h1
    dsimp only at h1
    have hk : Kept D D₁ := by
      have k1 : Kept D { D with H := H₁ } := ⟨⟨rfl, rfl, rfl, rfl, HIRM.inference_schema h2⟩, hok, fun _ _ _ v h => ⟨v, h⟩, fun _ _ h => h⟩
      exact k1.trans (transitionClass_kept _ { D with H := H₁ } _ _ _ hrank hok h1)
    exact hk.trans (ih (by rw [hk.same.schema]; exact hrank) (by rw [hk.same.schema, hk.same.hash]; exact hk.ok) h)

end

end
end GenDB
end Verif
