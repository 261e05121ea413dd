import Verif.Lemmas.HIRMSound
import Verif.Model.GenDBMove
import Verif.Spec.GenDBHistory
/-!
A property of the HIRM that its operations keep is kept by the functions of `GenDB`, and the clusters and stored tuples stay in order.
-/
namespace Verif
namespace GenDB
open PClean
noncomputable section
variable {V : Type} {F : Family V}

/-- kept by what the functions of `GenDB` do to their HIRM -/
structure Holding (P : HIRM F → Prop) : Prop where
  incorporate : ∀ {H H' : HIRM F} {r items v t t'}, P H → H.incorporate r items v t = .ok (H', t') → P H'
  takeOut : ∀ {H H' : HIRM F} {r items lp v}, P H → H.takeOut r items = .ok (lp, v, H') → P H'
  sample : ∀ {H H' : HIRM F} {n r items v t t'}, P H → HIRM.sampleRelation n H r items t = .ok (v, H', t') → P H'
  leave : ∀ {H : HIRM F} {code I c dom dom' i}, P H → H.irms.find? code = some I → I.doms.find? c = some dom → I.hasObservation c i = .ok false →
    dom.unincorporate i = .ok dom' → P { H with irms := H.irms.set code { I with doms := I.doms.set c dom' } }
  join : ∀ {H : HIRM F} {code I c dom dom' i cluster t t'}, P H → H.irms.find? code = some I → I.doms.find? c = some dom → dom.items.contains i = false →
    dom.incorporate i t cluster = .ok (dom', t') → P { H with irms := H.irms.set code { I with doms := I.doms.set c dom' } }
  cleanup : ∀ {H H' : HIRM F}, P H → H.cleanupRelationClusters = .ok H' → P H'
  inference : ∀ {H H' : HIRM F} {k t t'}, P H → HIRM.inference k H t = .ok (H', t') → P H'

theorem firm_closed : Holding (F := F) HIRM.Firm where
  incorporate h hc := h.incorporate hc
  takeOut h hc := h.takeOut hc
  sample h hc := HIRM.Firm.sampleRelation _ _ _ _ _ _ h hc
  leave h hI hd ho hc := h.setIrm ((h _ _ hI).leave hd ho hc)
  join h hI hd hi hc := h.setIrm ((h _ _ hI).join hd hi hc)
  cleanup h hc := h.cleanupRelationClusters hc
  inference h hc := HIRM.Firm.inference _ _ _ _ h hc

namespace Holding
variable {P : HIRM F → Prop}

/-! ### Incorporating rows -/

theorem ensureValue (C : Holding P) {D : DB F} {r : String} {k : Items} {t : Tape} {D' : DB F} {t' : Tape} (hP : P D.H) (h : D.ensureValue r k t = .ok (D', t')) : P D'.H := by
  unfold DB.ensureValue at h
  obtain ⟨⟨tb, rel⟩, _, h⟩ := bind_ok.mp h
  dsimp only at h
  split at h
  · cases h; exact hP
  · obtain ⟨⟨x, H, t₂⟩, h3, h4⟩ := bind_ok.mp h
    cases h4
    exact C.sample hP h3

theorem forBase {rec : String → Int → DB F → Tape → Res (DB F × Tape)} (hrec : ∀ c i D t D' t', P D.H → rec c i D t = .ok (D', t') → P D'.H) {r : String} {k : Items}
    {D : DB F} {t : Tape} {D' : DB F} {t' : Tape} (hP : P D.H) (h : DB.forBase rec r k D t = .ok (D', t')) : P D'.H := by
  unfold DB.forBase at h
  obtain ⟨spec, _, h⟩ := bind_ok.mp h
  cases spec with
  | clean => cases h; exact hP
  | noisy e ds b o =>
    simp only [bind_ok] at h
    obtain ⟨bi, _, bs, _, c, _, i, _, h⟩ := h
    exact hrec _ _ _ _ _ _ hP h

theorem forRels (C : Holding P) {rec : String → Int → DB F → Tape → Res (DB F × Tape)} (hrec : ∀ c i D t D' t', P D.H → rec c i D t = .ok (D', t') → P D'.H) {c : String} {i : Int} :
    ∀ {l : List String} {D : DB F} {t : Tape} {D' : DB F} {t' : Tape}, P D.H → DB.forRels rec c i l D t = .ok (D', t') → P D'.H := by
  intro l
  induction l with
  | nil => intro D t D' t' hP h; cases h; exact hP
  | cons r l ih =>
    intro D t D' t' hP h
    unfold DB.forRels at h
    simp only [bind_ok] at h
    obtain ⟨⟨_, e, t₁⟩, _, spec, _, items, _, ⟨D₁, t₂⟩, h1, ⟨D₂, t₃⟩, h2, h3⟩ := h
    exact ih (C.ensureValue (forBase (D := { D with ents := e }) hrec hP h1) h2) h3

theorem forClass (C : Holding P) : ∀ {n : Nat} {c : String} {i : Int} {D : DB F} {t : Tape} {D' : DB F} {t' : Tape}, P D.H → DB.forClass n c i D t = .ok (D', t') → P D'.H := by
  intro n
  induction n with
  | zero => intro c i D t D' t' _ h; cases h
  | succ n ih =>
    intro c i D t D' t' hP h
    unfold DB.forClass at h
    obtain ⟨rels, _, h⟩ := bind_ok.mp h
    exact C.forRels (fun _ _ _ _ _ _ hP h => ih hP h) hP h

theorem incorporateQuery (C : Holding P) {n : Nat} {r : String} {k : Items} {v : V} {D : DB F} {t : Tape} {D' : DB F} {t' : Tape} (hP : P D.H)
    (h : DB.incorporateQuery n r k v D t = .ok (D', t')) : P D'.H := by
  unfold DB.incorporateQuery at h
  obtain ⟨⟨D₁, t₁⟩, h1, h⟩ := bind_ok.mp h
  obtain ⟨⟨H, t₂⟩, h2, h⟩ := bind_ok.mp h
  cases h
  exact C.incorporate (forBase (fun _ _ _ _ _ _ hP h => C.forClass hP h) hP h1) h2

theorem rowItems {u : Bool} {r : String} {id : Int} {k : Items} {D : DB F} {t : Tape} {D' : DB F} {t' : Tape} (hP : P D.H)
    (h : DB.rowItems u r id D t = .ok (k, D', t')) : P D'.H := by
  unfold DB.rowItems at h
  obtain ⟨f, _, h⟩ := bind_ok.mp h
  dsimp only at h
  split at h
  · simp only [bind_ok] at h
    obtain ⟨spec, _, ⟨items, e⟩, _, h⟩ := h
    cases h
    exact hP
  · simp only [bind_ok] at h
    obtain ⟨⟨items, e, t₁⟩, _, h⟩ := h
    cases h
    exact hP

theorem incorporateLoop (C : Holding P) {n : Nat} {u : Bool} {id : Int} : ∀ {l : List (String × V)} {D : DB F} {t : Tape} {D' : DB F} {t' : Tape}, P D.H →
    DB.incorporateLoop n u id l D t = .ok (D', t') → P D'.H := by
  intro l
  induction l with
  | nil => intro D t D' t' hP h; cases h; exact hP
  | cons qv l ih =>
    obtain ⟨q, v⟩ := qv
    intro D t D' t' hP h
    unfold DB.incorporateLoop at h
    simp only [bind_ok] at h
    obtain ⟨⟨k, D₁, t₁⟩, h1, ⟨D₂, t₂⟩, h2, h3⟩ := h
    exact ih (C.incorporateQuery (rowItems hP h1) h2) h3

/-! ### Taking values out -/

theorem unincRel (C : Holding P) : ∀ {n : Nat} {H : HIRM F} {rel : String} {items : Items} {ind : Nat} {st : Stored V} {x : WithBot ℝ × HIRM F × Stored V}, P H →
    unincRel n H rel items ind st = .ok x → P x.2.1 := by
  intro n
  induction n with
  | zero => intro H rel items ind st x _ h; cases h
  | succ n ih =>
    intro H rel items ind st x hP h
    obtain ⟨⟨p, r⟩, _, h⟩ := bind_ok.mp h
    dsimp only at h
    split at h
    · cases h; exact hP
    · obtain ⟨⟨lp, v, H₁⟩, h1, h⟩ := bind_ok.mp h
      obtain ⟨spec, _, h⟩ := bind_ok.mp h
      cases spec with
      | clean c ds o => cases h; exact C.takeOut hP h1
      | noisy e ds b o =>
        obtain ⟨bi, _, h⟩ := bind_ok.mp h
        obtain ⟨y, h2, h⟩ := bind_ok.mp h
        cases h
        exact ih (x := y) (C.takeOut hP h1) h2

theorem unincItems (C : Holding P) {n : Nat} {rel : String} {ind : Nat} {i : Int} : ∀ {l : List Items} {H : HIRM F} {st : Stored V} {x : WithBot ℝ × HIRM F × Stored V}, P H →
    unincItems n rel ind i l H st = .ok x → P x.2.1 := by
  intro l
  induction l with
  | nil => intro H st x hP h; cases h; exact hP
  | cons items l ih =>
    intro H st x hP h
    obtain ⟨j, _, h⟩ := bind_ok.mp h
    split at h
    · obtain ⟨y, h1, h⟩ := bind_ok.mp h
      obtain ⟨z, h2, h⟩ := bind_ok.mp h
      cases h
      exact ih (x := z) (C.unincRel hP h1) h2
    · exact ih hP h

theorem unincInds (C : Holding P) {n : Nat} {rel : String} {i : Int} {l : List Items} : ∀ {inds : List Nat} {H : HIRM F} {st : Stored V} {x : WithBot ℝ × HIRM F × Stored V}, P H →
    unincInds n rel i l inds H st = .ok x → P x.2.1 := by
  intro inds
  induction inds with
  | nil => intro H st x hP h; cases h; exact hP
  | cons ind inds ih =>
    intro H st x hP h
    obtain ⟨y, h1, h⟩ := bind_ok.mp h
    obtain ⟨z, h2, h⟩ := bind_ok.mp h
    cases h
    exact ih (x := z) (C.unincItems hP h1) h2

theorem unincRels (C : Holding P) {n : Nat} {c : String} {i : Int} : ∀ {l : List (String × List Nat)} {H : HIRM F} {st : Stored V} {t : Tape}
    {x : WithBot ℝ × HIRM F × Stored V × Tape}, P H → unincRels n c i l H st t = .ok x → P x.2.1 := by
  intro l
  induction l with
  | nil => intro H st t x hP h; cases h; exact hP
  | cons e l ih =>
    obtain ⟨rel, inds⟩ := e
    intro H st t x hP h
    obtain ⟨⟨p, r⟩, _, h⟩ := bind_ok.mp h
    obtain ⟨m, _, h⟩ := bind_ok.mp h
    split at h
    · exact ih hP h
    · obtain ⟨y, h1, h⟩ := bind_ok.mp h
      obtain ⟨z, h2, h⟩ := bind_ok.mp h
      cases h
      exact ih (x := z) (C.unincInds hP h1) h2

theorem dropRefs {rec : Int → Nat → HIRM F → DomOut → Res (WithBot ℝ × HIRM F × DomOut)} (hrec : ∀ i j H out x, P H → rec i j H out = .ok x → P x.2.1) {e : Ents} {c : String} {i : Int} :
    ∀ {l : List (String × Nat)} {H : HIRM F} {out : DomOut} {x : WithBot ℝ × HIRM F × DomOut}, P H → dropRefs rec e c i l H out = .ok x → P x.2.1 := by
  intro l
  induction l with
  | nil => intro H out x hP h; cases h; exact hP
  | cons a l ih =>
    obtain ⟨f, j⟩ := a
    intro H out x hP h
    obtain ⟨v, _, h⟩ := bind_ok.mp h
    obtain ⟨y, h1, h⟩ := bind_ok.mp h
    obtain ⟨z, h2, h⟩ := bind_ok.mp h
    cases h
    exact ih (x := z) (hrec _ _ _ _ _ hP h1) h2

theorem dropEntity (C : Holding P) {relIdx : FMap String RefIdx} {e : Ents} {rel : String} : ∀ {n : Nat} {item : Int} {ind : Nat} {H : HIRM F} {out : DomOut}
    {x : WithBot ℝ × HIRM F × DomOut}, P H → dropEntity relIdx e rel n item ind H out = .ok x → P x.2.1 := by
  intro n
  induction n with
  | zero => intro item ind H out x _ h; cases h
  | succ n ih =>
    intro item ind H out x hP h
    obtain ⟨⟨code, I⟩, h1, h⟩ := bind_ok.mp h
    obtain ⟨spec, _, h⟩ := bind_ok.mp h
    obtain ⟨c, _, h⟩ := bind_ok.mp h
    obtain ⟨dom, h2, h⟩ := bind_ok.mp h
    split at h
    · cases h; exact hP
    · obtain ⟨has, h3, h⟩ := bind_ok.mp h
      split at h
      · cases h; exact hP
      · rename_i hn
        obtain ⟨cluster, _, h⟩ := bind_ok.mp h
        obtain ⟨dom', h4, h⟩ := bind_ok.mp h
        have hhas : has = false := by
          cases has with
          | false => rfl
          | true => exact absurd rfl hn
        subst hhas
        have hP' := C.leave hP (HIRM.relationToIrm_ok.mp h1).2 (FMap.atKey_ok.mp h2) h3 h4
        split at h
        · cases h; exact hP'
        · obtain ⟨y, h5, h⟩ := bind_ok.mp h
          cases h
          exact dropRefs (x := y) (fun i j H out x hP h => ih (x := x) hP h) hP' h5

theorem dropInds (C : Holding P) {relIdx : FMap String RefIdx} {e : Ents} {f : String} {v : Int} {rel : String} : ∀ {inds : List Nat} {H : HIRM F} {out : DomOut}
    {x : WithBot ℝ × HIRM F × DomOut}, P H → dropInds relIdx e f v rel inds H out = .ok x → P x.2.1 := by
  intro inds
  induction inds with
  | nil => intro H out x hP h; cases h; exact hP
  | cons ind inds ih =>
    intro H out x hP h
    obtain ⟨_, _, h⟩ := bind_ok.mp h
    obtain ⟨_, _, h⟩ := bind_ok.mp h
    obtain ⟨_, _, h⟩ := bind_ok.mp h
    obtain ⟨_, _, h⟩ := bind_ok.mp h
    obtain ⟨y, h1, h⟩ := bind_ok.mp h
    obtain ⟨z, h2, h⟩ := bind_ok.mp h
    cases h
    exact ih (x := z) (C.dropEntity hP h1) h2

theorem dropRels (C : Holding P) {relIdx : FMap String RefIdx} {e : Ents} {f : String} {v : Int} : ∀ {l : List (String × List Nat)} {H : HIRM F} {out : DomOut}
    {x : WithBot ℝ × HIRM F × DomOut}, P H → dropRels relIdx e f v l H out = .ok x → P x.2.1 := by
  intro l
  induction l with
  | nil => intro H out x hP h; cases h; exact hP
  | cons a l ih =>
    obtain ⟨rel, inds⟩ := a
    intro H out x hP h
    obtain ⟨y, h1, h⟩ := bind_ok.mp h
    obtain ⟨z, h2, h⟩ := bind_ok.mp h
    cases h
    exact ih (x := z) (C.dropInds hP h1) h2

theorem unincSingle (C : Holding P) {crps : FMap String CRP} : ∀ {n : Nat} {H : HIRM F} {rel : String} {items : Items} {st : Stored V} {x : WithBot ℝ × HIRM F × Stored V}, P H →
    unincSingle crps n H rel items st = .ok x → P x.2.1 := by
  intro n
  induction n with
  | zero => intro H rel items st x _ h; cases h
  | succ n ih =>
    intro H rel items st x hP h
    obtain ⟨⟨p, r⟩, _, h⟩ := bind_ok.mp h
    obtain ⟨spec, _, h⟩ := bind_ok.mp h
    split at h
    · cases h; exact hP
    · obtain ⟨c, _, h⟩ := bind_ok.mp h
      obtain ⟨crp, _, h⟩ := bind_ok.mp h
      obtain ⟨j, _, h⟩ := bind_ok.mp h
      split at h
      · cases h; exact hP
      · obtain ⟨⟨lp, v, H₁⟩, h1, h⟩ := bind_ok.mp h
        cases spec with
        | clean c ds o => cases h; exact C.takeOut hP h1
        | noisy e ds b o =>
          obtain ⟨bi, _, h⟩ := bind_ok.mp h
          obtain ⟨y, h2, h⟩ := bind_ok.mp h
          cases h
          exact ih (x := y) (C.takeOut hP h1) h2

theorem unincReference (C : Holding P) {D : DB F} {inds : FMap String (List Nat)} {c f : String} {i : Int} {st : Stored V} {out : DomOut} {t : Tape}
    {x : WithBot ℝ × DB F × Stored V × DomOut × Tape} (hP : P D.H) (h : D.unincReference inds c f i st out t = .ok x) : P x.2.1.H := by
  obtain ⟨y, h1, h⟩ := bind_ok.mp h
  obtain ⟨v, _, h⟩ := bind_ok.mp h
  obtain ⟨z, h2, h⟩ := bind_ok.mp h
  cases h
  exact C.dropRels (x := z) (C.unincRels hP h1) h2

theorem singleRels (C : Holding P) {i : Int} : ∀ {l : List String} {D : DB F} {st : Stored V} {x : WithBot ℝ × DB F × Stored V}, P D.H →
    DB.singleRels i l D st = .ok x → P x.2.1.H := by
  intro l
  induction l with
  | nil => intro D st x hP h; cases h; exact hP
  | cons r l ih =>
    intro D st x hP h
    obtain ⟨items, _, h⟩ := bind_ok.mp h
    obtain ⟨y, h1, h⟩ := bind_ok.mp h
    obtain ⟨z, h2, h⟩ := bind_ok.mp h
    cases h
    exact ih (x := z) (D := { D with H := y.2.1 }) (C.unincSingle hP h1) h2

theorem singleDoms (C : Holding P) {i : Int} : ∀ {l : List String} {D : DB F} {out : DomOut} {x : WithBot ℝ × DB F × DomOut}, P D.H →
    DB.singleDoms i l D out = .ok x → P x.2.1.H := by
  intro l
  induction l with
  | nil => intro D st x hP h; cases h; exact hP
  | cons r l ih =>
    intro D st x hP h
    obtain ⟨items, _, h⟩ := bind_ok.mp h
    obtain ⟨j, _, h⟩ := bind_ok.mp h
    obtain ⟨y, h1, h⟩ := bind_ok.mp h
    obtain ⟨z, h2, h⟩ := bind_ok.mp h
    cases h
    exact ih (x := z) (D := { D with H := y.2.1 }) (C.dropEntity hP h1) h2

theorem unincSingleton (C : Holding P) {D : DB F} {c f : String} {i : Int} {d : String} {st : Stored V} {out : DomOut} {ent : EntOut}
    {x : WithBot ℝ × DB F × Stored V × DomOut × EntOut} (hP : P D.H) (h : D.unincSingleton c f i d st out ent = .ok x) : P x.2.1.H := by
  obtain ⟨v, _, h⟩ := bind_ok.mp h
  obtain ⟨⟨lp, e, ent'⟩, _, h⟩ := bind_ok.mp h
  obtain ⟨rels, _, h⟩ := bind_ok.mp h
  obtain ⟨y, h1, h⟩ := bind_ok.mp h
  obtain ⟨z, h2, h⟩ := bind_ok.mp h
  cases h
  exact C.singleDoms (x := z) (C.singleRels (D := { D with ents := e }) hP h1) h2

/-! ### Putting values back -/

theorem putItems (C : Holding P) {rel : String} : ∀ {l : List (Items × V)} {H : HIRM F} {t : Tape} {x : HIRM F × Tape}, P H → putItems rel l H t = .ok x → P x.1 := by
  intro l
  induction l with
  | nil => intro H t x hP h; cases h; exact hP
  | cons a l ih =>
    obtain ⟨items, v⟩ := a
    intro H t x hP h
    obtain ⟨⟨p, r⟩, _, h⟩ := bind_ok.mp h
    dsimp only at h
    split at h
    · exact ih hP h
    · obtain ⟨y, h1, h⟩ := bind_ok.mp h
      exact ih (C.incorporate hP h1) h

theorem putRel (C : Holding P) {st : Stored V} : ∀ {n : Nat} {rel : String} {H : HIRM F} {t : Tape} {x : HIRM F × Tape}, P H → putRel st n rel H t = .ok x → P x.1 := by
  intro n
  induction n with
  | zero => intro rel H t x _ h; cases h
  | succ n ih =>
    intro rel H t x hP h
    obtain ⟨y, h1, h⟩ := bind_ok.mp h
    obtain ⟨m, _, h⟩ := bind_ok.mp h
    refine C.putItems ?_ h
    obtain ⟨spec, _, h1⟩ := bind_ok.mp h1
    cases spec with
    | clean c ds o => cases h1; exact hP
    | noisy e ds b o =>
      dsimp only at h1
      split at h1
      · exact ih hP h1
      · cases h1; exact hP

theorem putRels (C : Holding P) {n : Nat} {st : Stored V} : ∀ {l : List String} {H : HIRM F} {t : Tape} {x : HIRM F × Tape}, P H → putRels n st l H t = .ok x → P x.1 := by
  intro l
  induction l with
  | nil => intro H t x hP h; cases h; exact hP
  | cons r l ih =>
    intro H t x hP h
    obtain ⟨y, h1, h⟩ := bind_ok.mp h
    exact ih (C.putRel hP h1) h

theorem putStored (C : Holding P) {st : Stored V} {H : HIRM F} {t : Tape} {x : HIRM F × Tape} (hP : P H) (h : putStored st H t = .ok x) : P x.1 := C.putRels hP h

theorem rejoin (C : Holding P) : ∀ {l : List ((Int × String × Int) × Int)} {H : HIRM F} {t : Tape} {x : HIRM F × Tape}, P H → DB.rejoin l H t = .ok x → P x.1 := by
  intro l
  induction l with
  | nil => intro H t x hP h; cases h; exact hP
  | cons a l ih =>
    obtain ⟨⟨code, c, item⟩, cluster⟩ := a
    intro H t x hP h
    obtain ⟨I, h1, h⟩ := bind_ok.mp h
    obtain ⟨dom, h2, h⟩ := bind_ok.mp h
    split at h
    · exact ih hP h
    · rename_i hn
      obtain ⟨⟨dom', t'⟩, h3, h⟩ := bind_ok.mp h
      exact ih (C.join hP (FMap.atKey_ok.mp h1) (FMap.atKey_ok.mp h2) (by simpa using hn) h3) h

/-! ### A transition -/

theorem seatRels (C : Holding P) {i : Int} : ∀ {l : List String} {D : DB F} {t : Tape} {x : DB F × Tape}, P D.H → DB.seatRels i l D t = .ok x → P x.1.H := by
  intro l
  induction l with
  | nil => intro D t x hP h; cases h; exact hP
  | cons r l ih =>
    intro D t x hP h
    obtain ⟨items, _, h⟩ := bind_ok.mp h
    obtain ⟨y, h1, h⟩ := bind_ok.mp h
    exact ih (C.ensureValue hP h1) h

theorem seatIf (C : Holding P) {a : DB.MoveArgs V} {table : Int} {D : DB F} {t : Tape} {x : DB F × Tape} (hP : P D.H) (h : DB.seatIf a table D t = .ok x) : P x.1.H := by
  unfold DB.seatIf at h
  split at h
  · obtain ⟨⟨_, e, t₁⟩, _, h⟩ := bind_ok.mp h
    obtain ⟨rels, _, h⟩ := bind_ok.mp h
    exact C.seatRels (D := { D with ents := e }) hP h
  · cases h; exact hP

theorem clearIf (C : Holding P) {a : DB.MoveArgs V} {table : Int} {D : DB F} {m : DB.Move F} {out : DomOut} {x : WithBot ℝ × DB F × Stored V × DomOut × EntOut} (hP : P D.H)
    (h : DB.clearIf a table D m out = .ok x) : P x.2.1.H := by
  unfold DB.clearIf at h
  split at h
  · exact C.unincSingleton hP h
  · cases h; exact hP

theorem oneTable (C : Holding P) {a : DB.MoveArgs V} {table : Int} {w : ℝ} {D : DB F} {m : DB.Move F} {t : Tape} {x : DB.Move F × Tape} (hP : P D.H)
    (h : DB.oneTable a table w D m t = .ok x) : P x.1.D.H := by
  unfold DB.oneTable at h
  split at h
  · cases h; exact hP
  · obtain ⟨y, h1, h⟩ := bind_ok.mp h
    obtain ⟨st, _, h⟩ := bind_ok.mp h
    obtain ⟨z, h2, h⟩ := bind_ok.mp h
    obtain ⟨u, h3, h⟩ := bind_ok.mp h
    obtain ⟨w, h4, h⟩ := bind_ok.mp h
    cases h
    exact C.clearIf (x := w) (C.unincReference (D := { y.1 with H := z.1 }) (C.putStored (C.seatIf hP h1) h2) h3) h4

theorem candidates (C : Holding P) {a : DB.MoveArgs V} : ∀ {l : List (Int × ℝ)} {m : DB.Move F} {t : Tape} {x : DB.Move F × Tape}, P m.D.H → DB.candidates a l m t = .ok x →
    P x.1.D.H := by
  intro l
  induction l with
  | nil => intro m t x hP h; cases h; exact hP
  | cons b l ih =>
    obtain ⟨table, w⟩ := b
    intro m t x hP h
    obtain ⟨e, _, h⟩ := bind_ok.mp h
    obtain ⟨y, h1, h⟩ := bind_ok.mp h
    exact ih (C.oneTable (D := { m.D with ents := e }) hP h1) h

theorem leaveMove (C : Holding P) {D : DB F} {c f : String} {i : Int} {d : String} {init single : Int} {out : DomOut} {x : WithBot ℝ × DB.Move F} (hP : P D.H)
    (h : D.leave c f i d init single out = .ok x) : P x.2.D.H := by
  obtain ⟨crp, _, h⟩ := bind_ok.mp h
  obtain ⟨crp', _, h⟩ := bind_ok.mp h
  dsimp only at h
  split at h
  · obtain ⟨y, h1, h⟩ := bind_ok.mp h
    cases h
    exact C.unincSingleton (D := { D with ents := { D.ents with crps := D.ents.crps.set d crp' } }) hP h1
  · cases h; exact hP

theorem reincorporate (C : Holding P) {D : DB F} {c f : String} {i v : Int} {d : String} {st : Stored V} {out : DomOut} {ent : EntOut} {t : Tape} {x : DB F × Tape} (hP : P D.H)
    (h : D.reincorporate c f i v d st out ent t = .ok x) : P x.1.H := by
  obtain ⟨y, h1, h⟩ := bind_ok.mp h
  obtain ⟨e, _, h⟩ := bind_ok.mp h
  obtain ⟨z, h2, h⟩ := bind_ok.mp h
  obtain ⟨H, h3, h⟩ := bind_ok.mp h
  cases h
  exact C.cleanup (C.putStored (C.rejoin hP h1) h2) h3

theorem transitionReference (C : Holding P) {D D' : DB F} {c f : String} {i : Int} {t t' : Tape} (hP : P D.H) (h : D.transitionReference c f i t = .ok (D', t')) : P D'.H := by
  obtain ⟨d, _, h⟩ := bind_ok.mp h
  obtain ⟨init, _, h⟩ := bind_ok.mp h
  obtain ⟨crp, _, h⟩ := bind_ok.mp h
  obtain ⟨w, _, h⟩ := bind_ok.mp h
  split at h
  · cases h; exact hP
  · obtain ⟨inds, _, h⟩ := bind_ok.mp h
    obtain ⟨y, h1, h⟩ := bind_ok.mp h
    dsimp only at h
    obtain ⟨z, h2, h⟩ := bind_ok.mp h
    obtain ⟨u, h3, h⟩ := bind_ok.mp h
    obtain ⟨k, _, h⟩ := bind_ok.mp h
    obtain ⟨v, _, h⟩ := bind_ok.mp h
    obtain ⟨st, _, h⟩ := bind_ok.mp h
    obtain ⟨out, _, h⟩ := bind_ok.mp h
    exact C.reincorporate (C.candidates (C.leaveMove (C.unincReference hP h1) h2) h3) h

theorem transitionRefs (C : Holding P) {c : String} : ∀ {l : List (String × Int)} {D : DB F} {t : Tape} {x : DB F × Tape}, P D.H → DB.transitionRefs c l D t = .ok x → P x.1.H := by
  intro l
  induction l with
  | nil => intro D t x hP h; cases h; exact hP
  | cons a l ih =>
    obtain ⟨f, i⟩ := a
    intro D t x hP h
    obtain ⟨y, h1, h⟩ := bind_ok.mp h
    exact ih (C.transitionReference hP h1) h

theorem transitionVars {rec : String → DB F → Tape → Res (DB F × Tape)} (hrec : ∀ c D t x, P D.H → rec c D t = .ok x → P x.1.H) :
    ∀ {l : List (String × Variable)} {D : DB F} {t : Tape} {x : DB F × Tape}, P D.H → DB.transitionVars rec l D t = .ok x → P x.1.H := by
  intro l
  induction l with
  | nil => intro D t x hP h; cases h; exact hP
  | cons a l ih =>
    obtain ⟨f, v⟩ := a
    intro D t x hP h
    unfold DB.transitionVars at h
    split at h
    · exact ih hP h
    · obtain ⟨y, h1, h⟩ := bind_ok.mp h
      exact ih (hrec _ _ _ _ hP h1) h

theorem transitionClass (C : Holding P) : ∀ {n : Nat} {c : String} {D : DB F} {t : Tape} {x : DB F × Tape}, P D.H → DB.transitionClass n c D t = .ok x → P x.1.H := by
  intro n
  induction n with
  | zero => intro c D t x _ h; cases h
  | succ n ih =>
    intro c D t x hP h
    obtain ⟨cl, _, h⟩ := bind_ok.mp h
    obtain ⟨y, h1, h⟩ := bind_ok.mp h
    obtain ⟨m, _, h⟩ := bind_ok.mp h
    exact C.transitionRefs (transitionVars (fun _ _ _ _ hP h => ih hP h) hP h1) h

theorem inferenceDB (C : Holding P) {k : Nat} : ∀ {n : Nat} {D : DB F} {t : Tape} {x : DB F × Tape}, P D.H → DB.inference k n D t = .ok x → P x.1.H := by
  intro n
  induction n with
  | zero => intro D t x hP h; cases h; exact hP
  | succ n ih =>
    intro D t x hP h
    obtain ⟨y, h1, h⟩ := bind_ok.mp h
    obtain ⟨⟨H, t₁⟩, h2, h1⟩ := bind_ok.mp h1
    exact ih (C.transitionClass (D := { D with H := H }) (C.inference hP h2) h1) h

theorem worked (C : Holding P) {D₀ D : DB F} {rows : List (Row V)} (hP : P D₀.H) (h : Worked D₀ rows D) : P D.H := by
  induction h with
  | nil => exact hP
  | row _ _ h ih => exact C.incorporateLoop ih h
  | ref _ h ih => exact C.transitionReference ih h
  | cls _ h ih => exact C.transitionClass ih h
  | iter _ h ih => exact C.inferenceDB ih h
  | rels _ h ih => exact C.inference ih h

end Holding

theorem make_firm {s : PClean.Schema} {hash : String → Int} {mkC : String → FMap String String → Res F.C} {mkE : String → FMap String String → Res F.E} {clean finalOnly : Bool}
    {t₀ t₁ : Tape} {D₀ : DB F} (h : make s hash mkC mkE clean finalOnly t₀ = .ok (D₀, t₁)) : D₀.H.Firm := by
  obtain ⟨_, _, h⟩ := bind_ok.mp h
  obtain ⟨_, _, h⟩ := bind_ok.mp h
  obtain ⟨⟨H, t⟩, h1, h⟩ := bind_ok.mp h
  obtain ⟨_, _, h⟩ := bind_ok.mp h
  cases h
  exact HIRM.mk'_sound h1

end
end GenDB
end Verif
