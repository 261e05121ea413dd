import Verif.Lemmas.GenDBStay
import Verif.Spec.GenDBConserve
/-!
Taking values out of relations and putting them back, for all relations.
-/
namespace Verif
namespace GenDB
open PClean
noncomputable section
variable {V : Type} {F : Family V} {S : Prop} {G : String → Items → Prop} {H H₁ H₂ : HIRM F} {st st₁ st₂ : Stored V}

/-- Values at tuples `G` have been moved to the store; if `S`, the domains have not changed. -/
structure Out (S : Prop) (G : String → Items → Prop) (H : HIRM F) (st : Stored V) (H' : HIRM F) (st' : Stored V) : Prop where
  tidy : H'.Tidy
  schema : H'.schema = H.schema
  next : HIRM.Next (fun _ => True) H H'
  each : ∀ n k, (H'.value n k = H.value n k ∧ part st' n k = part st n k) ∨ (G n k ∧ ∃ v, H.value n k = some v ∧ H'.value n k = none ∧ part st' n k = some v)
  doms : S → ∀ tb, (H'.irms.find? tb).map (·.doms) = (H.irms.find? tb).map (·.doms)

theorem Out.refl (h : H.Tidy) : Out S G H st H st := ⟨h, rfl, .refl H, fun _ _ => Or.inl ⟨rfl, rfl⟩, fun _ _ => rfl⟩

theorem Out.trans (h : Out S G H st H₁ st₁) (h' : Out S G H₁ st₁ H₂ st₂) : Out S G H st H₂ st₂ := by
  refine ⟨h'.tidy, h'.schema.trans h.schema, h.next.trans h'.next, fun n k => ?_, fun hS tb => (h'.doms hS tb).trans (h.doms hS tb)⟩
  rcases h.each n k with ⟨a1, a2⟩ | ⟨a0, v, a1, a2, a3⟩ <;> rcases h'.each n k with ⟨b1, b2⟩ | ⟨b0, w, b1, b2, b3⟩
  · exact Or.inl ⟨b1.trans a1, b2.trans a2⟩
  · exact Or.inr ⟨b0, w, a1.symm.trans b1, b2, b3⟩
  · exact Or.inr ⟨a0, v, a1, b1.trans a2, b2.trans a3⟩
  · rw [a2] at b1; cases b1

theorem Out.quiet (h : Out S G H st H₁ st₁) (h' : Quiet (fun _ => True) H₁ H₂) : Out False G H st H₂ st₁ :=
  ⟨HIRM.Next.tidy h' h.tidy, h'.schema.trans h.schema, h.next.trans (h'.mono fun _ _ => trivial), fun n k => by rw [h'.value trivial k]; exact h.each n k, fun h => h.elim⟩

/-- what is gone stays away -/
theorem Out.gone (h : Out S G H st H₁ st₁) {n : String} {k : Items} (hv : H.value n k = none) : H₁.value n k = none := by
  rcases h.each n k with ⟨a, _⟩ | ⟨_, v, a, _⟩
  · exact a.trans hv
  · rw [hv] at a; cases a

theorem takeOut_doms {rel : String} {items : Items} {lp : WithBot ℝ} {v : V} {H' : HIRM F} (h : H.takeOut rel items = .ok (lp, v, H')) (tb : Int) :
    (H'.irms.find? tb).map (·.doms) = (H.irms.find? tb).map (·.doms) := by
  obtain ⟨⟨tb', I⟩, h1, h⟩ := bind_ok.mp h
  obtain ⟨⟨id, r⟩, _, h⟩ := bind_ok.mp h
  obtain ⟨⟨lp', v', r'⟩, _, h⟩ := bind_ok.mp h
  cases h
  show ((H.irms.set tb' _).find? tb).map _ = _
  rw [FMap.find?_set]
  split
  · rename_i he
    subst he
    rw [(HIRM.relationToIrm_ok.mp h1).2]
    rfl
  · rfl

theorem takeOut_out (ht : H.Tidy) {rel : String} {items : Items} {lp : WithBot ℝ} {v : V} {H' : HIRM F} (hg : G rel items)
    (h : H.takeOut rel items = .ok (lp, v, H')) : Out S G H st H' (store st rel items v) ∧ H'.value rel items = none := by
  have k1 : Took (fun _ => True) _ H st H' (store st rel items v) := takeOut_took ht h
  obtain ⟨_, d, h2, h3, _⟩ := HIRM.takeOut_next h
  have hv : H.value rel items = some v := by rw [HIRM.value_dataOf h2]; exact h3
  have ho := k1.out rel items trivial ⟨rfl, rfl⟩
  refine ⟨⟨k1.tidy, k1.schema, (HIRM.takeOut_next h).1.mono fun _ _ => trivial, fun n k => ?_, fun _ tb => takeOut_doms h tb⟩, ho⟩
  by_cases hm : n = rel ∧ k = items
  · obtain ⟨rfl, rfl⟩ := hm
    exact Or.inr ⟨hg, v, hv, ho, k1.stored _ _ _ trivial ⟨rfl, rfl⟩ hv⟩
  · exact Or.inl ⟨k1.kept n k trivial hm, k1.rest n k trivial (fun h => absurd h hm)⟩

theorem baseItems_ok {rel : String} {items bi : Items} (h : H.baseItems rel items = .ok bi) : ∃ m, bi = items.take m := by
  unfold HIRM.baseItems at h
  obtain ⟨⟨p, r⟩, _, h⟩ := bind_ok.mp h
  dsimp only at h
  obtain ⟨b, _, h⟩ := bind_ok.mp h
  unfold NoisyRel.baseItems at h
  split at h
  · cases h; exact ⟨_, rfl⟩
  · cases h

/-! ### `unincorporate_reference` -/

theorem unincRel_out {i : Int} {n : Nat} : ∀ {H H' : HIRM F} {rel : String} {items : Items} {ind : Nat} {st st' : Stored V} {lp : WithBot ℝ}, H.Tidy →
    (ind < items.length → items[ind]? = some i) → unincRel n H rel items ind st = .ok (lp, H', st') →
    Out True (fun _ k => i ∈ k) H st H' st' ∧ (ind < items.length → H'.value rel items = none) := by
  induction n with
  | zero => intro H H' rel items ind st st' lp _ _ h; cases h
  | succ n ih =>
    intro H H' rel items ind st st' lp ht hi h
    unfold unincRel at h
    obtain ⟨⟨p, r⟩, h1, h⟩ := bind_ok.mp h
    dsimp only at h
    split at h
    · rename_i hc
      cases h
      refine ⟨.refl ht, fun hlt => ?_⟩
      rw [getRelation_value ht h1]
      simp only [Bool.or_eq_true, Bool.not_eq_true', decide_eq_true_eq] at hc
      cases hx : r.data.find? items with
      | none => rfl
      | some v =>
        rw [FMap.contains_iff.mpr ⟨v, hx⟩] at hc
        simp at hc
        omega
    · rename_i hc
      have hlt : ind < items.length := by
        simp only [Bool.or_eq_true, Bool.not_eq_true', decide_eq_true_eq, not_or] at hc
        omega
      obtain ⟨⟨lp₁, v, H₁⟩, h2, h⟩ := bind_ok.mp h
      dsimp only at h
      obtain ⟨spec, h3, h⟩ := bind_ok.mp h
      obtain ⟨k1, k2⟩ := takeOut_out (S := True) (G := fun _ k => i ∈ k) (st := st) ht (List.mem_of_getElem? (hi hlt)) h2
      cases spec with
      | clean c ds o => cases h; exact ⟨k1, fun _ => k2⟩
      | noisy e ds base o =>
        obtain ⟨bi, hb, h⟩ := bind_ok.mp h
        obtain ⟨⟨lp₂, H₂, st₂⟩, h4, h⟩ := bind_ok.mp h
        cases h
        obtain ⟨m, rfl⟩ := baseItems_ok hb
        obtain ⟨k3, _⟩ := ih k1.tidy (fun hl => by
          rw [List.length_take] at hl
          rw [List.getElem?_take_of_lt (by omega)]
          exact hi hlt) h4
        exact ⟨k1.trans k3, fun _ => k3.gone k2⟩

theorem unincItems_out {n : Nat} {rel : String} {ind : Nat} {i : Int} {l : List Items} : ∀ {H H' : HIRM F} {st st' : Stored V} {lp : WithBot ℝ}, H.Tidy →
    unincItems n rel ind i l H st = .ok (lp, H', st') → Out True (fun _ k => i ∈ k) H st H' st' ∧ ∀ k ∈ l, k[ind]? = some i → H'.value rel k = none := by
  induction l with
  | nil => intro H H' st st' lp ht h; cases h; exact ⟨.refl ht, fun _ h => by cases h⟩
  | cons items l ih =>
    intro H H' st st' lp ht h
    unfold unincItems at h
    obtain ⟨j, h1, h⟩ := bind_ok.mp h
    have h1 := idxR_ok.mp h1
    have hlt := (List.getElem?_eq_some_iff.mp h1).1
    split at h
    · rename_i hj
      subst hj
      obtain ⟨⟨lp₁, H₁, st₁⟩, h2, h⟩ := bind_ok.mp h
      dsimp only at h
      obtain ⟨⟨lp₂, H₂, st₂⟩, h3, h⟩ := bind_ok.mp h
      cases h
      obtain ⟨k1, k2⟩ := unincRel_out ht (fun _ => h1) h2
      obtain ⟨k3, k4⟩ := ih k1.tidy h3
      refine ⟨k1.trans k3, fun k hk hi => ?_⟩
      rcases List.mem_cons.mp hk with rfl | hk
      · exact k3.gone (k2 hlt)
      · exact k4 k hk hi
    · rename_i hj
      obtain ⟨k3, k4⟩ := ih ht h
      refine ⟨k3, fun k hk hi => ?_⟩
      rcases List.mem_cons.mp hk with rfl | hk
      · rw [h1] at hi
        exact absurd (Option.some.inj hi) hj
      · exact k4 k hk hi

theorem unincInds_out {n : Nat} {rel : String} {i : Int} {l : List Items} {inds : List Nat} : ∀ {H H' : HIRM F} {st st' : Stored V} {lp : WithBot ℝ}, H.Tidy →
    unincInds n rel i l inds H st = .ok (lp, H', st') → Out True (fun _ k => i ∈ k) H st H' st' ∧ ∀ k ∈ l, ∀ ind ∈ inds, k[ind]? = some i → H'.value rel k = none := by
  induction inds with
  | nil => intro H H' st st' lp ht h; cases h; exact ⟨.refl ht, fun _ _ _ h => by cases h⟩
  | cons ind inds ih =>
    intro H H' st st' lp ht h
    unfold unincInds at h
    obtain ⟨⟨lp₁, H₁, st₁⟩, h2, h⟩ := bind_ok.mp h
    dsimp only at h
    obtain ⟨⟨lp₂, H₂, st₂⟩, h3, h⟩ := bind_ok.mp h
    cases h
    obtain ⟨k1, k2⟩ := unincItems_out ht h2
    obtain ⟨k3, k4⟩ := ih k1.tidy h3
    refine ⟨k1.trans k3, fun k hk a ha hi => ?_⟩
    rcases List.mem_cons.mp ha with rfl | ha
    · exact k3.gone (k2 k hk hi)
    · exact k4 k hk a ha hi

theorem unincRels_out {n : Nat} {c : String} {i : Int} {l : List (String × List Nat)} : ∀ {H H' : HIRM F} {st st' : Stored V} {t t' : Tape} {lp : WithBot ℝ}, H.Tidy →
    unincRels n c i l H st t = .ok (lp, H', st', t') → Out True (fun _ k => i ∈ k) H st H' st' ∧
    ∀ rel inds spec, (rel, inds) ∈ l → H.schema.find? rel = some spec → ∀ ind ∈ inds, spec.doms[ind]? = some c → ∀ k, k[ind]? = some i → H'.value rel k = none := by
  induction l with
  | nil => intro H H' st st' t t' lp ht h; cases h; exact ⟨.refl ht, fun _ _ _ h => by cases h⟩
  | cons x l ih =>
    obtain ⟨rel, inds⟩ := x
    intro H H' st st' t t' lp ht h
    unfold unincRels at h
    obtain ⟨⟨p, r⟩, h1, h⟩ := bind_ok.mp h
    dsimp only at h
    obtain ⟨m, h2, h⟩ := bind_ok.mp h
    have h2 := FMap.atKey_ok.mp h2
    have used : ∀ (spec : RelSpec F) (k : Items) (v : V) (ind : Nat), H.schema.find? rel = some spec → H.value rel k = some v → spec.doms[ind]? = some c → k[ind]? = some i → ∃ S, m.find? i = some S ∧ k ∈ S.keys := by
      intro spec k v ind hs hv hd hk
      obtain ⟨r1, r2, _⟩ := ht.rel hs h1
      have hc : r.data.contains k = true := FMap.contains_iff.mpr ⟨v, by rw [← getRelation_value ht h1]; exact hv⟩
      rw [← r2] at hd
      exact (r1.idx.mem c m i k h2).mpr ⟨hc, List.mem_of_getElem? (i := ind) (List.getElem?_zip_eq_some.mpr ⟨hd, hk⟩)⟩
    cases hm : m.find? i with
    | none =>
      rw [hm] at h
      obtain ⟨k3, k4⟩ := ih ht h
      refine ⟨k3, fun rel' inds' spec hx hs ind hind hd k hk => ?_⟩
      rcases List.mem_cons.mp hx with hx | hx
      · cases hx
        refine k3.gone ?_
        cases hv : H.value rel k with
        | none => rfl
        | some v =>
          obtain ⟨S, hS, _⟩ := used spec k v ind hs hv hd hk
          rw [hm] at hS
          cases hS
      · exact k4 rel' inds' spec hx hs ind hind hd k hk
    | some s =>
      rw [hm] at h
      dsimp only at h
      obtain ⟨⟨lp₁, H₁, st₁⟩, h3, h⟩ := bind_ok.mp h
      dsimp only at h
      obtain ⟨⟨lp₂, H₂, st₂, t₂⟩, h4, h⟩ := bind_ok.mp h
      cases h
      obtain ⟨k1, k2⟩ := unincInds_out ht h3
      obtain ⟨k3, k4⟩ := ih k1.tidy h4
      refine ⟨k1.trans k3, fun rel' inds' spec hx hs ind hind hd k hk => ?_⟩
      rcases List.mem_cons.mp hx with hx | hx
      · cases hx
        refine k3.gone ?_
        cases hv : H.value rel k with
        | none => exact k1.gone hv
        | some v =>
          obtain ⟨S, hS, hkS⟩ := used spec k v ind hs hv hd hk
          rw [hm] at hS
          cases hS
          exact k2 k ((shuffle_perm _ _).mem_iff.mpr hkS) ind hind hk
      · exact k4 rel' inds' spec hx (by rw [k1.schema]; exact hs) ind hind hd k hk

theorem unincReference_out {D D' : DB F} (ht : D.H.Tidy) {inds : FMap String (List Nat)} {c f : String} {i : Int} {st st' : Stored V} {out out' : DomOut} {t t' : Tape}
    {lp : WithBot ℝ} (h : D.unincReference inds c f i st out t = .ok (lp, D', st', out', t')) : Out False (fun _ k => i ∈ k) D.H st D'.H st' ∧
    ∀ rel l spec, inds.find? rel = some l → D.H.schema.find? rel = some spec → ∀ ind ∈ l, spec.doms[ind]? = some c → ∀ k, k[ind]? = some i → D'.H.value rel k = none := by
  unfold DB.unincReference at h
  obtain ⟨⟨lp₁, H₁, st₁, t₁⟩, h1, h⟩ := bind_ok.mp h
  obtain ⟨v, _, h⟩ := bind_ok.mp h
  obtain ⟨⟨lp₂, H₂, out₂⟩, h2, h⟩ := bind_ok.mp h
  cases h
  obtain ⟨k1, k2⟩ := unincRels_out ht h1
  have q : Quiet (fun _ => True) H₁ H₂ := dropRels_quiet h2
  refine ⟨k1.quiet q, fun rel l spec hl hs ind hind hd k hk => ?_⟩
  show H₂.value rel k = none
  rw [q.value trivial k]
  exact k2 rel l spec (FMap.mem_entries.mpr hl) hs ind hind hd k hk

/-! ### `unincorporate_singleton` -/

/-- the last domain and the last entity have no table -/
def Idle (sch : Schema F) (crps : FMap String CRP) (n : String) (k : Items) : Prop :=
  ∃ spec c crp j, sch.find? n = some spec ∧ spec.doms.getLast? = some c ∧ crps.find? c = some crp ∧ k.getLast? = some j ∧ crp.tables.contains j = false

/-- the last domain has a table for the last entity -/
def Busy (sch : Schema F) (crps : FMap String CRP) (n : String) (k : Items) : Prop :=
  ∃ spec c crp j, sch.find? n = some spec ∧ spec.doms.getLast? = some c ∧ crps.find? c = some crp ∧ k.getLast? = some j ∧ crp.tables.contains j = true

theorem Idle.busy {sch : Schema F} {crps : FMap String CRP} {n : String} {k : Items} (h : Idle sch crps n k) : ¬ Busy sch crps n k := by
  obtain ⟨spec', c', crp', j', e1, e2, e3, e4, e5⟩ := h
  rintro ⟨spec, c, crp, j, hs, hc, hcrp, hj, htab⟩
  rw [hs] at e1; cases e1
  rw [hc] at e2; cases e2
  rw [hcrp] at e3; cases e3
  rw [hj] at e4; cases e4
  rw [htab] at e5; cases e5

theorem back_some {α : Type _} {l : List α} {a : α} (h : DB.back l = .ok a) : l.getLast? = some a := by
  unfold DB.back at h
  split at h
  · cases h
  · cases h; assumption

theorem unincSingle_out {sch : Schema F} {crps : FMap String CRP} {n : Nat} : ∀ {H H' : HIRM F} {rel : String} {items : Items} {st st' : Stored V} {lp : WithBot ℝ}, H.Tidy →
    H.schema = sch → unincSingle crps n H rel items st = .ok (lp, H', st') → Out True (Idle sch crps) H st H' st' ∧ (¬ Busy sch crps rel items → H'.value rel items = none) := by
  induction n with
  | zero => intro H H' rel items st st' lp _ _ h; cases h
  | succ n ih =>
    intro H H' rel items st st' lp ht hsch h
    unfold unincSingle at h
    obtain ⟨⟨p, r⟩, h1, h⟩ := bind_ok.mp h
    dsimp only at h
    obtain ⟨spec, hs, h⟩ := bind_ok.mp h
    have hs := FMap.atKey_ok.mp hs
    split at h
    · rename_i hc
      cases h
      refine ⟨.refl ht, fun _ => ?_⟩
      rw [getRelation_value ht h1]
      cases hx : r.data.find? items with
      | none => rfl
      | some v => rw [FMap.contains_iff.mpr ⟨v, hx⟩] at hc; cases hc
    · obtain ⟨c, hc, h⟩ := bind_ok.mp h
      obtain ⟨crp, hcrp, h⟩ := bind_ok.mp h
      obtain ⟨j, hj, h⟩ := bind_ok.mp h
      have hc := back_some hc
      have hj := back_some hj
      have hcrp := FMap.atKey_ok.mp hcrp
      split at h
      · rename_i htab
        cases h
        refine ⟨.refl ht, ?_⟩
        exact fun hi => absurd ⟨spec, c, crp, j, by rw [← hsch]; exact hs, hc, hcrp, hj, htab⟩ hi
      · rename_i htab
        have hg : Idle sch crps rel items := ⟨spec, c, crp, j, by rw [← hsch]; exact hs, hc, hcrp, hj, by simpa using htab⟩
        obtain ⟨⟨lp₁, v, H₁⟩, h2, h⟩ := bind_ok.mp h
        dsimp only at h
        obtain ⟨k1, k2⟩ := takeOut_out (S := True) (G := Idle sch crps) (st := st) ht hg h2
        cases spec with
        | clean c ds o => cases h; exact ⟨k1, fun _ => k2⟩
        | noisy e ds base o =>
          obtain ⟨bi, _, h⟩ := bind_ok.mp h
          obtain ⟨⟨lp₂, H₂, st₂⟩, h4, h⟩ := bind_ok.mp h
          cases h
          obtain ⟨k3, _⟩ := ih k1.tidy (k1.schema.trans hsch) h4
          exact ⟨k1.trans k3, fun _ => k3.gone k2⟩

theorem itemsOf_only {D D' : DB F} (ho : OnlyH D D') (rel : String) (i : Int) : D'.itemsOf rel i = D.itemsOf rel i := by
  unfold DB.itemsOf
  rw [ho.same.rels, ho.same.relIdx, ho.ents]

theorem singleRels_out {i : Int} {l : List String} : ∀ {D D' : DB F} {st st' : Stored V} {lp : WithBot ℝ}, D.H.Tidy →
    DB.singleRels i l D st = .ok (lp, D', st') → Out True (Idle D.H.schema D.ents.crps) D.H st D'.H st' ∧
    ∀ rel ∈ l, ∃ k, D.itemsOf rel i = .ok k ∧ (¬ Busy D.H.schema D.ents.crps rel k → D'.H.value rel k = none) := by
  induction l with
  | nil => intro D D' st st' lp ht h; cases h; exact ⟨.refl ht, fun _ h => by cases h⟩
  | cons n l ih =>
    intro D D' st st' lp ht h
    unfold DB.singleRels at h
    obtain ⟨k, hk, h⟩ := bind_ok.mp h
    obtain ⟨⟨lp₁, H₁, st₁⟩, h1, h⟩ := bind_ok.mp h
    obtain ⟨⟨lp₂, D₂, st₂⟩, h2, h⟩ := bind_ok.mp h
    cases h
    obtain ⟨k1, k2⟩ := unincSingle_out ht rfl h1
    obtain ⟨k3, k4⟩ := ih (D := { D with H := H₁ }) k1.tidy h2
    have ho : OnlyH D { D with H := H₁ } := .of (unincSingle_schema h1)
    dsimp only at k3 k4
    rw [k1.schema] at k3 k4
    refine ⟨k1.trans k3, fun rel hr => ?_⟩
    rcases List.mem_cons.mp hr with rfl | hr
    · exact ⟨k, hk, fun hi => k3.gone (k2 hi)⟩
    · obtain ⟨k', e1, e2⟩ := k4 rel hr
      exact ⟨k', (itemsOf_only ho rel i).symm.trans e1, e2⟩

theorem unincSingleton_out {D D' : DB F} (ht : D.H.Tidy) {c f : String} {i : Int} {d : String} {st st' : Stored V} {out out' : DomOut} {ent ent' : EntOut} {lp : WithBot ℝ}
    (h : D.unincSingleton c f i d st out ent = .ok (lp, D', st', out', ent')) : D'.H.schema = D.H.schema ∧ Out False (Idle D'.H.schema D'.ents.crps) D.H st D'.H st' ∧
    ∃ v rels, getRef D.ents c f i = .ok v ∧ D.classRels.find? d = some rels ∧
    ∀ rel ∈ rels, ∃ k, D'.itemsOf rel v = .ok k ∧ (¬ Busy D'.H.schema D'.ents.crps rel k → D'.H.value rel k = none) := by
  unfold DB.unincSingleton at h
  obtain ⟨v, h0, h⟩ := bind_ok.mp h
  obtain ⟨⟨lp₁, e, ent₁⟩, _, h⟩ := bind_ok.mp h
  obtain ⟨rels, h1, h⟩ := bind_ok.mp h
  obtain ⟨⟨lp₂, D₂, st₂⟩, h3, h⟩ := bind_ok.mp h
  dsimp only at h
  obtain ⟨⟨lp₃, D₃, out₃⟩, h4, h⟩ := bind_ok.mp h
  cases h
  obtain ⟨k1, k2⟩ := singleRels_out (D := { D with ents := e }) ht h3
  have q : Quiet (fun _ => True) D₂.H D₃.H := singleDoms_quiet h4
  have ho := (singleRels_only h3).trans (singleDoms_only h4)
  have e1 : D₃.H.schema = D.H.schema := ho.same.rels
  have e2 : D₃.ents = e := ho.ents
  dsimp only at k1 k2
  rw [e1, e2]
  refine ⟨rfl, k1.quiet q, v, rels, h0, FMap.atKey_ok.mp h1, fun rel hr => ?_⟩
  obtain ⟨k, a1, a2⟩ := k2 rel hr
  exact ⟨k, (itemsOf_only ho rel v).trans a1, fun hi => by rw [q.value trivial k]; exact a2 hi⟩

/-! ### `incorporate_reference` -/

/-- Values have been added to relations where there were none, only from the store. -/
structure Back (st : Stored V) (l : List String) (H H' : HIRM F) : Prop where
  tidy : H'.Tidy
  schema : H'.schema = H.schema
  kept : ∀ n k v, H.value n k = some v → H'.value n k = some v
  has : ∀ n k v, n ∈ l → part st n k = some v → ∃ w, H'.value n k = some w
  only : ∀ n k v, H'.value n k = some v → H.value n k = some v ∨ part st n k = some v

theorem Back.none (h : H.Tidy) : Back st [] H H := ⟨h, rfl, fun _ _ _ h => h, fun _ _ _ h => (by cases h), fun _ _ _ h => Or.inl h⟩

theorem Back.trans {l l' : List String} (h : Back st l H H₁) (h' : Back st l' H₁ H₂) : Back st (l ++ l') H H₂ := by
  refine ⟨h'.tidy, h'.schema.trans h.schema, fun n k v hv => h'.kept n k v (h.kept n k v hv), ?_, ?_⟩
  · intro n k v hn hp
    rcases List.mem_append.mp hn with hn | hn
    · obtain ⟨w, hw⟩ := h.has n k v hn hp
      exact ⟨w, h'.kept n k w hw⟩
    · exact h'.has n k v hn hp
  · intro n k v hv
    rcases h'.only n k v hv with hv | hp
    · exact h.only n k v hv
    · exact Or.inr hp

theorem Back.sub {l l' : List String} (h : Back st l H H₁) (hl : ∀ n ∈ l', n ∈ l) : Back st l' H H₁ :=
  ⟨h.tidy, h.schema, h.kept, fun n k v hn hp => h.has n k v (hl n hn) hp, h.only⟩

theorem putRel_back {n : Nat} : ∀ {rel : String} {H H' : HIRM F} {t t' : Tape}, H.Tidy → putRel st n rel H t = .ok (H', t') → Back st [rel] H H' := by
  induction n with
  | zero => intro rel H H' t t' _ h; cases h
  | succ n ih =>
    intro rel H H' t t' ht h
    unfold putRel at h
    obtain ⟨⟨H₁, t₁⟩, h1, h⟩ := bind_ok.mp h
    dsimp only at h
    obtain ⟨m, h2, h⟩ := bind_ok.mp h
    have h2 := FMap.atKey_ok.mp h2
    have k1 : Back st [] H H₁ := by
      unfold putBase at h1
      obtain ⟨spec, hs, h1⟩ := bind_ok.mp h1
      cases spec with
      | clean c ds o => cases h1; exact .none ht
      | noisy e ds base o =>
        dsimp only at h1
        split at h1
        · exact (ih ht h1).sub (fun _ h => by cases h)
        · cases h1; exact .none ht
    have k2 := putItems_put (Q := fun _ => True) k1.tidy h
    have hp : ∀ k v, (k, v) ∈ (shuffle m.entries t₁).1 ↔ part st rel k = some v := by
      intro k v
      rw [(shuffle_perm _ _).mem_iff, FMap.mem_entries]
      unfold part
      rw [h2]
      rfl
    refine k1.trans ⟨k2.tidy, k2.schema, fun n k v => k2.kept n k v trivial, ?_, ?_⟩
    · intro n k v hn hv
      cases List.mem_singleton.mp hn
      exact k2.has rel k v trivial ⟨rfl, (hp k v).mpr hv⟩
    · intro n k v hv
      refine (k2.only n k v trivial hv).imp id ?_
      rintro ⟨rfl, hx⟩
      exact (hp k v).mp hx

theorem putRels_back {n : Nat} {l : List String} : ∀ {H H' : HIRM F} {t t' : Tape}, H.Tidy → putRels n st l H t = .ok (H', t') → Back st l H H' := by
  induction l with
  | nil => intro H H' t t' ht h; cases h; exact .none ht
  | cons rel l ih =>
    intro H H' t t' ht h
    unfold putRels at h
    obtain ⟨⟨H₁, t₁⟩, h1, h⟩ := bind_ok.mp h
    have k1 := putRel_back ht h1
    exact (k1.trans (ih k1.tidy h)).sub (fun n hn => by simpa using hn)

theorem putStored_back {H' : HIRM F} {t t' : Tape} (ht : H.Tidy) (h : putStored st H t = .ok (H', t')) : H'.Tidy ∧
    ∀ n k, H'.value n k = (H.value n k).or (part st n k) := by
  have b := putRels_back ht h
  refine ⟨b.tidy, fun n k => ?_⟩
  cases hv : H.value n k with
  | some v => rw [b.kept n k v hv]; rfl
  | none =>
    show H'.value n k = part st n k
    cases hp : part st n k with
    | some v =>
      have hn : n ∈ st.keys := by
        unfold part at hp
        cases hx : st.find? n with
        | none => rw [hx] at hp; cases hp
        | some m => exact FMap.mem_keys.mpr ⟨m, hx⟩
      obtain ⟨w, hw⟩ := b.has n k v hn hp
      rcases b.only n k w hw with h0 | h0
      · rw [hv] at h0; cases h0
      · rw [hw, ← hp, h0]
    | none =>
      cases hw : H'.value n k with
      | none => rfl
      | some w =>
        rcases b.only n k w hw with h0 | h0
        · rw [hv] at h0; cases h0
        · rw [hp] at h0; cases h0

end
end GenDB
end Verif
