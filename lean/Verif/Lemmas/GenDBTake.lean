import Verif.Lemmas.HIRMNext
import Verif.Lemmas.HIRMReach
import Verif.Lemmas.GenDBMoved
/-!
What taking values out of relations and putting them back does to the relations of the query fields.
-/
namespace Verif
noncomputable section
variable {V : Type} {F : Family V} {L : FamilyLaws F}

namespace Rel

theorem Inv.indexed {ar : Ptr → Option Nat} {σ : Doms} {r : Rel F} (h : r.Inv L ar σ) : r.Indexed := by
  cases r with
  | clean c r =>
    have h : CleanRel.Inv (L.suppC c) σ r := h
    refine ⟨h.idx, fun k hk => ?_⟩
    obtain ⟨v, hv⟩ := FMap.contains_iff.mp hk
    exact h.length hv
  | noisy e p r =>
    obtain ⟨h, n, _, hl⟩ := h
    refine ⟨⟨h.idx, fun k hk => ?_⟩, hl.doms, hl.contains⟩
    obtain ⟨v, hv⟩ := FMap.contains_iff.mp hk
    exact h.length hv

end Rel

namespace HIRM

theorem Good.tidy {H : HIRM F} (h : Good L H) : H.Tidy := by
  refine ⟨h.skel, fun tb I hI n x hx => ?_⟩
  have hi := h.inv tb I hI
  refine ⟨(hi.rels n x.1 x.2 hx).indexed, ?_⟩
  rcases hi.schema n with ⟨_, h2⟩ | ⟨spec, id', q, h1, h2, h3⟩
  · rw [hx] at h2; cases h2
  · rw [hx] at h2; cases h2
    exact ⟨spec, h1, h3.doms⟩

theorem value_dataOf {H : HIRM F} {n : String} {d : FMap Items V} (h : H.dataOf n = some d) (k : Items) : H.value n k = d.find? k := by
  unfold value
  rw [h]
  rfl

theorem Next.value {P : String → Prop} {H H' : HIRM F} (h : Next P H H') {n : String} (hn : ¬ P n) (k : Items) : H'.value n k = H.value n k := by
  unfold HIRM.value
  rw [h.dataOf hn]

end HIRM

namespace GenDB

/-- What is stored for a tuple of a relation. -/
def part (st : Stored V) (q : String) (k : Items) : Option V := (st.find? q).bind (·.find? k)

theorem part_store {st : Stored V} {rel : String} {items : Items} {v : V} (q : String) (k : Items) :
    part (store st rel items v) q k = if q = rel ∧ k = items then some v else part st q k := by
  unfold part store
  rw [FMap.find?_set]
  by_cases hq : rel = q
  · subst hq
    rw [if_pos rfl]
    simp only [Option.bind_some, true_and]
    rw [FMap.find?_set]
    by_cases hk : items = k
    · subst hk; simp
    · rw [if_neg (fun h => hk h.symm), if_neg (fun h => hk h.symm)]
      cases st.find? rel <;> simp
  · rw [if_neg (fun h => hq h.symm), if_neg (fun h => hq h.1.symm)]

/-- The values of the query relations at the tuples `M` have been moved to the store. -/
structure Took (Q : String → Prop) (M : String → Items → Prop) (H : HIRM F) (st : Stored V) (H' : HIRM F) (st' : Stored V) : Prop where
  tidy : H'.Tidy
  schema : H'.schema = H.schema
  out : ∀ q k, Q q → M q k → H'.value q k = none
  kept : ∀ q k, Q q → ¬ M q k → H'.value q k = H.value q k
  stored : ∀ q k v, Q q → M q k → H.value q k = some v → part st' q k = some v
  rest : ∀ q k, Q q → (M q k → H.value q k = none) → part st' q k = part st q k

section
variable {Q : String → Prop} {M M' : String → Items → Prop} {H H₁ H₂ : HIRM F} {st st₁ st₂ : Stored V}

theorem Took.congr (h : Took Q M H st H₁ st₁) (hM : ∀ q k v, Q q → H.value q k = some v → (M q k ↔ M' q k)) : Took Q M' H st H₁ st₁ := by
  refine ⟨h.tidy, h.schema, ?_, ?_, ?_, ?_⟩
  · intro q k hq hm
    by_cases hx : M q k
    · exact h.out q k hq hx
    · rw [h.kept q k hq hx]
      cases hv : H.value q k with
      | none => rfl
      | some v => exact absurd ((hM q k v hq hv).mpr hm) hx
  · intro q k hq hm
    by_cases hx : M q k
    · rw [h.out q k hq hx]
      cases hv : H.value q k with
      | none => rfl
      | some v => exact absurd ((hM q k v hq hv).mp hx) hm
    · exact h.kept q k hq hx
  · intro q k v hq hm hv
    exact h.stored q k v hq ((hM q k v hq hv).mpr hm) hv
  · intro q k hq hm
    refine h.rest q k hq (fun hx => ?_)
    cases hv : H.value q k with
    | none => rfl
    | some v => rw [hm ((hM q k v hq hv).mp hx)] at hv; cases hv

theorem Took.none (h : H.Tidy) : Took Q (fun _ _ => False) H st H st :=
  ⟨h, rfl, fun _ _ _ h => h.elim, fun _ _ _ _ => rfl, fun _ _ _ _ h => h.elim, fun _ _ _ _ => rfl⟩

theorem Took.trans (h : Took Q M H st H₁ st₁) (h' : Took Q M' H₁ st₁ H₂ st₂) : Took Q (fun q k => M q k ∨ M' q k) H st H₂ st₂ := by
  have gone : ∀ q k, Q q → M q k → H₂.value q k = Option.none := by
    intro q k hq hm
    by_cases hm' : M' q k
    · exact h'.out q k hq hm'
    · rw [h'.kept q k hq hm']; exact h.out q k hq hm
  refine ⟨h'.tidy, h'.schema.trans h.schema, ?_, ?_, ?_, ?_⟩
  · rintro q k hq (hm | hm)
    · exact gone q k hq hm
    · exact h'.out q k hq hm
  · intro q k hq hm
    rw [h'.kept q k hq (fun h => hm (Or.inr h)), h.kept q k hq (fun h => hm (Or.inl h))]
  · intro q k v hq hm hv
    by_cases h1 : M q k
    · rw [h'.rest q k hq (fun _ => h.out q k hq h1)]
      exact h.stored q k v hq h1 hv
    · exact h'.stored q k v hq (hm.resolve_left h1) (by rw [h.kept q k hq h1]; exact hv)
  · intro q k hq hm
    have e1 := h.rest q k hq (fun h => hm (Or.inl h))
    rw [← e1]
    refine h'.rest q k hq (fun hx => ?_)
    by_cases h1 : M q k
    · exact h.out q k hq h1
    · rw [h.kept q k hq h1]; exact hm (Or.inr hx)

/-- Query relations are not base relations. -/
def NoBase (Q : String → Prop) (sch : Schema F) : Prop := ∀ n spec b, sch.find? n = some spec → spec.base? = some b → ¬ Q b

theorem takeOut_took (ht : H.Tidy) {rel : String} {items : Items} {lp : WithBot ℝ} {v : V} {H' : HIRM F} (h : H.takeOut rel items = .ok (lp, v, H')) :
    Took Q (fun q k => q = rel ∧ k = items) H st H' (store st rel items v) := by
  obtain ⟨h1, d, h2, h3, h4⟩ := HIRM.takeOut_next h
  refine ⟨h1.tidy ht, h1.schema, ?_, ?_, ?_, ?_⟩
  · rintro q k _ ⟨rfl, rfl⟩
    rw [HIRM.value_dataOf h4, FMap.find?_erase, if_pos rfl]
  · intro q k _ hm
    by_cases hq : q = rel
    · subst hq
      rw [HIRM.value_dataOf h4, HIRM.value_dataOf h2, FMap.find?_erase, if_neg (fun h => hm ⟨rfl, h⟩)]
    · exact h1.value hq k
  · rintro q k w _ ⟨rfl, rfl⟩ hv
    rw [HIRM.value_dataOf h2, h3] at hv
    cases hv
    rw [part_store, if_pos ⟨rfl, rfl⟩]
  · intro q k _ hm
    rw [part_store, if_neg]
    rintro ⟨rfl, rfl⟩
    have := hm ⟨rfl, rfl⟩
    rw [HIRM.value_dataOf h2, h3] at this
    cases this

theorem getRelation_value (ht : H.Tidy) {rel : String} {p : Ptr} {r : Rel F} (h : H.getRelation rel = .ok (p, r)) (k : Items) : H.value rel k = r.data.find? k := by
  obtain ⟨tb, id, h1, _⟩ := HIRM.getRelation_ok.mp h
  obtain ⟨spec, hs⟩ := FMap.contains_iff.mp (ht.skel.known h1)
  exact HIRM.value_dataOf (ht.rel hs h).2.2 k

theorem unincRel_took {n : Nat} : ∀ {H H' : HIRM F} {rel : String} {items : Items} {ind : Nat} {st st' : Stored V} {lp : WithBot ℝ}, H.Tidy → NoBase Q H.schema →
    (Q rel → ind < items.length) → unincRel n H rel items ind st = .ok (lp, H', st') → Took Q (fun q k => q = rel ∧ k = items) H st H' st' := by
  induction n with
  | zero => intro H H' rel items ind st st' lp _ _ _ h; cases h
  | succ n ih =>
    intro H H' rel items ind st st' lp ht hb hi h
    unfold unincRel at h
    obtain ⟨⟨p, r⟩, h1, h⟩ := bind_ok.mp h
    dsimp only at h
    split at h
    · rename_i hc
      cases h
      refine (Took.none ht).congr ?_
      intro q k v hq hv
      refine ⟨fun h => h.elim, ?_⟩
      rintro ⟨rfl, rfl⟩
      have := hi hq
      rw [getRelation_value ht h1] at hv
      simp only [Bool.or_eq_true, Bool.not_eq_true', decide_eq_true_eq] at hc
      rcases hc with hc | hc
      · rw [FMap.contains_iff.mpr ⟨v, hv⟩] at hc; cases hc
      · omega
    · obtain ⟨⟨lp₁, v, H₁⟩, h2, h⟩ := bind_ok.mp h
      dsimp only at h
      obtain ⟨spec, h3, h⟩ := bind_ok.mp h
      have k1 : Took Q (fun q k => q = rel ∧ k = items) H st H₁ (store st rel items v) := takeOut_took ht h2
      cases spec with
      | clean c ds o => cases h; exact k1
      | noisy e ds base o =>
        obtain ⟨bi, _, h⟩ := bind_ok.mp h
        obtain ⟨⟨lp₂, H₂, st₂⟩, h4, h⟩ := bind_ok.mp h
        cases h
        have hnb : ¬ Q base := hb rel _ base (by rw [← k1.schema]; exact FMap.atKey_ok.mp h3) rfl
        refine (k1.trans (ih k1.tidy (by rw [k1.schema]; exact hb) (fun h => absurd h hnb) h4)).congr ?_
        intro q k v hq _
        refine ⟨fun h => h.elim id ?_, Or.inl⟩
        rintro ⟨rfl, _⟩
        exact absurd hq hnb

theorem unincItems_took {n : Nat} {rel : String} {ind : Nat} {i : Int} {l : List Items} : ∀ {H H' : HIRM F} {st st' : Stored V} {lp : WithBot ℝ}, H.Tidy →
    NoBase Q H.schema → unincItems n rel ind i l H st = .ok (lp, H', st') → Took Q (fun q k => q = rel ∧ k ∈ l ∧ k[ind]? = some i) H st H' st' := by
  induction l with
  | nil => intro H H' st st' lp ht _ h; cases h; exact (Took.none ht).congr (fun q k v _ _ => by simp)
  | cons items l ih =>
    intro H H' st st' lp ht hb h
    unfold unincItems at h
    obtain ⟨j, h1, h⟩ := bind_ok.mp h
    have h1 := idxR_ok.mp h1
    have hlt := (List.getElem?_eq_some_iff.mp h1).1
    split at h
    · rename_i hj
      subst hj
      obtain ⟨⟨lp₁, H₁, st₁⟩, h2, h⟩ := bind_ok.mp h
      dsimp only at h
      obtain ⟨⟨lp₂, H₂, st₂⟩, h3, h⟩ := bind_ok.mp h
      cases h
      have k1 := unincRel_took (Q := Q) ht hb (fun _ => hlt) h2
      refine (k1.trans (ih k1.tidy (by rw [k1.schema]; exact hb) h3)).congr ?_
      intro q k v _ _
      constructor
      · rintro (⟨rfl, rfl⟩ | ⟨rfl, hk, hk'⟩)
        · exact ⟨rfl, List.mem_cons_self .., h1⟩
        · exact ⟨rfl, List.mem_cons_of_mem _ hk, hk'⟩
      · rintro ⟨rfl, hk, hk'⟩
        rcases List.mem_cons.mp hk with rfl | hk
        · exact Or.inl ⟨rfl, rfl⟩
        · exact Or.inr ⟨rfl, hk, hk'⟩
    · rename_i hj
      refine (ih ht hb h).congr ?_
      intro q k v _ _
      constructor
      · rintro ⟨rfl, hk, hk'⟩
        exact ⟨rfl, List.mem_cons_of_mem _ hk, hk'⟩
      · rintro ⟨rfl, hk, hk'⟩
        rcases List.mem_cons.mp hk with rfl | hk
        · rw [h1] at hk'
          exact absurd (Option.some.inj hk') hj
        · exact ⟨rfl, hk, hk'⟩

theorem unincInds_took {n : Nat} {rel : String} {i : Int} {l : List Items} {inds : List Nat} : ∀ {H H' : HIRM F} {st st' : Stored V} {lp : WithBot ℝ}, H.Tidy →
    NoBase Q H.schema → unincInds n rel i l inds H st = .ok (lp, H', st') →
    Took Q (fun q k => q = rel ∧ k ∈ l ∧ ∃ ind ∈ inds, k[ind]? = some i) H st H' st' := by
  induction inds with
  | nil => intro H H' st st' lp ht _ h; cases h; exact (Took.none ht).congr (fun q k v _ _ => by simp)
  | cons ind inds ih =>
    intro H H' st st' lp ht hb h
    unfold unincInds at h
    obtain ⟨⟨lp₁, H₁, st₁⟩, h2, h⟩ := bind_ok.mp h
    dsimp only at h
    obtain ⟨⟨lp₂, H₂, st₂⟩, h3, h⟩ := bind_ok.mp h
    cases h
    have k1 := unincItems_took (Q := Q) ht hb h2
    refine (k1.trans (ih k1.tidy (by rw [k1.schema]; exact hb) h3)).congr ?_
    intro q k v _ _
    constructor
    · rintro (⟨rfl, hk, hk'⟩ | ⟨rfl, hk, ind', h1, h2⟩)
      · exact ⟨rfl, hk, ind, List.mem_cons_self .., hk'⟩
      · exact ⟨rfl, hk, ind', List.mem_cons_of_mem _ h1, h2⟩
    · rintro ⟨rfl, hk, ind', h1, h4⟩
      rcases List.mem_cons.mp h1 with rfl | h1
      · exact Or.inl ⟨rfl, hk, h4⟩
      · exact Or.inr ⟨rfl, hk, ind', h1, h4⟩

theorem unincRels_took {n : Nat} {c : String} {i : Int} {l : List (String × List Nat)} : ∀ {H H' : HIRM F} {st st' : Stored V} {t t' : Tape} {lp : WithBot ℝ}, H.Tidy →
    NoBase Q H.schema → (∀ rel inds, (rel, inds) ∈ l → ∃ spec, H.schema.find? rel = some spec ∧ ∀ ind ∈ inds, spec.doms[ind]? = some c) →
    unincRels n c i l H st t = .ok (lp, H', st', t') → Took Q (fun q k => ∃ inds, (q, inds) ∈ l ∧ ∃ ind ∈ inds, k[ind]? = some i) H st H' st' := by
  induction l with
  | nil => intro H H' st st' t t' lp ht _ _ h; cases h; exact (Took.none ht).congr (fun q k v _ _ => by simp)
  | cons x l ih =>
    obtain ⟨rel, inds⟩ := x
    intro H H' st st' t t' lp ht hb hl h
    unfold unincRels at h
    obtain ⟨⟨p, r⟩, h1, h⟩ := bind_ok.mp h
    dsimp only at h
    obtain ⟨m, h2, h⟩ := bind_ok.mp h
    have h2 := FMap.atKey_ok.mp h2
    obtain ⟨spec, hs, hi⟩ := hl rel inds (List.mem_cons_self ..)
    have hl' := fun rel inds h => hl rel inds (List.mem_cons_of_mem _ h)
    obtain ⟨r1, r2, _⟩ := ht.rel hs h1
    have hidx := r1.idx
    have used : ∀ k v ind, H.value rel k = some v → ind ∈ inds → k[ind]? = some i → r.data.contains k = true ∧ Verif.Uses r.doms c i k := by
      intro k v ind hv hin hk
      have hc : r.data.contains k = true := FMap.contains_iff.mpr ⟨v, by rw [← getRelation_value ht h1]; exact hv⟩
      refine ⟨hc, ?_⟩
      have hd := hi ind hin
      rw [← r2] at hd
      exact List.mem_of_getElem? (i := ind) (List.getElem?_zip_eq_some.mpr ⟨hd, hk⟩)
    cases hm : m.find? i with
    | none =>
      rw [hm] at h
      refine (ih ht hb hl' h).congr ?_
      intro q k v _ hv
      constructor
      · rintro ⟨inds', hx, h⟩
        exact ⟨inds', List.mem_cons_of_mem _ hx, h⟩
      · rintro ⟨inds', hx, ind, h3, h4⟩
        rcases List.mem_cons.mp hx with hx | hx
        · cases hx
          obtain ⟨S, hS, _⟩ := (hidx.mem c m i k h2).mpr (used k v ind hv h3 h4)
          rw [hm] at hS
          cases hS
        · exact ⟨inds', hx, ind, h3, h4⟩
    | some s =>
      rw [hm] at h
      dsimp only at h
      obtain ⟨⟨lp₁, H₁, st₁⟩, h3, h⟩ := bind_ok.mp h
      dsimp only at h
      obtain ⟨⟨lp₂, H₂, st₂, t₂⟩, h4, h⟩ := bind_ok.mp h
      cases h
      have k1 := unincInds_took (Q := Q) ht hb h3
      refine (k1.trans (ih k1.tidy (by rw [k1.schema]; exact hb) (by rw [k1.schema]; exact hl') h4)).congr ?_
      intro q k v _ hv
      constructor
      · rintro (⟨rfl, _, h⟩ | ⟨inds', hx, h⟩)
        · exact ⟨inds, List.mem_cons_self .., h⟩
        · exact ⟨inds', List.mem_cons_of_mem _ hx, h⟩
      · rintro ⟨inds', hx, ind, h3, h4⟩
        rcases List.mem_cons.mp hx with hx | hx
        · cases hx
          refine Or.inl ⟨rfl, ?_, ind, h3, h4⟩
          obtain ⟨S, hS, hk⟩ := (hidx.mem c m i k h2).mpr (used k v ind hv h3 h4)
          rw [hm] at hS
          cases hS
          exact (shuffle_perm _ _).mem_iff.mpr hk
        · exact Or.inr ⟨inds', hx, ind, h3, h4⟩

/-! ### Steps that leave the query relations alone -/

/-- The values of the query relations are the same. -/
abbrev Quiet (Q : String → Prop) (H H' : HIRM F) : Prop := HIRM.Next (fun n => ¬ Q n) H H'

theorem Quiet.value (h : Quiet Q H H₁) {q : String} (hq : Q q) (k : Items) : H₁.value q k = H.value q k := HIRM.Next.value h (fun h => h hq) k

theorem Took.quiet (h : Took Q M H st H₁ st₁) (h' : Quiet Q H₁ H₂) : Took Q M H st H₂ st₁ :=
  ⟨HIRM.Next.tidy h' h.tidy, h'.schema.trans h.schema, fun q k hq hm => (h'.value hq k).trans (h.out q k hq hm),
    fun q k hq hm => (h'.value hq k).trans (h.kept q k hq hm), h.stored, h.rest⟩

theorem dropRefs_quiet {rec : Int → Nat → HIRM F → DomOut → Res (WithBot ℝ × HIRM F × DomOut)}
    (hrec : ∀ v j H out lp H' out', rec v j H out = .ok (lp, H', out') → Quiet Q H H') {e : Ents} {c : String} {i : Int} {l : List (String × Nat)} :
    ∀ {H H' : HIRM F} {out out' : DomOut} {lp : WithBot ℝ}, dropRefs rec e c i l H out = .ok (lp, H', out') → Quiet Q H H' := by
  induction l with
  | nil => intro H H' out out' lp h; cases h; exact .refl _
  | cons x l ih =>
    obtain ⟨f, j⟩ := x
    intro H H' out out' lp h
    unfold dropRefs at h
    obtain ⟨v, _, h⟩ := bind_ok.mp h
    obtain ⟨⟨lp₁, H₁, out₁⟩, h1, h⟩ := bind_ok.mp h
    dsimp only at h
    obtain ⟨⟨lp₂, H₂, out₂⟩, h2, h⟩ := bind_ok.mp h
    cases h
    exact (hrec _ _ _ _ _ _ _ h1).trans (ih h2)

theorem dropEntity_quiet {relIdx : FMap String RefIdx} {e : Ents} {rel : String} {n : Nat} : ∀ (v : Int) (j : Nat) (H : HIRM F) (out : DomOut) (lp : WithBot ℝ)
    (H' : HIRM F) (out' : DomOut), dropEntity relIdx e rel n v j H out = .ok (lp, H', out') → Quiet Q H H' := by
  induction n with
  | zero => intro v j H out lp H' out' h; cases h
  | succ n ih =>
    intro v j H out lp H' out' h
    unfold dropEntity at h
    obtain ⟨⟨code, I⟩, h1, h⟩ := bind_ok.mp h
    dsimp only at h
    obtain ⟨spec, _, h⟩ := bind_ok.mp h
    obtain ⟨c, _, h⟩ := bind_ok.mp h
    obtain ⟨dom, _, h⟩ := bind_ok.mp h
    split at h
    · cases h; exact .refl _
    · obtain ⟨has, _, h⟩ := bind_ok.mp h
      split at h
      · cases h; exact .refl _
      · obtain ⟨cl, _, h⟩ := bind_ok.mp h
        obtain ⟨dom', _, h⟩ := bind_ok.mp h
        have hI : H.irms.find? code = some I := (HIRM.relationToIrm_ok.mp h1).2
        have k1 : ∀ σ, Quiet Q H { H with irms := H.irms.set code { I with doms := σ } } := fun σ => .setIrm hI (.setDoms I σ)
        split at h
        · cases h; exact k1 _
        · obtain ⟨⟨lp₁, H₁, out₁⟩, h2, h⟩ := bind_ok.mp h
          cases h
          exact (k1 _).trans (dropRefs_quiet (fun v j H out lp H' out' h => ih v j H out lp H' out' h) h2)

theorem dropInds_quiet {relIdx : FMap String RefIdx} {e : Ents} {f : String} {v : Int} {rel : String} {inds : List Nat} :
    ∀ {H H' : HIRM F} {out out' : DomOut} {lp : WithBot ℝ}, dropInds relIdx e f v rel inds H out = .ok (lp, H', out') → Quiet Q H H' := by
  induction inds with
  | nil => intro H H' out out' lp h; cases h; exact .refl _
  | cons ind inds ih =>
    intro H H' out out' lp h
    unfold dropInds at h
    obtain ⟨_, _, h⟩ := bind_ok.mp h
    obtain ⟨_, _, h⟩ := bind_ok.mp h
    obtain ⟨_, _, h⟩ := bind_ok.mp h
    obtain ⟨_, _, h⟩ := bind_ok.mp h
    obtain ⟨⟨lp₁, H₁, out₁⟩, h1, h⟩ := bind_ok.mp h
    dsimp only at h
    obtain ⟨⟨lp₂, H₂, out₂⟩, h2, h⟩ := bind_ok.mp h
    cases h
    exact (dropEntity_quiet _ _ _ _ _ _ _ h1).trans (ih h2)

theorem dropRels_quiet {relIdx : FMap String RefIdx} {e : Ents} {f : String} {v : Int} {l : List (String × List Nat)} :
    ∀ {H H' : HIRM F} {out out' : DomOut} {lp : WithBot ℝ}, dropRels relIdx e f v l H out = .ok (lp, H', out') → Quiet Q H H' := by
  induction l with
  | nil => intro H H' out out' lp h; cases h; exact .refl _
  | cons x l ih =>
    obtain ⟨rel, inds⟩ := x
    intro H H' out out' lp h
    unfold dropRels at h
    obtain ⟨⟨lp₁, H₁, out₁⟩, h1, h⟩ := bind_ok.mp h
    dsimp only at h
    obtain ⟨⟨lp₂, H₂, out₂⟩, h2, h⟩ := bind_ok.mp h
    cases h
    exact (dropInds_quiet h1).trans (ih h2)

theorem rejoin_quiet {l : List ((Int × String × Int) × Int)} : ∀ {H H' : HIRM F} {t t' : Tape}, DB.rejoin l H t = .ok (H', t') → Quiet Q H H' := by
  induction l with
  | nil => intro H H' t t' h; cases h; exact .refl _
  | cons x l ih =>
    obtain ⟨⟨code, c, item⟩, cluster⟩ := x
    intro H H' t t' h
    unfold DB.rejoin at h
    obtain ⟨I, h1, h⟩ := bind_ok.mp h
    obtain ⟨dom, _, h⟩ := bind_ok.mp h
    split at h
    · exact ih h
    · obtain ⟨⟨dom', t₁⟩, _, h⟩ := bind_ok.mp h
      dsimp only at h
      exact (HIRM.Next.setIrm (FMap.atKey_ok.mp h1) (.setDoms I _)).trans (ih h)

/-- Nothing of the query relations goes to the store. -/
theorem unincSingle_quiet {crps : FMap String CRP} {n : Nat} : ∀ {H H' : HIRM F} {rel : String} {k : Items} {st st' : Stored V} {lp : WithBot ℝ}, NoBase Q H.schema →
    ¬ Q rel → unincSingle crps n H rel k st = .ok (lp, H', st') → Quiet Q H H' ∧ ∀ q, Q q → st'.find? q = st.find? q := by
  induction n with
  | zero => intro H H' rel k st st' lp _ _ h; cases h
  | succ n ih =>
    intro H H' rel k st st' lp hb hq h
    unfold unincSingle at h
    obtain ⟨⟨p, r⟩, _, h⟩ := bind_ok.mp h
    dsimp only at h
    obtain ⟨spec, hs, h⟩ := bind_ok.mp h
    have hs := FMap.atKey_ok.mp hs
    split at h
    · cases h; exact ⟨.refl _, fun _ _ => rfl⟩
    · obtain ⟨c, _, h⟩ := bind_ok.mp h
      obtain ⟨crp, _, h⟩ := bind_ok.mp h
      obtain ⟨j, _, h⟩ := bind_ok.mp h
      split at h
      · cases h; exact ⟨.refl _, fun _ _ => rfl⟩
      · obtain ⟨⟨lp₁, v, H₁⟩, h2, h⟩ := bind_ok.mp h
        dsimp only at h
        have k1 : Quiet Q H H₁ := (HIRM.takeOut_next h2).1.mono (fun n hn => by rw [hn]; exact hq)
        have k2 : ∀ q, Q q → (store st rel k v).find? q = st.find? q := by
          intro q hq'
          unfold store
          rw [FMap.find?_set, if_neg]
          rintro rfl
          exact hq hq'
        cases spec with
        | clean c ds o => cases h; exact ⟨k1, k2⟩
        | noisy e ds base o =>
          obtain ⟨bi, _, h⟩ := bind_ok.mp h
          obtain ⟨⟨lp₂, H₂, st₂⟩, h4, h⟩ := bind_ok.mp h
          cases h
          obtain ⟨q1, q2⟩ := ih (by rw [k1.schema]; exact hb) (hb rel _ base hs rfl) h4
          exact ⟨k1.trans q1, fun q hq => (q2 q hq).trans (k2 q hq)⟩

/-! ### Putting values back -/

/-- Values have been added to query relations, where there were none. -/
structure Gave (Q : String → Prop) (A : String → Items → V → Prop) (H H' : HIRM F) : Prop where
  tidy : H'.Tidy
  schema : H'.schema = H.schema
  kept : ∀ q k v, Q q → H.value q k = some v → H'.value q k = some v
  has : ∀ q k v, Q q → A q k v → ∃ w, H'.value q k = some w
  only : ∀ q k v, Q q → H'.value q k = some v → H.value q k = some v ∨ A q k v

variable {A A' : String → Items → V → Prop}

theorem Gave.none (h : H.Tidy) : Gave Q (fun _ _ _ => False) H H := ⟨h, rfl, fun _ _ _ _ h => h, fun _ _ _ _ h => h.elim, fun _ _ _ _ h => Or.inl h⟩

theorem Gave.congr (h : Gave Q A H H₁) (hA : ∀ q k v, Q q → (A q k v ↔ A' q k v)) : Gave Q A' H H₁ :=
  ⟨h.tidy, h.schema, h.kept, fun q k v hq ha => h.has q k v hq ((hA q k v hq).mpr ha), fun q k v hq hv => (h.only q k v hq hv).imp id (hA q k v hq).mp⟩

theorem Gave.trans (h : Gave Q A H H₁) (h' : Gave Q A' H₁ H₂) : Gave Q (fun q k v => A q k v ∨ A' q k v) H H₂ := by
  refine ⟨h'.tidy, h'.schema.trans h.schema, fun q k v hq hv => h'.kept q k v hq (h.kept q k v hq hv), ?_, ?_⟩
  · rintro q k v hq (ha | ha)
    · obtain ⟨w, hw⟩ := h.has q k v hq ha
      exact ⟨w, h'.kept q k w hq hw⟩
    · exact h'.has q k v hq ha
  · intro q k v hq hv
    rcases h'.only q k v hq hv with hv | ha
    · exact (h.only q k v hq hv).imp id Or.inl
    · exact Or.inr (Or.inr ha)

theorem Gave.quiet (h : Gave Q A H H₁) (h' : Quiet Q H₁ H₂) : Gave Q A H H₂ :=
  ⟨HIRM.Next.tidy h' h.tidy, h'.schema.trans h.schema, fun q k v hq hv => (h'.value hq k).trans (h.kept q k v hq hv),
    fun q k v hq ha => by rw [h'.value hq k]; exact h.has q k v hq ha, fun q k v hq hv => h.only q k v hq (by rw [← h'.value hq k]; exact hv)⟩

theorem putItems_put {rel : String} {l : List (Items × V)} : ∀ {H H' : HIRM F} {t t' : Tape}, H.Tidy → putItems rel l H t = .ok (H', t') →
    Gave Q (fun q k v => q = rel ∧ (k, v) ∈ l) H H' := by
  induction l with
  | nil => intro H H' t t' ht h; cases h; exact (Gave.none ht).congr (fun q k v _ => by simp)
  | cons x l ih =>
    obtain ⟨items, v⟩ := x
    intro H H' t t' ht h
    unfold putItems at h
    obtain ⟨⟨p, r⟩, h1, h⟩ := bind_ok.mp h
    dsimp only at h
    have k1 : ∃ H₁ t₁, Gave Q (fun q k w => q = rel ∧ (k, w) = (items, v)) H H₁ ∧ putItems rel l H₁ t₁ = .ok (H', t') := by
      split at h
      · rename_i hc
        obtain ⟨w, hw⟩ := FMap.contains_iff.mp hc
        refine ⟨H, t, ⟨ht, rfl, fun _ _ _ _ h => h, ?_, fun _ _ _ _ h => Or.inl h⟩, h⟩
        rintro q k v' _ ⟨rfl, he⟩
        cases he
        exact ⟨w, by rw [getRelation_value ht h1]; exact hw⟩
      · rename_i hc
        obtain ⟨⟨H₁, t₁⟩, h2, h⟩ := bind_ok.mp h
        refine ⟨H₁, t₁, ?_, h⟩
        obtain ⟨g1, d, g2, g3⟩ := HIRM.incorporate_next h2
        refine ⟨g1.tidy ht, g1.schema, ?_, ?_, ?_⟩
        · intro q k w _ hw
          by_cases hq : q = rel
          · subst hq
            rw [HIRM.value_dataOf g3, FMap.find?_set]
            split
            · rename_i hk
              subst hk
              rw [getRelation_value ht h1] at hw
              exact absurd (FMap.contains_iff.mpr ⟨w, hw⟩) hc
            · rw [← HIRM.value_dataOf g2]; exact hw
          · rw [g1.value hq]; exact hw
        · rintro q k w _ ⟨rfl, he⟩
          cases he
          exact ⟨_, by rw [HIRM.value_dataOf g3, FMap.find?_set, if_pos rfl]⟩
        · intro q k w _ hw
          by_cases hq : q = rel
          · subst hq
            rw [HIRM.value_dataOf g3, FMap.find?_set] at hw
            split at hw
            · rename_i hk
              cases hw
              exact Or.inr ⟨rfl, by rw [hk]⟩
            · exact Or.inl (by rw [HIRM.value_dataOf g2]; exact hw)
          · rw [g1.value hq] at hw; exact Or.inl hw
    obtain ⟨H₁, t₁, k1, h⟩ := k1
    refine (k1.trans (ih k1.tidy h)).congr ?_
    intro q k w _
    simp only [List.mem_cons]
    tauto

theorem putRel_put {st : Stored V} {n : Nat} : ∀ {rel : String} {H H' : HIRM F} {t t' : Tape}, H.Tidy → NoBase Q H.schema → putRel st n rel H t = .ok (H', t') →
    Gave Q (fun q k v => q = rel ∧ part st q k = some v) H H' := by
  induction n with
  | zero => intro rel H H' t t' _ _ h; cases h
  | succ n ih =>
    intro rel H H' t t' ht hb h
    unfold putRel at h
    obtain ⟨⟨H₁, t₁⟩, h1, h⟩ := bind_ok.mp h
    dsimp only at h
    obtain ⟨m, h2, h⟩ := bind_ok.mp h
    have h2 := FMap.atKey_ok.mp h2
    have k1 : Gave Q (fun _ _ _ => False) H H₁ := by
      unfold putBase at h1
      obtain ⟨spec, hs, h1⟩ := bind_ok.mp h1
      have hs := FMap.atKey_ok.mp hs
      cases spec with
      | clean c ds o => cases h1; exact .none ht
      | noisy e ds base o =>
        dsimp only at h1
        split at h1
        · refine (ih ht hb h1).congr ?_
          intro q k v hq
          refine ⟨?_, fun h => h.elim⟩
          rintro ⟨rfl, _⟩
          exact hb rel _ _ hs rfl hq
        · cases h1; exact .none ht
    refine (k1.trans (putItems_put k1.tidy h)).congr ?_
    intro q k v _
    rw [(shuffle_perm _ _).mem_iff, FMap.mem_entries]
    constructor
    · rintro (hx | ⟨rfl, hx⟩)
      · exact hx.elim
      · exact ⟨rfl, by unfold part; rw [h2]; exact hx⟩
    · rintro ⟨rfl, hx⟩
      unfold part at hx
      rw [h2] at hx
      exact Or.inr ⟨rfl, hx⟩

theorem putRels_put {st : Stored V} {n : Nat} {l : List String} : ∀ {H H' : HIRM F} {t t' : Tape}, H.Tidy → NoBase Q H.schema → putRels n st l H t = .ok (H', t') →
    Gave Q (fun q k v => q ∈ l ∧ part st q k = some v) H H' := by
  induction l with
  | nil => intro H H' t t' ht _ h; cases h; exact (Gave.none ht).congr (fun q k v _ => by simp)
  | cons rel l ih =>
    intro H H' t t' ht hb h
    unfold putRels at h
    obtain ⟨⟨H₁, t₁⟩, h1, h⟩ := bind_ok.mp h
    dsimp only at h
    have k1 := putRel_put (Q := Q) ht hb h1
    refine (k1.trans (ih k1.tidy (by rw [k1.schema]; exact hb) h)).congr ?_
    intro q k v _
    simp only [List.mem_cons]
    tauto

theorem putStored_put {st : Stored V} {H' : HIRM F} {t t' : Tape} (ht : H.Tidy) (hb : NoBase Q H.schema) (h : putStored st H t = .ok (H', t')) :
    Gave Q (fun q k v => part st q k = some v) H H' := by
  unfold putStored at h
  refine (putRels_put ht hb h).congr ?_
  intro q k v _
  refine ⟨fun h => h.2, fun h => ⟨?_, h⟩⟩
  unfold part at h
  cases hx : st.find? q with
  | none => rw [hx] at h; cases h
  | some m => exact FMap.mem_keys.mpr ⟨m, hx⟩

end
end GenDB
end
end Verif
