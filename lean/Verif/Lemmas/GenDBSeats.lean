import Verif.Lemmas.GenDBConserve
import Verif.Props.GenDBClusters
/-!
Entities leave their clusters and come back.
-/
namespace Verif
namespace HIRM
noncomputable section
variable {V : Type} {F : Family V} {H H' : HIRM F}

theorem cluster_of {tb : Int} {I : IRM F} (hI : H.irms.find? tb = some I) (d : String) (i : Int) : H.cluster tb d i = seatOf I.doms d i := by
  unfold cluster; rw [hI]; rfl

theorem cluster_doms (h : ∀ tb, (H'.irms.find? tb).map (·.doms) = (H.irms.find? tb).map (·.doms)) (tb : Int) (d : String) (i : Int) : H'.cluster tb d i = H.cluster tb d i := by
  have h := h tb
  unfold cluster
  cases h1 : H.irms.find? tb <;> cases h2 : H'.irms.find? tb <;> rw [h1, h2] at h
  · simp at h
  · simp at h
  · exact congrArg (fun σ => seatOf σ d i) (Option.some.inj h)

/-- the clusters after one domain has been replaced -/
theorem cluster_set {code : Int} {I : IRM F} {c : String} {dom dom' : Domain} (hI : H.irms.find? code = some I) (hd : I.doms.find? c = some dom) (tb : Int) (d : String) (i : Int) :
    HIRM.cluster { H with irms := H.irms.set code { I with doms := I.doms.set c dom' } } tb d i = if tb = code ∧ d = c then dom'.crp.assignments.find? i else H.cluster tb d i := by
  unfold cluster
  dsimp only
  rw [FMap.find?_set]
  by_cases h1 : tb = code
  · subst h1
    rw [if_pos rfl, hI]
    show seatOf (I.doms.set c dom') d i = _
    unfold seatOf
    rw [FMap.find?_set]
    by_cases h2 : d = c
    · subst h2; rw [if_pos rfl, if_pos ⟨rfl, rfl⟩]; rfl
    · rw [if_neg h2, if_neg (fun h => h2 h.2)]; rfl
  · rw [if_neg h1, if_neg (fun h => h1 h.1)]

theorem Firm.nonneg (h : H.Firm) {tb : Int} {d : String} {i z : Int} (hz : H.cluster tb d i = some z) : 0 ≤ z := by
  obtain ⟨I, hI, hz⟩ := Option.bind_eq_some_iff.mp hz
  obtain ⟨dom, hd, hz⟩ := Option.bind_eq_some_iff.mp hz
  exact ((h tb I hI).doms d dom hd).2.2 i z hz

end
end HIRM

theorem Rel.hasObservation_true {V : Type} {F : Family V} {r : Rel F} (hi : r.Indexed) {d : String} {i : Int} (h : r.hasObservation d i = .ok true) :
    ∃ k, r.data.contains k = true ∧ Uses r.doms d i k := by
  have key : ∀ {W : Type} {D : DistOps W} {q : CleanRel D}, q.Indexed → q.hasObservation d i = .ok true → ∃ k, q.data.contains k = true ∧ Uses q.doms d i k := by
    intro W D q hi h
    obtain ⟨m, h1, h2⟩ := bind_ok.mp h
    have h1 := FMap.atKey_ok.mp h1
    obtain ⟨s, hs⟩ := FMap.contains_iff.mp (Except.ok.inj h2)
    obtain ⟨k, hk⟩ := hi.idx.ne d m i s h1 hs
    exact ⟨k, (hi.idx.mem d m i k h1).mp ⟨s, hs, hk⟩⟩
  cases r with
  | clean c q => exact key hi h
  | noisy e p q =>
    replace hi : q.Indexed := hi
    obtain ⟨k, h1, h2⟩ := key hi.em h
    rw [hi.keys] at h1
    rw [hi.doms] at h2
    exact ⟨k, h1, h2⟩

theorem IRM.anyHas_true {V : Type} {F : Family V} {I : IRM F} {d : String} {i : Int} : ∀ (l : List String) (b : Bool), IRM.anyHas I d i l b = .ok true →
    b = true ∨ ∃ n x, I.rels.find? n = some x ∧ x.2.hasObservation d i = .ok true := by
  intro l
  induction l with
  | nil => intro b hc; cases hc; exact .inl rfl
  | cons r l ih =>
    intro b hc
    obtain ⟨⟨id, rel⟩, h1, h2⟩ := bind_ok.mp hc
    obtain ⟨h, h3, h4⟩ := bind_ok.mp h2
    rcases ih _ h4 with h5 | h5
    · rw [Bool.or_eq_true] at h5
      rcases h5 with h5 | h5
      · exact .inl h5
      · subst h5
        exact .inr ⟨r, _, FMap.atKey_ok.mp h1, h3⟩
    · exact .inr h5

namespace GenDB
open PClean
noncomputable section
variable {V : Type} {F : Family V} {H H₁ H₂ : HIRM F} {out out₁ out₂ : DomOut}

theorem used_of_has (ht : H.Tidy) {tb : Int} {I : IRM F} (hI : H.irms.find? tb = some I) {d : String} {i : Int} (h : I.hasObservation d i = .ok true) : Used H tb d i := by
  obtain ⟨names, _, h⟩ := bind_ok.mp h
  obtain ⟨_, _, h⟩ := bind_ok.mp h
  rcases IRM.anyHas_true _ _ h with h | ⟨n, ⟨id, r⟩, h1, h2⟩
  · cases h
  · obtain ⟨a, sp, b, c⟩ := ht.irms tb I hI n _ h1
    have hs := ht.skel.specs tb I hI n (FMap.contains_iff.mpr ⟨_, h1⟩)
    rw [b] at hs
    obtain ⟨k, hk, hu⟩ := Rel.hasObservation_true a h2
    obtain ⟨v, hv⟩ := FMap.contains_iff.mp hk
    have hT : H.tableOf n = some tb := (ht.skel.place tb I hI n).mp (FMap.contains_iff.mpr ⟨_, h1⟩)
    refine ⟨n, sp, k, v, hT, hs.symm, HIRM.value_some.mpr ⟨tb, id, r, HIRM.relOf_some.mpr ⟨hT, I, hI, h1⟩, hv⟩, ?_⟩
    rw [← c]
    exact hu

theorem Used.quiet {tb : Int} {d : String} {i : Int} (h : Used H tb d i) (hq : Quiet (fun _ => True) H H₁) : Used H₁ tb d i := by
  obtain ⟨n, spec, k, v, h1, h2, h3, h4⟩ := h
  exact ⟨n, spec, k, v, by rw [HIRM.Next.tableOf hq]; exact h1, by rw [hq.schema]; exact h2, by rw [hq.value trivial]; exact h3, h4⟩

/-- Entities have left their clusters and are recorded. -/
def Left (H : HIRM F) (out : DomOut) (H' : HIRM F) (out' : DomOut) : Prop := ∀ tb d i,
  (H'.cluster tb d i = H.cluster tb d i ∧ out'.find? (tb, d, i) = out.find? (tb, d, i)) ∨
    ∃ z, H.cluster tb d i = some z ∧ H'.cluster tb d i = none ∧ out'.find? (tb, d, i) = some z

theorem Left.refl : Left H out H out := fun _ _ _ => .inl ⟨rfl, rfl⟩

theorem Left.trans (h : Left H out H₁ out₁) (h' : Left H₁ out₁ H₂ out₂) : Left H out H₂ out₂ := by
  intro tb d i
  rcases h tb d i with ⟨a1, a2⟩ | ⟨z, a1, a2, a3⟩ <;> rcases h' tb d i with ⟨b1, b2⟩ | ⟨w, b1, b2, b3⟩
  · exact .inl ⟨b1.trans a1, b2.trans a2⟩
  · exact .inr ⟨w, a1.symm.trans b1, b2, b3⟩
  · exact .inr ⟨z, a1, b1.trans a2, b2.trans a3⟩
  · rw [a2] at b1; cases b1

theorem Left.gone (h : Left H out H₁ out₁) {tb : Int} {d : String} {i : Int} (hc : H.cluster tb d i = none) : H₁.cluster tb d i = none := by
  rcases h tb d i with ⟨a, _⟩ | ⟨z, a, _⟩
  · exact a.trans hc
  · rw [hc] at a; cases a

/-- the recorded entities have no cluster -/
def Away (H : HIRM F) (out : DomOut) : Prop := ∀ tb d i z, out.find? (tb, d, i) = some z → H.cluster tb d i = none

theorem Away.left (h : Away H out) (hl : Left H out H₁ out₁) : Away H₁ out₁ := by
  intro tb d i z hz
  rcases hl tb d i with ⟨a, b⟩ | ⟨w, _, b, _⟩
  · rw [a]; rw [b] at hz; exact h tb d i z hz
  · exact b

/-- An entity has no cluster or is used. -/
def Off (H : HIRM F) (tb : Int) (d : String) (i : Int) : Prop := H.cluster tb d i = none ∨ Used H tb d i

theorem Off.next {tb : Int} {d : String} {i : Int} (h : Off H tb d i) (hq : Quiet (fun _ => True) H H₁) (hl : Left H out H₁ out₁) : Off H₁ tb d i :=
  h.imp hl.gone (fun h => h.quiet hq)

theorem dropRefs_left {rec : Int → Nat → HIRM F → DomOut → Res (WithBot ℝ × HIRM F × DomOut)} {e : Ents} {c : String} {i : Int}
    (hrec : ∀ v j H out lp H' out', H.Firm → rec v j H out = .ok (lp, H', out') → H'.Firm ∧ Left H out H' out') {l : List (String × Nat)} :
    ∀ {H H' : HIRM F} {out out' : DomOut} {lp : WithBot ℝ}, H.Firm → dropRefs rec e c i l H out = .ok (lp, H', out') → Left H out H' out' := by
  induction l with
  | nil => intro H H' out out' lp _ h; cases h; exact .refl
  | cons x l ih =>
    obtain ⟨f, j⟩ := x
    intro H H' out out' lp hf h
    unfold dropRefs at h
    obtain ⟨v, _, h⟩ := bind_ok.mp h
    obtain ⟨⟨lp₁, H₁, out₁⟩, h1, h⟩ := bind_ok.mp h
    dsimp only at h
    obtain ⟨⟨lp₂, H₂, out₂⟩, h2, h⟩ := bind_ok.mp h
    cases h
    obtain ⟨k1, k2⟩ := hrec _ _ _ _ _ _ _ hf h1
    exact k2.trans (ih k1 h2)

/-- the entity that `unincorporate_from_domain_cluster_relation` is called for -/
theorem dropEntity_left {relIdx : FMap String RefIdx} {e : Ents} {rel : String} {n : Nat} : ∀ (v : Int) (j : Nat) (H : HIRM F) (out : DomOut) (lp : WithBot ℝ)
    (H' : HIRM F) (out' : DomOut), H.Firm → dropEntity relIdx e rel n v j H out = .ok (lp, H', out') → Left H out H' out' ∧
    (H.Tidy → Away H out → ∀ tb spec d, H.tableOf rel = some tb → H.schema.find? rel = some spec → spec.doms[j]? = some d → Off H' tb d v) := by
  induction n with
  | zero => intro v j H out lp H' out' _ h; cases h
  | succ n ih =>
    intro v j H out lp H' out' hf hh
    have hq : Quiet (fun _ => True) H H' := dropEntity_quiet _ _ _ _ _ _ _ hh
    have h := hh
    unfold dropEntity at h
    obtain ⟨⟨code, I⟩, h1, h⟩ := bind_ok.mp h
    dsimp only at h
    obtain ⟨spec, hs, h⟩ := bind_ok.mp h
    obtain ⟨c, hc, h⟩ := bind_ok.mp h
    obtain ⟨dom, hd, h⟩ := bind_ok.mp h
    obtain ⟨hT, hI⟩ := HIRM.relationToIrm_ok.mp h1
    have hs := FMap.atKey_ok.mp hs
    have hc := atR_ok.mp hc
    have hd := FMap.atKey_ok.mp hd
    have hw := ((hf code I hI).doms c dom hd).2.1
    have hcl : H.cluster code c v = dom.crp.assignments.find? v := by
      rw [HIRM.cluster_of hI]; unfold seatOf; rw [hd]; rfl
    suffices hm : Left H out H' out' ∧ (H.Tidy → Away H out → Off H' code c v) by
      refine ⟨hm.1, fun ht ha tb spec' d k1 k2 k3 => ?_⟩
      rw [hT] at k1; cases k1
      rw [hs] at k2; cases k2
      rw [hc] at k3; cases k3
      exact hm.2 ht ha
    split at h
    · rename_i ho
      cases h
      refine ⟨.refl, fun _ ha => .inl ?_⟩
      obtain ⟨z, hz⟩ := FMap.contains_iff.mp ho
      exact ha _ _ _ z hz
    · obtain ⟨has, h2, h⟩ := bind_ok.mp h
      split at h
      · rename_i hh
        cases h
        refine ⟨.refl, fun ht _ => ?_⟩
        cases has with
        | true => exact .inr (used_of_has ht hI h2)
        | false =>
          refine .inl ?_
          rw [hcl]
          exact hw.not_mem.mp (by simpa using hh)
      · rename_i hn
        obtain ⟨cl, h3, h⟩ := bind_ok.mp h
        obtain ⟨dom', h4, h⟩ := bind_ok.mp h
        have h3 := FMap.atKey_ok.mp h3
        have hi : dom.items.contains v = true := hw.mem.mpr ⟨cl, h3⟩
        have hhas : has = false := by
          cases has with
          | false => rfl
          | true => exact absurd rfl hn
        subst hhas
        obtain ⟨tb', s, _, _, h6, _⟩ := Domain.unincorporate_eq hw hi
        have hf' := firm_closed.leave hf hI hd h2 h4
        rw [h6] at h4
        cases h4
        have k0 : ∀ tb d i, HIRM.cluster { H with irms := H.irms.set code { I with doms := I.doms.set c { dom with crp := dom.crp.uninState v tb' s, items := dom.items.erase v } } } tb d i =
            if tb = code ∧ d = c ∧ i = v then none else H.cluster tb d i := by
          intro tb d i
          rw [HIRM.cluster_set hI hd]
          by_cases hx : tb = code ∧ d = c
          · rw [if_pos hx]
            obtain ⟨rfl, rfl⟩ := hx
            show (dom.crp.assignments.erase v).find? i = _
            rw [FMap.find?_erase, HIRM.cluster_of hI]
            by_cases hv : i = v
            · rw [if_pos hv, if_pos ⟨rfl, rfl, hv⟩]
            · rw [if_neg hv, if_neg (fun h => hv h.2.2)]
              unfold seatOf
              rw [hd]
              rfl
          · rw [if_neg hx, if_neg (fun h => hx ⟨h.1, h.2.1⟩)]
        have k1 : Left H out { H with irms := H.irms.set code { I with doms := I.doms.set c { dom with crp := dom.crp.uninState v tb' s, items := dom.items.erase v } } }
            (out.set (code, c, v) cl) := by
          intro tb d i
          rw [k0, FMap.find?_set]
          by_cases hx : tb = code ∧ d = c ∧ i = v
          · obtain ⟨rfl, rfl, rfl⟩ := hx
            rw [if_pos ⟨rfl, rfl, rfl⟩, if_pos rfl]
            exact .inr ⟨cl, hcl.trans h3, rfl, rfl⟩
          · rw [if_neg hx, if_neg (fun h => hx (by cases h; exact ⟨rfl, rfl, rfl⟩))]
            exact .inl ⟨rfl, rfl⟩
        have k2 : HIRM.cluster { H with irms := H.irms.set code { I with doms := I.doms.set c { dom with crp := dom.crp.uninState v tb' s, items := dom.items.erase v } } } code c v = none := by
          rw [k0, if_pos ⟨rfl, rfl, rfl⟩]
        split at h
        · cases h; exact ⟨k1, fun _ _ => .inl k2⟩
        · obtain ⟨⟨lp₁, H₁, out₁⟩, h5, h⟩ := bind_ok.mp h
          cases h
          have k3 := dropRefs_left (fun v j H out lp H' out' hf h => ⟨firm_closed.dropEntity (x := (lp, H', out')) hf h, (ih v j H out lp H' out' hf h).1⟩) hf' h5
          exact ⟨k1.trans k3, fun _ _ => .inl (k3.gone k2)⟩

theorem dropInds_left {relIdx : FMap String RefIdx} {e : Ents} {f : String} {v : Int} {rel : String} {inds : List Nat} :
    ∀ {H H' : HIRM F} {out out' : DomOut} {lp : WithBot ℝ}, H.Firm → dropInds relIdx e f v rel inds H out = .ok (lp, H', out') → Left H out H' out' ∧
    (H.Tidy → Away H out → ∀ ind ∈ inds, ∀ tb spec j d, RelEntry relIdx rel ind f j → H.tableOf rel = some tb → H.schema.find? rel = some spec → spec.doms[j]? = some d → Off H' tb d v) := by
  induction inds with
  | nil => intro H H' out out' lp _ h; cases h; exact ⟨.refl, fun _ _ _ h => by cases h⟩
  | cons ind inds ih =>
    intro H H' out out' lp hf h
    unfold dropInds at h
    obtain ⟨idx, a1, h⟩ := bind_ok.mp h
    obtain ⟨m, a2, h⟩ := bind_ok.mp h
    obtain ⟨j, a3, h⟩ := bind_ok.mp h
    obtain ⟨_, _, h⟩ := bind_ok.mp h
    obtain ⟨⟨lp₁, H₁, out₁⟩, h1, h⟩ := bind_ok.mp h
    dsimp only at h
    obtain ⟨⟨lp₂, H₂, out₂⟩, h2, h⟩ := bind_ok.mp h
    cases h
    obtain ⟨k1, k2⟩ := dropEntity_left _ _ _ _ _ _ _ hf h1
    have q1 : Quiet (fun _ => True) H H₁ := dropEntity_quiet _ _ _ _ _ _ _ h1
    have q2 : Quiet (fun _ => True) H₁ H₂ := dropInds_quiet h2
    obtain ⟨k3, k4⟩ := ih (firm_closed.dropEntity (x := (lp₁, H₁, out₁)) hf h1) h2
    refine ⟨k1.trans k3, fun ht ha a hin tb spec j' d he hT hs hd => ?_⟩
    rcases List.mem_cons.mp hin with rfl | hin
    · obtain ⟨idx', e1, m', e2, e3⟩ := he
      rw [FMap.atKey_ok.mp a1] at e1; cases e1
      rw [FMap.atKey_ok.mp a2] at e2; cases e2
      rw [FMap.atKey_ok.mp a3] at e3; cases e3
      exact (k2 ht ha tb spec d hT hs hd).next q2 k3
    · exact k4 (HIRM.Next.tidy q1 ht) (ha.left k1) a hin tb spec j' d he (by rw [HIRM.Next.tableOf q1]; exact hT) (by rw [q1.schema]; exact hs) hd

theorem dropRels_left {relIdx : FMap String RefIdx} {e : Ents} {f : String} {v : Int} {l : List (String × List Nat)} :
    ∀ {H H' : HIRM F} {out out' : DomOut} {lp : WithBot ℝ}, H.Firm → dropRels relIdx e f v l H out = .ok (lp, H', out') → Left H out H' out' ∧
    (H.Tidy → Away H out → ∀ rel inds, (rel, inds) ∈ l → ∀ ind ∈ inds, ∀ tb spec j d, RelEntry relIdx rel ind f j → H.tableOf rel = some tb → H.schema.find? rel = some spec →
      spec.doms[j]? = some d → Off H' tb d v) := by
  induction l with
  | nil => intro H H' out out' lp _ h; cases h; exact ⟨.refl, fun _ _ _ _ h => by cases h⟩
  | cons x l ih =>
    obtain ⟨rel, inds⟩ := x
    intro H H' out out' lp hf h
    unfold dropRels at h
    obtain ⟨⟨lp₁, H₁, out₁⟩, h1, h⟩ := bind_ok.mp h
    dsimp only at h
    obtain ⟨⟨lp₂, H₂, out₂⟩, h2, h⟩ := bind_ok.mp h
    cases h
    obtain ⟨k1, k2⟩ := dropInds_left hf h1
    have q1 : Quiet (fun _ => True) H H₁ := dropInds_quiet h1
    have q2 : Quiet (fun _ => True) H₁ H₂ := dropRels_quiet h2
    obtain ⟨k3, k4⟩ := ih (firm_closed.dropInds (x := (lp₁, H₁, out₁)) hf h1) h2
    refine ⟨k1.trans k3, fun ht ha r is hin a hia tb spec j' d he hT hs hd => ?_⟩
    rcases List.mem_cons.mp hin with hin | hin
    · cases hin
      exact (k2 ht ha a hia tb spec j' d he hT hs hd).next q2 k3
    · exact k4 (HIRM.Next.tidy q1 ht) (ha.left k1) r is hin a hia tb spec j' d he (by rw [HIRM.Next.tableOf q1]; exact hT) (by rw [q1.schema]; exact hs) hd

theorem unincReference_left {D D' : DB F} (ht : D.H.Tidy) (hf : D.H.Firm) {inds : FMap String (List Nat)} {c f : String} {i : Int} {st st' : Stored V} {out out' : DomOut} {t t' : Tape}
    {lp : WithBot ℝ} (h : D.unincReference inds c f i st out t = .ok (lp, D', st', out', t')) : D'.H.Firm ∧ HIRM.Next (fun _ => True) D.H D'.H ∧ Left D.H out D'.H out' ∧
    (Away D.H out → ∃ v, getRef D.ents c f i = .ok v ∧ ∀ rel l, inds.find? rel = some l → ∀ ind ∈ l, ∀ tb spec j d, RelEntry D.relIdx rel ind f j → D.H.tableOf rel = some tb →
      D.H.schema.find? rel = some spec → spec.doms[j]? = some d → Off D'.H tb d v) := by
  refine ⟨firm_closed.unincReference (x := (lp, D', st', out', t')) hf h, (unincReference_out ht h).1.next, ?_⟩
  unfold DB.unincReference at h
  obtain ⟨⟨lp₁, H₁, st₁, t₁⟩, h1, h⟩ := bind_ok.mp h
  obtain ⟨v, h0, h⟩ := bind_ok.mp h
  obtain ⟨⟨lp₂, H₂, out₂⟩, h2, h⟩ := bind_ok.mp h
  cases h
  obtain ⟨k1, _⟩ := unincRels_out ht h1
  have hc := HIRM.cluster_doms (k1.doms trivial)
  obtain ⟨k2, k3⟩ := dropRels_left (firm_closed.unincRels (x := (lp₁, H₁, _, _)) hf h1) h2
  refine ⟨?_, fun ha => ⟨v, h0, fun rel l hl ind hin tb spec j d he hT hs hd => ?_⟩⟩
  · intro tb d i
    rw [← hc]
    exact k2 tb d i
  · exact k3 k1.tidy (fun tb d i z hz => by rw [hc]; exact ha tb d i z hz) rel l (FMap.mem_entries.mpr hl) ind hin tb spec j d he (by rw [HIRM.Next.tableOf k1.next]; exact hT)
      (by rw [k1.schema]; exact hs) hd

theorem singleDoms_left {i : Int} {l : List String} : ∀ {D D' : DB F} {out out' : DomOut} {lp : WithBot ℝ}, D.H.Tidy → D.H.Firm → Away D.H out →
    DB.singleDoms i l D out = .ok (lp, D', out') → Left D.H out D'.H out' ∧
    ∀ rel ∈ l, ∃ k j, D.itemsOf rel i = .ok k ∧ k.getLast? = some j ∧ ∀ tb spec d, D.H.tableOf rel = some tb → D.H.schema.find? rel = some spec →
      spec.doms[k.length - 1]? = some d → Off D'.H tb d j := by
  induction l with
  | nil => intro D D' out out' lp _ _ _ h; cases h; exact ⟨.refl, fun _ h => by cases h⟩
  | cons r l ih =>
    intro D D' out out' lp ht hf ha h
    unfold DB.singleDoms at h
    obtain ⟨k, hk, h⟩ := bind_ok.mp h
    obtain ⟨j, hj, h⟩ := bind_ok.mp h
    obtain ⟨⟨lp₁, H₁, out₁⟩, h1, h⟩ := bind_ok.mp h
    dsimp only at h
    obtain ⟨⟨lp₂, D₂, out₂⟩, h2, h⟩ := bind_ok.mp h
    cases h
    obtain ⟨k1, k2⟩ := dropEntity_left _ _ _ _ _ _ _ hf h1
    have q1 : Quiet (fun _ => True) D.H H₁ := dropEntity_quiet _ _ _ _ _ _ _ h1
    have q2 : Quiet (fun _ => True) H₁ D₂.H := singleDoms_quiet h2
    obtain ⟨k3, k4⟩ := ih (D := { D with H := H₁ }) (HIRM.Next.tidy q1 ht) (firm_closed.dropEntity (x := (lp₁, H₁, out₁)) hf h1) (ha.left k1) h2
    refine ⟨k1.trans k3, fun rel hr => ?_⟩
    rcases List.mem_cons.mp hr with rfl | hr
    · exact ⟨k, j, hk, back_some hj, fun tb spec d hT hs hd => (k2 ht ha tb spec d hT hs hd).next q2 k3⟩
    · obtain ⟨k', j', e1, e2, e3⟩ := k4 rel hr
      refine ⟨k', j', ?_, e2, fun tb spec d hT hs hd => e3 tb spec d (by show H₁.tableOf rel = _; rw [HIRM.Next.tableOf q1]; exact hT) (by show H₁.schema.find? rel = _; rw [q1.schema]; exact hs) hd⟩
      have ho : OnlyH D { D with H := H₁ } := .of q1.schema
      exact (itemsOf_only ho rel i).symm.trans e1

theorem unincSingleton_left {D D' : DB F} (ht : D.H.Tidy) (hf : D.H.Firm) {c f : String} {i : Int} {d : String} {st st' : Stored V} {out out' : DomOut} {ent ent' : EntOut} {lp : WithBot ℝ}
    (ha : Away D.H out) (h : D.unincSingleton c f i d st out ent = .ok (lp, D', st', out', ent')) :
    D'.H.Firm ∧ HIRM.Next (fun _ => True) D.H D'.H ∧ Left D.H out D'.H out' ∧
    ∃ v rels, getRef D.ents c f i = .ok v ∧ D.classRels.find? d = some rels ∧ ∀ rel ∈ rels, ∃ k j, D'.itemsOf rel v = .ok k ∧ k.getLast? = some j ∧
      ∀ tb spec d, D.H.tableOf rel = some tb → D.H.schema.find? rel = some spec → spec.doms[k.length - 1]? = some d → Off D'.H tb d j := by
  refine ⟨firm_closed.unincSingleton (x := (lp, D', st', out', ent')) hf h, (unincSingleton_out ht h).2.1.next, ?_⟩
  unfold DB.unincSingleton at h
  obtain ⟨v, h0, h⟩ := bind_ok.mp h
  obtain ⟨⟨lp₁, e, ent₁⟩, _, h⟩ := bind_ok.mp h
  obtain ⟨rels, h1, h⟩ := bind_ok.mp h
  obtain ⟨⟨lp₂, D₂, st₂⟩, h3, h⟩ := bind_ok.mp h
  dsimp only at h
  obtain ⟨⟨lp₃, D₃, out₃⟩, h4, h⟩ := bind_ok.mp h
  cases h
  obtain ⟨k1, _⟩ := singleRels_out (D := { D with ents := e }) ht h3
  have hc := HIRM.cluster_doms (k1.doms trivial)
  have ha' : Away D₂.H out := fun tb d i z hz => by rw [hc]; exact ha tb d i z hz
  obtain ⟨k2, k3⟩ := singleDoms_left k1.tidy (firm_closed.singleRels (x := (lp₂, D₂, _)) (D := { D with ents := e }) hf h3) ha' h4
  refine ⟨?_, v, rels, h0, FMap.atKey_ok.mp h1, fun rel hr => ?_⟩
  · intro tb d i
    have := k2 tb d i
    rw [hc] at this
    exact this
  · obtain ⟨k, j, e1, e2, e3⟩ := k3 rel hr
    exact ⟨k, j, (itemsOf_only (singleDoms_only h4) rel v).trans e1, e2, fun tb spec d hT hs hd => e3 tb spec d (by rw [HIRM.Next.tableOf k1.next]; exact hT) (by rw [k1.schema]; exact hs) hd⟩

/-! ### The entities come back -/

/-- Entities that had no cluster have joined those of the list. -/
structure Join (l : List ((Int × String × Int) × Int)) (H H' : HIRM F) : Prop where
  kept : ∀ tb d i z, H.cluster tb d i = some z → H'.cluster tb d i = some z
  has : ∀ tb d i z, ((tb, d, i), z) ∈ l → ∃ z', H'.cluster tb d i = some z'
  only : ∀ tb d i z, H'.cluster tb d i = some z → H.cluster tb d i = some z ∨ ((tb, d, i), z) ∈ l

theorem rejoin_join {l : List ((Int × String × Int) × Int)} : ∀ {H H' : HIRM F} {t t' : Tape}, H.Firm → (∀ x ∈ l, 0 ≤ x.2) → DB.rejoin l H t = .ok (H', t') → Join l H H' := by
  induction l with
  | nil => intro H H' t t' _ _ h; cases h; exact ⟨fun _ _ _ _ h => h, (fun _ _ _ _ h => by cases h), fun _ _ _ _ h => .inl h⟩
  | cons x l ih =>
    obtain ⟨⟨code, c, item⟩, cl⟩ := x
    intro H H' t t' hf hz h
    unfold DB.rejoin at h
    obtain ⟨I, h1, h⟩ := bind_ok.mp h
    obtain ⟨dom, h2, h⟩ := bind_ok.mp h
    have hI := FMap.atKey_ok.mp h1
    have hd := FMap.atKey_ok.mp h2
    have hw := ((hf code I hI).doms c dom hd).2.1
    have hcl : H.cluster code c item = dom.crp.assignments.find? item := by
      rw [HIRM.cluster_of hI]; unfold seatOf; rw [hd]; rfl
    have hz' : ∀ x ∈ l, 0 ≤ x.2 := fun x hx => hz x (List.mem_cons_of_mem _ hx)
    split at h
    · rename_i hi
      have k := ih hf hz' h
      refine ⟨k.kept, fun tb d i z hx => ?_, fun tb d i z hx => (k.only tb d i z hx).imp id (List.mem_cons_of_mem _)⟩
      rcases List.mem_cons.mp hx with hx | hx
      · cases hx
        obtain ⟨z', hz'⟩ := hw.mem.mp hi
        exact ⟨z', k.kept _ _ _ _ (hcl.trans hz')⟩
      · exact k.has tb d i z hx
    · rename_i hi
      have hi : dom.items.contains item = false := by simpa using hi
      obtain ⟨⟨dom', t₁⟩, h3, h⟩ := bind_ok.mp h
      have hf' := firm_closed.join hf hI hd hi h3
      dsimp only at h
      have k := ih hf' hz' h
      have h0 : 0 ≤ cl := hz _ (List.mem_cons_self ..)
      rw [Domain.incorporate_new hw hi] at h3
      cases h3
      have hch : (dom.chosenTable t cl).1 = cl := by unfold Domain.chosenTable; rw [if_pos h0]
      have k0 : ∀ tb d i, HIRM.cluster { H with irms := H.irms.set code { I with doms := I.doms.set c (dom.incState item (dom.chosenTable t cl).1) } } tb d i =
          if tb = code ∧ d = c ∧ i = item then some cl else H.cluster tb d i := by
        intro tb d i
        rw [HIRM.cluster_set hI hd]
        by_cases hx : tb = code ∧ d = c
        · rw [if_pos hx]
          obtain ⟨rfl, rfl⟩ := hx
          show (dom.crp.assignments.set item _).find? i = _
          rw [FMap.find?_set, HIRM.cluster_of hI, hch]
          by_cases hv : i = item
          · rw [if_pos hv, if_pos ⟨rfl, rfl, hv⟩]
          · rw [if_neg hv, if_neg (fun h => hv h.2.2)]
            unfold seatOf
            rw [hd]
            rfl
        · rw [if_neg hx, if_neg (fun h => hx ⟨h.1, h.2.1⟩)]
      refine ⟨fun tb d i z hx => ?_, fun tb d i z hx => ?_, fun tb d i z hx => ?_⟩
      · refine k.kept tb d i z ?_
        rw [k0, if_neg, hx]
        rintro ⟨rfl, rfl, rfl⟩
        rw [hcl, hw.not_mem.mp hi] at hx
        cases hx
      · rcases List.mem_cons.mp hx with hx | hx
        · cases hx
          exact ⟨cl, k.kept _ _ _ _ (by rw [k0, if_pos ⟨rfl, rfl, rfl⟩])⟩
        · exact k.has tb d i z hx
      · rcases k.only tb d i z hx with hx | hx
        · rw [k0] at hx
          split at hx
          · rename_i he
            obtain ⟨rfl, rfl, rfl⟩ := he
            cases hx
            exact .inr (List.mem_cons_self ..)
          · exact .inl hx
        · exact .inr (List.mem_cons_of_mem _ hx)

theorem rejoin_cluster {H' : HIRM F} {t t' : Tape} (hf : H.Firm) (hz : ∀ k z, out.find? k = some z → 0 ≤ z) (h : DB.rejoin out.entries H t = .ok (H', t')) (tb : Int) (d : String) (i : Int) :
    H'.cluster tb d i = (H.cluster tb d i).or (out.find? (tb, d, i)) := by
  have j := rejoin_join hf (fun x hx => hz x.1 x.2 (FMap.mem_entries.mp hx)) h
  cases hc : H.cluster tb d i with
  | some z => rw [j.kept tb d i z hc]; rfl
  | none =>
    show _ = out.find? (tb, d, i)
    cases ho : out.find? (tb, d, i) with
    | some z =>
      obtain ⟨z', hz'⟩ := j.has tb d i z (FMap.mem_entries.mpr ho)
      rcases j.only tb d i z' hz' with h1 | h1
      · rw [hc] at h1; cases h1
      · have := FMap.mem_entries.mp h1
        rw [ho] at this
        cases this
        exact hz'
    | none =>
      cases hz' : H'.cluster tb d i with
      | none => rfl
      | some z' =>
        rcases j.only tb d i z' hz' with h1 | h1
        · rw [hc] at h1; cases h1
        · have := FMap.mem_entries.mp h1
          rw [ho] at this
          cases this

/-! ### Values come back to entities that are in clusters -/

theorem _root_.Verif.CleanRel.incLoop_seated {items : Items} {ds : List String} : ∀ {is : Items} {σ σ' : Verif.Doms} {m m' : RevIndex} {t t' : Tape},
    (∀ d i, Verif.Uses ds d i is → Seated σ d i) → CleanRel.incLoop items ds is σ m t = .ok (σ', m', t') → σ' = σ := by
  induction ds with
  | nil => intro is σ σ' m m' t t' _ h; cases h; rfl
  | cons d ds ih =>
    intro is σ σ' m m' t t' hs h
    cases is with
    | nil => cases h
    | cons i is =>
      unfold CleanRel.incLoop at h
      obtain ⟨dom, h1, h⟩ := bind_ok.mp h
      obtain ⟨⟨dom', t₁⟩, h2, h⟩ := bind_ok.mp h
      dsimp only at h
      obtain ⟨m₁, _, h⟩ := bind_ok.mp h
      have h1 : σ.find? d = some dom := Doms.get_ok h1
      obtain ⟨dom'', h3, h4⟩ := hs d i (List.mem_cons_self ..)
      rw [h1] at h3
      cases h3
      rw [Domain.incorporate_same h4 h2, FMap.set_of_find h1] at h
      exact ih (fun d' i' hu => hs d' i' (List.mem_cons_of_mem _ hu)) h

theorem _root_.Verif.CleanRel.incorporate_seated {W : Type} {D : DistOps W} {r r' : CleanRel D} {items : Items} {v : W} {σ σ' : Verif.Doms} {t t' : Tape}
    (hs : ∀ d i, Verif.Uses r.doms d i items → Seated σ d i) (h : CleanRel.incorporate σ r items v t = .ok (σ', r', t')) : σ' = σ := by
  obtain ⟨⟨z, σ₁, r₁, t₁⟩, h1, h⟩ := bind_ok.mp h
  dsimp only at h
  obtain ⟨_, _, h⟩ := bind_ok.mp h
  obtain ⟨_, _, h⟩ := bind_ok.mp h
  cases h
  obtain ⟨_, _, h1⟩ := bind_ok.mp h1
  obtain ⟨⟨σ₂, m, t₂⟩, h2, h1⟩ := bind_ok.mp h1
  dsimp only at h1
  obtain ⟨_, _, h1⟩ := bind_ok.mp h1
  have := CleanRel.incLoop_seated hs h2
  split at h1 <;> cases h1 <;> exact this

theorem _root_.Verif.Rel.incorporate_seated {r r' : Rel F} (hi : r.Indexed) {b : Option (BaseView V)} {items : Items} {v : V} {σ σ' : Verif.Doms} {t t' : Tape}
    (hs : ∀ d i, Verif.Uses r.doms d i items → Seated σ d i) (h : Rel.incorporate σ b r items v t = .ok (σ', r', t')) : σ' = σ := by
  cases r with
  | clean c q =>
    obtain ⟨⟨σ₁, q', t₁⟩, h1, h⟩ := bind_ok.mp h
    cases h
    exact CleanRel.incorporate_seated hs h1
  | noisy e p q =>
    replace hi : q.Indexed := hi
    obtain ⟨_, _, h⟩ := bind_ok.mp h
    obtain ⟨⟨σ₁, q', t₁⟩, h1, h⟩ := bind_ok.mp h
    cases h
    obtain ⟨_, _, h1⟩ := bind_ok.mp h1
    obtain ⟨_, _, h1⟩ := bind_ok.mp h1
    obtain ⟨⟨σ₂, q₂, t₂⟩, h2, h1⟩ := bind_ok.mp h1
    cases h1
    exact CleanRel.incorporate_seated (fun d i hu => hs d i (by rw [hi.doms] at hu; exact hu)) h2

/-- The entities of the tuple of the relation are in clusters. -/
def Placed (H : HIRM F) (n : String) (k : Items) : Prop := ∀ tb spec d i, H.tableOf n = some tb → H.schema.find? n = some spec → Verif.Uses spec.doms d i k → ∃ z, H.cluster tb d i = some z

/-- what incorporating values about entities that are in clusters leaves as it is -/
structure Still (H H' : HIRM F) : Prop where
  tidy : H'.Tidy
  firm : H'.Firm
  next : HIRM.Next (fun _ => True) H H'
  cluster : ∀ tb d i, H'.cluster tb d i = H.cluster tb d i

theorem Still.refl (ht : H.Tidy) (hf : H.Firm) : Still H H := ⟨ht, hf, .refl H, fun _ _ _ => rfl⟩

theorem Still.trans (h : Still H H₁) (h' : Still H₁ H₂) : Still H H₂ :=
  ⟨h'.tidy, h'.firm, h.next.trans h'.next, fun tb d i => (h'.cluster tb d i).trans (h.cluster tb d i)⟩

theorem Still.placed (h : Still H H₁) {n : String} {k : Items} (hp : Placed H n k) : Placed H₁ n k := by
  intro tb spec d i hT hs hu
  rw [h.next.tableOf] at hT
  rw [h.next.schema] at hs
  rw [h.cluster]
  exact hp tb spec d i hT hs hu

theorem seated_of (hf : H.Firm) {tb : Int} {I : IRM F} (hI : H.irms.find? tb = some I) {d : String} {i z : Int} (h : H.cluster tb d i = some z) : Seated I.doms d i := by
  rw [HIRM.cluster_of hI] at h
  obtain ⟨dom, hd, h⟩ := Option.bind_eq_some_iff.mp h
  exact ⟨dom, hd, ((hf tb I hI).doms d dom hd).2.1.mem.mpr ⟨z, h⟩⟩

theorem incorporate_still (ht : H.Tidy) (hf : H.Firm) {n : String} {k : Items} {v : V} {t t' : Tape} {H' : HIRM F} (hp : Placed H n k) (h : H.incorporate n k v t = .ok (H', t')) : Still H H' := by
  have hn := (HIRM.incorporate_next h).1
  refine ⟨hn.tidy ht, firm_closed.incorporate hf h, hn.mono fun _ _ => trivial, HIRM.cluster_doms ?_⟩
  obtain ⟨⟨tb, I⟩, h1, h⟩ := bind_ok.mp h
  obtain ⟨⟨I', t₁⟩, h2, h⟩ := bind_ok.mp h
  cases h
  obtain ⟨hT, hI⟩ := HIRM.relationToIrm_ok.mp h1
  obtain ⟨⟨id, r⟩, h3, h2⟩ := bind_ok.mp h2
  obtain ⟨⟨σ, r', t₂⟩, h4, h2⟩ := bind_ok.mp h2
  cases h2
  have h3 := FMap.atKey_ok.mp h3
  obtain ⟨a, sp, b, c⟩ := ht.irms tb I hI n _ h3
  have hs := ht.skel.specs tb I hI n (FMap.contains_iff.mpr ⟨_, h3⟩)
  rw [b] at hs
  have hσ : σ = I.doms := Rel.incorporate_seated a (fun d i hu => by
    rw [c] at hu
    obtain ⟨z, hz⟩ := hp tb sp d i hT hs.symm hu
    exact seated_of hf hI hz) h4
  intro u
  show ((H.irms.set tb _).find? u).map _ = _
  rw [FMap.find?_set]
  split
  · rename_i he
    subst he
    rw [hI, hσ]
    rfl
  · rfl

theorem putItems_still {rel : String} {l : List (Items × V)} : ∀ {H H' : HIRM F} {t t' : Tape}, H.Tidy → H.Firm → (∀ k v, (k, v) ∈ l → Placed H rel k) →
    putItems rel l H t = .ok (H', t') → Still H H' := by
  induction l with
  | nil => intro H H' t t' ht hf _ h; cases h; exact .refl ht hf
  | cons a l ih =>
    obtain ⟨items, v⟩ := a
    intro H H' t t' ht hf hp h
    unfold putItems at h
    obtain ⟨⟨p, r⟩, _, h⟩ := bind_ok.mp h
    dsimp only at h
    have hp' : ∀ k v, (k, v) ∈ l → Placed H rel k := fun k v hk => hp k v (List.mem_cons_of_mem _ hk)
    split at h
    · exact ih ht hf hp' h
    · obtain ⟨⟨H₁, t₁⟩, h1, h⟩ := bind_ok.mp h
      have k1 := incorporate_still ht hf (hp items v (List.mem_cons_self ..)) h1
      exact k1.trans (ih k1.tidy k1.firm (fun k v hk => k1.placed (hp' k v hk)) h)

theorem putRel_still {st : Stored V} {n : Nat} : ∀ {rel : String} {H H' : HIRM F} {t t' : Tape}, H.Tidy → H.Firm → (∀ n k v, part st n k = some v → Placed H n k) →
    putRel st n rel H t = .ok (H', t') → Still H H' := by
  induction n with
  | zero => intro rel H H' t t' _ _ _ h; cases h
  | succ n ih =>
    intro rel H H' t t' ht hf hp h
    unfold putRel at h
    obtain ⟨⟨H₁, t₁⟩, h1, h⟩ := bind_ok.mp h
    dsimp only at h
    obtain ⟨m, h2, h⟩ := bind_ok.mp h
    have h2 := FMap.atKey_ok.mp h2
    have k1 : Still H H₁ := by
      unfold putBase at h1
      obtain ⟨spec, hs, h1⟩ := bind_ok.mp h1
      cases spec with
      | clean c ds o => cases h1; exact .refl ht hf
      | noisy e ds base o =>
        dsimp only at h1
        split at h1
        · exact ih ht hf hp h1
        · cases h1; exact .refl ht hf
    refine k1.trans (putItems_still k1.tidy k1.firm (fun k v hk => k1.placed (hp rel k v ?_)) h)
    rw [(shuffle_perm _ _).mem_iff, FMap.mem_entries] at hk
    unfold part
    rw [h2]
    exact hk

theorem putRels_still {st : Stored V} {n : Nat} {l : List String} : ∀ {H H' : HIRM F} {t t' : Tape}, H.Tidy → H.Firm → (∀ n k v, part st n k = some v → Placed H n k) →
    putRels n st l H t = .ok (H', t') → Still H H' := by
  induction l with
  | nil => intro H H' t t' ht hf _ h; cases h; exact .refl ht hf
  | cons rel l ih =>
    intro H H' t t' ht hf hp h
    unfold putRels at h
    obtain ⟨⟨H₁, t₁⟩, h1, h⟩ := bind_ok.mp h
    have k1 := putRel_still ht hf hp h1
    exact k1.trans (ih k1.tidy k1.firm (fun n k v hv => k1.placed (hp n k v hv)) h)

theorem putStored_still {st : Stored V} {H' : HIRM F} {t t' : Tape} (ht : H.Tidy) (hf : H.Firm) (hp : ∀ n k v, part st n k = some v → Placed H n k)
    (h : putStored st H t = .ok (H', t')) : Still H H' := putRels_still ht hf hp h

/-- the tuples that have values are about entities that are in clusters -/
theorem placed_of (ht : H.Tidy) (hf : H.Firm) {n : String} {k : Items} {v : V} (h : H.value n k = some v) : Placed H n k := by
  intro tb spec d i hT hs hu
  obtain ⟨tb', id, r, h1, h2⟩ := HIRM.value_some.mp h
  obtain ⟨hT', I, hI, hx⟩ := HIRM.relOf_some.mp h1
  obtain rfl : tb = tb' := Option.some.inj (hT.symm.trans hT')
  obtain ⟨a, sp, b, c⟩ := ht.irms tb I hI n _ hx
  have hs' := ht.skel.specs tb I hI n (FMap.contains_iff.mpr ⟨_, hx⟩)
  rw [b, hs] at hs'
  cases hs'
  obtain ⟨z, hz⟩ := HIRM.Firm.seat (hf tb I hI) ((hf tb I hI).seated n _ hx k (FMap.contains_iff.mpr ⟨v, h2⟩) d i (by rw [c]; exact hu))
  exact ⟨z, by rw [HIRM.cluster_of hI]; exact hz⟩

/-- entities that are used are in clusters -/
theorem Used.seat (ht : H.Tidy) (hf : H.Firm) {tb : Int} {d : String} {i : Int} (h : Used H tb d i) : ∃ z, H.cluster tb d i = some z := by
  obtain ⟨n, spec, k, v, h1, h2, h3, h4⟩ := h
  exact placed_of ht hf h3 tb spec d i h1 h2 h4

end
end GenDB
end Verif
