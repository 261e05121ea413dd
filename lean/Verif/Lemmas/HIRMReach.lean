import Verif.Lemmas.HIRMMoved
/-! Helper lemmas: all operations keep the full invariant of an HIRM. -/
namespace Verif
open Spec
noncomputable section
variable {V : Type} {F : Family V} {L : FamilyLaws F}

namespace IRM

theorem Inv.ar {ar ar' : Ptr → Option Nat} {I : IRM F} (h : Inv L ar I)
    (ha : ∀ n id q p, I.rels.find? n = some (id, q) → q.base? = some p → ar' p = ar p) : Inv L ar' I :=
  ⟨h.store, h.alpha, h.names, h.index, h.used, h.schema, fun n id r hr => (h.rels n id r hr).arity (ha n id r · hr)⟩

end IRM

namespace HIRM
open IRM

/-! ### adding a relation -/

theorem arS_ne {schema : Schema F} {name : String} {spec : RelSpec F} {p : Ptr} (h : p.name ≠ name) :
    arS (schema.set name spec) p = arS schema p := by
  rw [arS, arS, FMap.find?_set_ne _ h]

theorem Good.add {H : HIRM F} (h : Good L H) {name : String} {spec : RelSpec F} (hf : H.schema.contains name = false) (hd : spec.doms ≠ [])
    (hb : ∀ b, spec.base? = some b → ∃ sp, H.schema.find? b = some sp ∧ sp.doms.length ≤ spec.doms.length) (t : Tape) :
    ∃ H' t' tb id q, H.addRelation name spec t = .ok (H', t') ∧ Good L H' ∧ H'.schema = H.schema.set name spec ∧ spec.Matches q ∧ q.data = ∅ ∧
      ∀ n, H'.relOf n = if n = name then some (tb, id, q) else H.relOf n := by
  obtain ⟨p, hp⟩ := h.skel.basePtr (spec := spec) (fun b hb' => by
    obtain ⟨sp, h1, _⟩ := hb b hb'
    exact FMap.contains_iff.mpr ⟨sp, h1⟩)
  obtain ⟨rc, c', hrc, hc', heq⟩ := addRelation_eq h.skel hf hp t
  generalize hst : H.crp.sample t = st at *
  obtain ⟨tb, t1⟩ := st
  dsimp only at *
  have hJ : IRM.Inv L (arS H.schema) ((H.irms.find? tb).getD {}) := by
    cases hI : H.irms.find? tb with
    | none => exact inv_empty
    | some I => exact h.inv tb I hI
  have hJf : ((H.irms.find? tb).getD {}).rels.find? name = none := by
    cases hI : H.irms.find? tb with
    | none => rfl
    | some I =>
      simp only [Option.getD_some]
      cases hx : I.rels.find? name with
      | none => rfl
      | some x =>
        rw [h.skel.known (h.skel.obj hI hx)] at hf; cases hf
  have hfn : H.schema.find? name = none := FMap.contains_false.mp hf
  have hne : ∀ tb' I n id q p', H.irms.find? tb' = some I → I.rels.find? n = some (id, q) → q.base? = some p' →
      arS (H.schema.set name spec) p' = arS H.schema p' := by
    intro tb' I n id q p' hI hx hq
    obtain ⟨_, btb, bid, b, h1, _, _⟩ := h.ptr n tb' id q p' (h.skel.obj hI hx) hq
    exact arS_ne (fun he => by
      have := h.skel.known h1
      rw [he, hf] at this; cases this)
  have hne' : ∀ n id q p', ((H.irms.find? tb).getD {}).rels.find? n = some (id, q) → q.base? = some p' →
      arS (H.schema.set name spec) p' = arS H.schema p' := by
    intro n id q p' hx
    cases hI : H.irms.find? tb with
    | none => rw [hI] at hx; cases hx
    | some I => rw [hI] at hx; exact hne tb I n id q p' hI hx
  have hadd : ∃ I1 q1, addObj H.next ((H.irms.find? tb).getD {}) name p spec = .ok I1 ∧ Added H.next name spec q1 ((H.irms.find? tb).getD {}) I1 ∧
      (∀ p', q1.base? = some p' → p' = p) ∧ IRM.Inv L (arS (H.schema.set name spec)) I1 := by
    cases spec with
    | clean c ds o =>
      obtain ⟨I1, q1, h1, h2, _, h4⟩ := addClean_ok hJ hJf H.next c hd o
      refine ⟨I1, q1, h1, h2, ?_, h2.inv hJ (h4 _) hne'⟩
      intro p' hp'
      have := h2.matched.base
      rw [hp'] at this; cases this
    | noisy e ds b o =>
      obtain ⟨btb, bid, rb, h0, hpe⟩ := hp b rfl
      obtain ⟨sp, hsp, hle⟩ := hb b rfl
      obtain ⟨I1, q1, h1, h2, h3, _, h4⟩ := addWithBase_ok hJ hJf H.next e hd b o (p := p) (by rw [hpe])
      refine ⟨I1, q1, h1, h2, ?_, h2.inv hJ (h4 _ sp.doms.length ?_ hle) hne'⟩
      · intro p' hp'
        rw [h3] at hp'; exact (Option.some.inj hp').symm
      · have hpn : p.name = b := by rw [hpe]
        rw [arS_ne (by rw [hpn]; rintro rfl; rw [hfn] at hsp; cases hsp), arS, hpn, hsp]
        rfl
  obtain ⟨I1, q1, h1, h2, h3, h4⟩ := hadd
  rw [h1] at heq
  simp only [bind, Except.bind] at heq
  have hsk := addRelation_skel h.skel heq
  obtain ⟨_, _, htab⟩ := addRelation_tables h.skel heq
  have hI1 : (H.irms.set tb I1).find? tb = some I1 := FMap.find?_set_self _ _ _
  have hrel : ∀ n, HIRM.relOf { schema := H.schema.set name spec, crp := c', irms := H.irms.set tb I1,
                                baseToNoisy := noisyNames H.baseToNoisy name spec, relToCode := H.relToCode.set name rc,
                                codeToRel := H.codeToRel.set rc name, next := H.next + 1 } n = if n = name then some (tb, H.next, q1) else H.relOf n := by
    intro n
    split
    · rename_i he
      subst he
      exact hsk.obj hI1 (by rw [h2.rels, FMap.find?_set_self])
    · rename_i hn
      unfold HIRM.relOf
      rw [htab n hn]
      cases hT : H.tableOf n with
      | none => rfl
      | some u =>
        simp only [Option.bind_eq_bind, Option.bind_some, FMap.find?_set]
        by_cases hu : u = tb
        · subst hu
          obtain ⟨K, hK, _⟩ := h.skel.irm hT
          simp only [if_true, Option.bind_some]
          rw [h2.rels, FMap.find?_set_ne _ hn, hK]
          rfl
        · simp [hu]
  refine ⟨_, _, tb, H.next, q1, heq, ⟨hsk, ?_, ?_, ?_, fun b => ?_⟩, rfl, h2.matched, h2.data, hrel⟩
  · intro u I hI
    dsimp only at hI ⊢
    rw [FMap.find?_set] at hI
    split at hI
    · cases hI; exact h4
    · exact (h.inv u I hI).ar (fun n id q p' hx hq => hne u I n id q p' hI hx hq)
  · intro n u id r p' hr hp'
    rw [hrel] at hr
    split at hr
    · rename_i he
      subst he
      cases hr
      have := h3 p' hp'
      subst this
      have hm := h2.matched.base
      rw [hp'] at hm
      obtain ⟨btb, bid, rb, h0, hpe⟩ := hp p'.name hm.symm
      have hnn : p'.name ≠ n := fun he => by
        have := h.skel.known h0
        rw [he, hf] at this; cases this
      refine ⟨hnn, btb, bid, rb, ?_, hpe, ?_⟩
      · rw [hrel, if_neg hnn]; exact h0
      · intro k v hk
        rw [h2.data] at hk; cases hk
    · obtain ⟨h5, btb, bid, b, h6, h7, h8⟩ := h.ptr n u id r p' hr hp'
      refine ⟨h5, btb, bid, b, ?_, h7, h8⟩
      rw [hrel, if_neg (fun he => by
        have := h.skel.known h6
        rw [he, hf] at this; cases this)]
      exact h6
  · intro b n
    dsimp only
    have h0 := h.noisy b n
    have hkey : n ∈ ((noisyNames H.baseToNoisy name spec).find? b).getD [] ↔
        n ∈ (H.baseToNoisy.find? b).getD [] ∨ (n = name ∧ spec.base? = some b) := by
      unfold noisyNames
      cases hs : spec.base? with
      | none => simp
      | some b' =>
        simp only [FMap.find?_set, Option.some.injEq]
        by_cases hbb : b = b'
        · subst hbb; simp
        · simp [hbb, Ne.symm hbb]
    rw [hkey, h0]
    by_cases hn : n = name
    · subst hn
      simp [hfn]
    · simp [FMap.find?_set, hn]
  · dsimp only
    unfold noisyNames
    cases hs : spec.base? with
    | none => exact h.listed b
    | some b' =>
      dsimp only
      rw [FMap.find?_set]
      split
      · simp
      · exact h.listed b

/-! ### removing a clean relation that is no base -/

theorem Good.remove {H : HIRM F} (h : Good L H) {name : String} {spec : RelSpec F} (hs : H.schema.find? name = some spec) (hb : spec.base? = none)
    (hn : ∀ n sp, H.schema.find? n = some sp → sp.base? ≠ some name) :
    ∃ H', H.removeRelation name = .ok H' ∧ Good L H' ∧ H'.schema = H.schema.erase name ∧
      ∀ n, H'.relOf n = if n = name then none else H.relOf n := by
  obtain ⟨tb, id, rel, hr⟩ := h.skel.relOf (FMap.contains_iff.mpr ⟨spec, hs⟩)
  obtain ⟨hT, I, hI, hx⟩ := relOf_some.mp hr
  dsimp only at hT hI hx
  obtain ⟨rc, hrc, htb⟩ := Option.bind_eq_some_iff.mp hT
  obtain ⟨s, hs1, hs2⟩ := (h.skel.crp.mem rc tb).mp htb
  obtain ⟨c', hc'⟩ := crp_uninc h.skel.crp htb
  have har : ∀ n u id q p, H.relOf n = some (u, id, q) → q.base? = some p → arS (H.schema.erase name) p = arS H.schema p := by
    intro n u id q p hq hp
    obtain ⟨sp, h1, h2⟩ := h.matched hq
    have h3 := h2.base
    rw [hp] at h3
    rw [arS, arS, FMap.find?_erase_ne _ (fun he => hn n sp h1 (by rw [← h3, ← he]; rfl))]
  obtain ⟨I', h1, h2, h3⟩ := removeRelation_ok (ar' := arS (H.schema.erase name)) (h.inv tb I hI) hx
    (fun n id q p _ hq hp => har n tb id q p (h.skel.obj hI hq) hp)
  have hsz : s.size = 1 → I'.rels.size = 0 := by
    intro h4
    rw [size_zero_iff]
    intro n
    rw [h2.rels]
    cases hc : (I.rels.erase name).contains n with
    | false => rfl
    | true =>
      obtain ⟨h5, h6⟩ := contains_erase.mp hc
      obtain ⟨c, h7, h8⟩ := Option.bind_eq_some_iff.mp ((h.skel.place tb I hI n).mp h6)
      obtain ⟨s', h9, h10⟩ := (h.skel.crp.mem c tb).mp h8
      rw [hs1] at h9; cases h9
      have := (size_one (FMap.contains_iff_mem.mpr hs2)).mp h4 c (FMap.contains_iff_mem.mpr h10)
      subst this
      exact absurd (h.skel.code_inj h7 hrc) h5
  obtain ⟨H', hH'⟩ : ∃ H' : HIRM F, H' = { H with
        schema := H.schema.erase name, crp := c', relToCode := H.relToCode.erase name, codeToRel := H.codeToRel.erase rc,
        irms := if s.size = 1 then H.irms.erase tb else H.irms.set tb I' } := ⟨_, rfl⟩
  have hok : H.removeRelation name = .ok H' := by
    refine bind_ok.mpr ⟨rc, FMap.atKey_of_find hrc, bind_ok.mpr ⟨tb, FMap.atKey_of_find htb, bind_ok.mpr ⟨s, FMap.atKey_of_find hs1,
      bind_ok.mpr ⟨c', hc', bind_ok.mpr ⟨I, FMap.atKey_of_find hI, bind_ok.mpr ⟨I', h1, ?_⟩⟩⟩⟩⟩⟩
    rw [hH']
    by_cases h4 : s.size = 1
    · simp [h4, hsz h4, assertR, bind, Except.bind]
    · simp [h4, bind, Except.bind]
  have hsk := removeRelation_skel h.skel hok
  obtain ⟨_, hass, _⟩ := crp_unincorporate h.skel.crp hc'
  have htab : ∀ n, H'.tableOf n = if n = name then none else H.tableOf n := by
    intro n
    unfold tableOf
    rw [hH']
    dsimp only
    rw [FMap.find?_erase]
    split
    · rfl
    · rename_i hn
      cases hf : H.relToCode.find? n with
      | none => rfl
      | some c =>
        have : c ≠ rc := fun e => hn (h.skel.code_inj hf (e ▸ hrc))
        simp [hass, FMap.find?_erase, this]
  have hfind : ∀ u K, H'.irms.find? u = some K → (u = tb ∧ K = I') ∨ (u ≠ tb ∧ H.irms.find? u = some K) := by
    intro u K hK
    rw [hH'] at hK
    dsimp only at hK
    split at hK
    · rw [FMap.find?_erase] at hK
      split at hK
      · cases hK
      · exact .inr ⟨by assumption, hK⟩
    · rw [FMap.find?_set] at hK
      split at hK
      · cases hK; exact .inl ⟨by assumption, rfl⟩
      · exact .inr ⟨by assumption, hK⟩
  have hrel : ∀ n, H'.relOf n = if n = name then none else H.relOf n := by
    intro n
    split
    · rename_i he
      unfold HIRM.relOf
      rw [htab, if_pos he]; rfl
    · rename_i hne
      have hTn := (htab n).trans (if_neg hne)
      cases hT' : H.tableOf n with
      | none =>
        rw [hT'] at hTn
        simp [HIRM.relOf, hTn, hT']
      | some u =>
        rw [hT'] at hTn
        obtain ⟨K, hK, hKn⟩ := hsk.irm hTn
        rcases hfind u K hK with ⟨rfl, rfl⟩ | ⟨_, hK'⟩
        · simp only [HIRM.relOf, hTn, hT', hK, hI, Option.bind_eq_bind, Option.bind_some]
          rw [h2.rels, FMap.find?_erase_ne _ hne]
        · simp only [HIRM.relOf, hTn, hT', hK, hK', Option.bind_eq_bind, Option.bind_some]
  have hschema : H'.schema = H.schema.erase name := by rw [hH']
  refine ⟨H', hok, ⟨hsk, ?_, ?_, ?_, by rw [hH']; exact h.listed⟩, hschema, hrel⟩
  · intro u K hK
    rw [hschema]
    rcases hfind u K hK with ⟨rfl, rfl⟩ | ⟨_, hK'⟩
    · exact h3
    · exact (h.inv u K hK').ar (fun n id q p hx hq => har n u id q p (h.skel.obj hK' hx) hq)
  · intro n u id' r p hr' hp
    rw [hrel] at hr'
    split at hr'
    · cases hr'
    · obtain ⟨h5, btb, bid, b, h6, h7, h8⟩ := h.ptr n u id' r p hr' hp
      refine ⟨h5, btb, bid, b, ?_, h7, h8⟩
      rw [hrel, if_neg (fun he => ?_)]
      · exact h6
      · obtain ⟨sp, h9, h10⟩ := h.matched hr'
        have := h10.base
        rw [hp, Option.map_some, he] at this
        exact hn n sp h9 this.symm
  · intro b n
    have hb' : H'.baseToNoisy = H.baseToNoisy := by rw [hH']
    rw [hb', h.noisy b n, hschema, FMap.find?_erase]
    split
    · rename_i he
      subst he
      simp only [hs]
      constructor
      · rintro ⟨sp, h5, h6⟩
        cases h5; rw [hb] at h6; cases h6
      · rintro ⟨sp, h5, _⟩; cases h5
    · exact Iff.rfl

/-! ### steps inside the IRMs -/

theorem Good.scored {H : HIRM F} (h : Good L H) (hS : L.Scores H.schema) {tb : Int} {I : IRM F} (hI : H.irms.find? tb = some I) : I.ScoreLaw L := by
  intro n id r hr
  have h1 : H.relOf n = some (tb, id, r) := relOf_some.mpr ⟨(h.skel.place tb I hI n).mp (FMap.contains_iff.mpr ⟨_, hr⟩), I, hI, hr⟩
  obtain ⟨spec, h2, h3⟩ := h.matched h1
  rw [h3.kind]
  exact hS n spec h2

theorem stepIrms_inv : ∀ (l : List Int) (H H' : HIRM F) (t t' : Tape), Good L H → stepIrms l H t = .ok (H', t') →
    Good L H' ∧ SameKeys H H' ∧
      ∀ n u id r, H.relOf n = some (u, id, r) → ∃ r', H'.relOf n = some (u, id, r') ∧ r.SameData r' := by
  intro l
  induction l with
  | nil => intro H H' t t' h hc; cases hc; exact ⟨h, .refl H, fun n u id r hr => ⟨r, hr, .refl r⟩⟩
  | cons tb l ih =>
    intro H H' t t' h hc
    obtain ⟨I, hI, hc⟩ := bind_ok.mp hc
    obtain ⟨⟨I', t1⟩, h1, hc⟩ := bind_ok.mp hc
    rw [FMap.atKey_ok] at hI
    obtain ⟨h2, h3⟩ := singleStep_inv (h.inv tb I hI) h1
    have hk : Keys I I' := ⟨h3.schema, fun n => by
      rcases h3.rels n with ⟨h1, h2⟩ | ⟨id, r, r', h1, h2, _⟩ <;> simp [FMap.contains, h1, h2]⟩
    obtain ⟨h4, h5, _⟩ := h.setIrm hI h2 h3
    obtain ⟨a2, a3, a4⟩ := ih _ H' t1 t' h4 hc
    refine ⟨a2, (SameKeys.setIrm hI hk).trans a3, ?_⟩
    intro n u id r hr
    obtain ⟨r1, b1, b2⟩ := h5 n u id r hr
    obtain ⟨r2, b3, b4⟩ := a4 n u id r1 b1
    exact ⟨r2, b3, b2.trans b4⟩

theorem stepIrms_ok : ∀ (l : List Int) (H : HIRM F) (t : Tape), Good L H → L.Scores H.schema → (∀ tb ∈ l, H.irms.contains tb = true) →
    ∃ H' t', stepIrms l H t = .ok (H', t') ∧ Good L H' ∧ SameKeys H H' ∧
      ∀ n u id r, H.relOf n = some (u, id, r) → ∃ r', H'.relOf n = some (u, id, r') ∧ r.SameData r' := by
  intro l
  induction l with
  | nil => intro H t h _ _; exact ⟨H, t, rfl, h, .refl H, fun n u id r hr => ⟨r, hr, .refl r⟩⟩
  | cons tb l ih =>
    intro H t h hS hl
    obtain ⟨I, hI⟩ := FMap.contains_iff.mp (hl tb (by simp))
    obtain ⟨I', t1, h1, h2, h3⟩ := singleStep_ok (h.inv tb I hI) (h.scored hS hI) 10 t
    have hk : Keys I I' := ⟨h3.schema, fun n => by
      rcases h3.rels n with ⟨h1, h2⟩ | ⟨id, r, r', h1, h2, _⟩ <;> simp [FMap.contains, h1, h2]⟩
    obtain ⟨h4, h5, _⟩ := h.setIrm hI h2 h3
    obtain ⟨H', t', a1, a2, a3, a4⟩ := ih _ t1 h4 hS (by
      intro u hu
      have := hl u (by simp [hu])
      dsimp only
      rw [FMap.contains_iff] at this ⊢
      rw [FMap.find?_set]
      split
      · exact ⟨_, rfl⟩
      · exact this)
    refine ⟨H', t', ?_, a2, (SameKeys.setIrm hI hk).trans a3, ?_⟩
    · simp only [stepIrms, bind, Except.bind, FMap.atKey_of_find hI, h1]; exact a1
    · intro n u id r hr
      obtain ⟨r1, b1, b2⟩ := h5 n u id r hr
      obtain ⟨r2, b3, b4⟩ := a4 n u id r1 b1
      exact ⟨r2, b3, b2.trans b4⟩

/-! ### predictive probabilities -/

theorem _root_.Verif.Rel.Supports.same {r r' : Rel F} (h : r.SameData r') {env : Env V} {items : Items} {v : V}
    (hv : r.Supports L (baseOf env r) items v) : r'.Supports L (baseOf env r') items v := by
  have hb : baseOf env r' = baseOf env r := by rw [baseOf, baseOf, h.base]
  rw [hb]
  have hk := h.kind
  cases r with
  | clean c x =>
    cases r' with
    | clean c' x' => cases hk; exact hv
    | noisy e p x' => cases hk
  | noisy e p x =>
    cases r' with
    | clean c' x' => cases hk
    | noisy e' p' x' => cases hk; exact hv

theorem groupObs_inv {H : HIRM F} : ∀ (obs : List (String × Items × V)) (m m' : FMap Int (List (String × Items × V))),
    H.groupObs obs m = .ok m' → ∀ tb o, m'.find? tb = some o → ∀ x ∈ o, x ∈ (m.find? tb).getD [] ∨ (x ∈ obs ∧ H.tableOf x.1 = some tb) := by
  intro obs
  induction obs with
  | nil => intro m m' hc tb o ho x hx; cases hc; exact .inl (by rw [ho]; exact hx)
  | cons e obs ih =>
    obtain ⟨r, items, v⟩ := e
    intro m m' hc tb o ho x hx
    obtain ⟨u, h1, h2⟩ := bind_ok.mp hc
    have hu := relationToTable_ok.mp h1
    rcases ih _ m' h2 tb o ho x hx with h3 | ⟨h3, h4⟩
    · rw [FMap.find?_set] at h3
      split at h3
      · rename_i he
        subst he
        simp only [Option.getD_some, List.mem_append, List.mem_singleton] at h3
        rcases h3 with h3 | rfl
        · exact .inl h3
        · exact .inr ⟨by simp, hu⟩
      · exact .inl h3
    · exact .inr ⟨by simp [h3], h4⟩

theorem logpGroups_good {env : Env V} : ∀ (l : List (Int × List (String × Items × V))) (H : HIRM F) (t : Tape) (lp : WithBot ℝ) (H' : HIRM F) (t' : Tape),
    Good L H → (∀ e ∈ l, ∀ name items v, (name, items, v) ∈ e.2 → ∀ tb id r, H.relOf name = some (tb, id, r) →
      r.Supports L (baseOf env r) items v) → logpGroups l H t = .ok (lp, H', t') →
    Good L H' ∧ SameKeys H H' ∧ ∀ n u id r, H.relOf n = some (u, id, r) → ∃ r', H'.relOf n = some (u, id, r') ∧ r.SameData r' := by
  intro l
  induction l with
  | nil => intro H t lp H' t' h _ hc; cases hc; exact ⟨h, .refl H, fun n u id r hr => ⟨r, hr, .refl r⟩⟩
  | cons e l ih =>
    obtain ⟨tb, o⟩ := e
    intro H t lp H' t' h hv hc
    obtain ⟨I, h1, h2⟩ := bind_ok.mp hc
    obtain ⟨⟨lp1, I1, t1⟩, h3, h4⟩ := bind_ok.mp h2
    obtain ⟨⟨s, H2, t2⟩, h5, h6⟩ := bind_ok.mp h4
    cases h6
    have hI := FMap.atKey_ok.mp h1
    obtain ⟨a1, a2, _⟩ := logp_inv (env := env) (h.inv tb I hI) (fun name items v hm id r hr =>
      hv (tb, o) (by simp) name items v hm tb id r (h.skel.obj hI hr)) h3
    have hk : Keys I I1 := ⟨a2.schema, fun n => by
      rcases a2.rels n with ⟨h1, h2⟩ | ⟨id, r, r', h1, h2, _⟩ <;> simp [FMap.contains, h1, h2]⟩
    obtain ⟨h4, h5', h6⟩ := h.setIrm hI a1 a2
    obtain ⟨b1, b2, b3⟩ := ih _ t1 s H' t' h4 (by
      intro e he name items v hm u id r hr
      cases hx : H.relOf name with
      | none => rw [(h6 name).mpr hx] at hr; cases hr
      | some x =>
        obtain ⟨u', id', r'⟩ := x
        obtain ⟨r'', c1, c2⟩ := h5' name u' id' r' hx
        rw [hr] at c1; cases c1
        exact (hv e (by simp [he]) name items v hm _ _ _ hx).same c2) h5
    refine ⟨b1, (SameKeys.setIrm hI hk).trans b2, ?_⟩
    intro n u id r hr
    obtain ⟨r1, c1, c2⟩ := h5' n u id r hr
    obtain ⟨r2, c3, c4⟩ := b3 n u id r1 c1
    exact ⟨r2, c3, c2.trans c4⟩

theorem logp_good {H H' : HIRM F} (h : Good L H) {obs : List (String × Items × V)} {lp : WithBot ℝ} {t t' : Tape}
    (hv : ∀ name items v, (name, items, v) ∈ obs → ∀ tb id r, H.relOf name = some (tb, id, r) → r.Supports L (baseOf H.env r) items v)
    (hc : H.logp obs t = .ok (lp, H', t')) :
    Good L H' ∧ SameKeys H H' ∧ ∀ n u id r, H.relOf n = some (u, id, r) → ∃ r', H'.relOf n = some (u, id, r') ∧ r.SameData r' := by
  obtain ⟨m, h1, h2⟩ := bind_ok.mp hc
  refine logpGroups_good (env := H.env) _ H _ lp H' t' h (fun e he name items v hm => ?_) h2
  have he := FMap.mem_entries.mp ((shuffle_perm m.entries t).mem_iff.mp he)
  rcases groupObs_inv obs ∅ m h1 e.1 e.2 he _ hm with h3 | ⟨h3, _⟩
  · cases h3
  · exact hv name items v h3

/-! ### reachable states are good -/

theorem incorporate_pre {H H' : HIRM F} (h : Good L H) {name : String} {items : Items} {v : V} {t t' : Tape}
    (hc : H.incorporate name items v t = .ok (H', t')) : ∃ tb id r, H.relOf name = some (tb, id, r) ∧ items.length = r.doms.length ∧
      r.data.find? items = none ∧ r.HasBase (baseOf H.env r) items := by
  obtain ⟨⟨tb, I⟩, h1, h2⟩ := bind_ok.mp hc
  obtain ⟨hT, hI⟩ := relationToIrm_ok.mp h1
  obtain ⟨⟨I', t1⟩, h3, _⟩ := bind_ok.mp h2
  obtain ⟨⟨id, r⟩, h4, h5⟩ := bind_ok.mp h3
  have hr := FMap.atKey_ok.mp h4
  obtain ⟨y, h6, _⟩ := bind_ok.mp h5
  exact ⟨tb, id, r, relOf_some.mpr ⟨hT, I, hI, hr⟩, ((h.inv tb I hI).rels name id r hr).incorporate_pre h6⟩

theorem unincorporate_pre {H H' : HIRM F} {name : String} {items : Items}
    (hc : H.unincorporate name items = .ok H') : ∃ tb id r, H.relOf name = some (tb, id, r) ∧ r.data.contains items = true := by
  obtain ⟨⟨tb, I⟩, h1, h2⟩ := bind_ok.mp hc
  obtain ⟨hT, hI⟩ := relationToIrm_ok.mp h1
  obtain ⟨I', h3, _⟩ := bind_ok.mp h2
  obtain ⟨id, r, h4, h5⟩ := IRM.unincorporate_pre h3
  exact ⟨tb, id, r, relOf_some.mpr ⟨hT, I, hI, h4⟩, h5⟩

theorem stepIrms_pre : ∀ (l : List Int) (H H' : HIRM F) (t t' : Tape), stepIrms l H t = .ok (H', t') → ∀ tb ∈ l, H.irms.contains tb = true := by
  intro l
  induction l with
  | nil => intro H H' t t' _ tb htb; simp at htb
  | cons u l ih =>
    intro H H' t t' hc tb htb
    obtain ⟨I, h1, h2⟩ := bind_ok.mp hc
    obtain ⟨⟨I', t1⟩, h3, h4⟩ := bind_ok.mp h2
    have hI := FMap.atKey_ok.mp h1
    rcases List.mem_cons.mp htb with rfl | htb
    · exact FMap.contains_iff.mpr ⟨I, hI⟩
    · have := ih _ _ _ _ h4 tb htb
      rw [FMap.contains_iff] at this ⊢
      dsimp only at this
      rw [FMap.find?_set] at this
      split at this
      · rename_i he; subst he; exact ⟨I, hI⟩
      · exact this

theorem relation_known {H : HIRM F} (h : Skel H) {r : String} {rc : Int} (hc : H.relToCode.atKey r = .ok rc) : H.schema.contains r = true := by
  rw [h.schema]
  exact FMap.contains_iff.mpr ⟨rc, FMap.atKey_ok.mp hc⟩

theorem addRelation_base {H H' : HIRM F} (h : Skel H) {name : String} {spec : RelSpec F} {t t' : Tape}
    (hc : H.addRelation name spec t = .ok (H', t')) {b : String} (hb : spec.base? = some b) : H.schema.contains b = true := by
  obtain ⟨_, _, hc⟩ := bind_ok.mp hc
  obtain ⟨c', _, hc⟩ := bind_ok.mp hc
  cases spec with
  | clean c ds o => cases hb
  | noisy e ds b' o =>
    cases hb
    dsimp only at hc
    rw [h.schema]
    split at hc
    · obtain ⟨_, _, h1⟩ := bind_ok.mp hc
      cases h1
    · rename_i hn
      simpa using hn

theorem Good.seat {H : HIRM F} (h : Good L H) {tb : Int} {I : IRM F} (hI : H.irms.find? tb = some I) {d : String} {dom dom' : Domain} {i table : Int}
    {t t' : Tape} (hd : I.doms.find? d = some dom) (hc : dom.incorporate i t table = .ok (dom', t')) :
    Good L { H with irms := H.irms.set tb { I with doms := I.doms.set d dom' } } := by
  have hsame : ∀ n, HIRM.relOf { H with irms := H.irms.set tb { I with doms := I.doms.set d dom' } } n = H.relOf n := by
    intro n
    rw [relOf_setIrm hI]
    split
    · rename_i hT
      unfold HIRM.relOf
      rw [hT]
      simp only [Option.bind_eq_bind, Option.bind_some, hI]
      cases I.rels.find? n <;> rfl
    · rfl
  refine h.replace (.setIrm hI ⟨rfl, fun _ => rfl⟩) ?_ ⟨fun n u id r hr => ⟨r, by rw [hsame]; exact hr, .refl r⟩, fun n u id r hr => ⟨r, by rwa [hsame] at hr, .refl r⟩⟩ ?_
  · intro u J hJ
    dsimp only at hJ
    rw [FMap.find?_set] at hJ
    split at hJ
    · cases hJ; exact (h.inv tb I hI).seat hd hc
    · exact h.inv u J hJ
  · intro n u id r p btb bid b hr hp hb _
    rw [hsame] at hr hb
    obtain ⟨_, btb', bid', b', h5, _, h6⟩ := h.ptr n u id r p hr hp
    rw [hb] at h5; cases h5
    exact h6

theorem Reach.good {H : HIRM F} (h : Reach L H) : Good L H := by
  induction h with
  | empty => exact good_empty
  | @add H H' name spec t t' _ ha hc ih =>
    obtain ⟨h1, _⟩ := addRelation_inv hc
    obtain ⟨K, u, _, _, _, h4, h5, _⟩ := ih.add h1 (addRelation_pre hc) (fun b hb => by
      obtain ⟨sp, h6⟩ := FMap.contains_iff.mp (addRelation_base ih.skel hc hb)
      exact ⟨sp, h6, ha b sp hb h6⟩) t
    rw [hc] at h4; cases h4; exact h5
  | remove _ hs hb hn hc ih =>
    obtain ⟨K, h1, h2, _⟩ := ih.remove hs hb hn
    rw [hc] at h1; cases h1; exact h2
  | @incorporate H H' name items v t t' _ hv hc ih =>
    obtain ⟨tb, id, r, hr, hl, hn, hb⟩ := incorporate_pre ih hc
    obtain ⟨K, u, _, h1, h2, _⟩ := ih.incorporate hr (hv tb id r hr) hl hn hb t
    rw [hc] at h1; cases h1; exact h2
  | unincorporate _ hu hc ih =>
    obtain ⟨tb, id, r, hr, hk⟩ := unincorporate_pre hc
    obtain ⟨K, _, h1, h2, _⟩ := ih.unincorporate hr hk hu
    rw [hc] at h1; cases h1; exact h2
  | @move H H' name t t' _ hc ih =>
    obtain ⟨rc, h1, _⟩ := bind_ok.mp hc
    obtain ⟨K, u, ch, h2, h3, _⟩ := transitionRelation_ok ih (relation_known ih.skel h1) t
    rw [hc] at h2; cases h2; exact h3.good
  | @set H H' name table t t' _ hc ih =>
    obtain ⟨_, _, h0⟩ := bind_ok.mp hc
    obtain ⟨rc, h1, _⟩ := bind_ok.mp h0
    obtain ⟨K, u, h2, h3⟩ := setClusterAssignmentGibbs_ok ih (relation_known ih.skel h1) table t
    rw [hc] at h2; cases h2; exact h3.good
  | @item H tb I I' d i t t' _ hI hc ih =>
    obtain ⟨h4, h5, _⟩ := transitionItem_inv (ih.inv tb I hI) hc
    exact (ih.setIrm hI h4 h5).1
  | seat _ hI hd hc ih => exact ih.seat hI hd hc
  | @step H H' tbs t t' _ hc ih =>
    exact (stepIrms_inv tbs H H' t t' ih hc).1
  | logp _ hv hc ih => exact (logp_good ih hv hc).1

theorem Good.sound {H : HIRM F} (h : Good L H) : Sound L H where
  consistent := h.skel.consistent
  exact tb I hI := (h.inv tb I hI).exact
  attached n spec b hs hb := by
    obtain ⟨tb, id, r, hr⟩ := h.skel.relOf (FMap.contains_iff.mpr ⟨spec, hs⟩)
    obtain ⟨sp, h1, h2⟩ := h.matched hr
    rw [hs] at h1; cases h1
    have h3 := h2.base
    rw [hb] at h3
    obtain ⟨p, hp, rfl⟩ := Option.map_eq_some_iff.mp h3
    obtain ⟨btb, bid, br, h4, _, h5, _⟩ := h.base hr hp
    exact ⟨tb, id, r, btb, bid, br, hr, h4, h5⟩
  paired n tb id r b btb bid br hr hb hbr := by
    obtain ⟨p, hp, rfl⟩ := Option.map_eq_some_iff.mp hb
    obtain ⟨_, btb', bid', br', h1, _, h2⟩ := h.ptr n tb id r p hr hp
    rw [hbr] at h1; cases h1
    exact h2

end HIRM
end
end Verif
