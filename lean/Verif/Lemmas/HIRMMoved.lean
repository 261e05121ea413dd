import Verif.Lemmas.HIRMMove
import Verif.Lemmas.CRPGibbs
/-! Helper lemmas: the end of a relation move, and totality of relation moves in a good state. -/
namespace Verif
open Spec
noncomputable section
variable {V : Type} {F : Family V} {L : FamilyLaws F}

/-- the relation object with another base pointer -/
def Rel.repoint (p : Ptr) : Rel F → Rel F
  | .clean c r => .clean c r
  | .noisy e _ r => .noisy e p r

theorem Rel.repoint_repoint (p p' : Ptr) (r : Rel F) : (r.repoint p).repoint p' = r.repoint p' := by cases r <;> rfl
theorem Rel.repoint_data (p : Ptr) (r : Rel F) : (r.repoint p).data = r.data := by cases r <;> rfl
theorem Rel.repoint_pairs (p : Ptr) (r : Rel F) : (r.repoint p).pairs = r.pairs := by cases r <;> rfl
theorem Rel.repoint_doms (p : Ptr) (r : Rel F) : (r.repoint p).doms = r.doms := by cases r <;> rfl
theorem Rel.repoint_base (p : Ptr) (r : Rel F) : (r.repoint p).base? = r.base?.map (fun _ => p) := by cases r <;> rfl

namespace HIRM
open IRM

/-! ### the base pointers after a move -/

theorem updateLoop_ok {r : String} {ch : Int} {id : Nat} {q : Rel F} : ∀ (l : List String) (K : HIRM F), Skel K →
    (∀ tb I, K.irms.find? tb = some I → IRM.Inv L (arS K.schema) I) → K.relOf r = some (ch, id, q) →
    (∀ n ∈ l, n ≠ r ∧ ∃ tb nid e p0 x, K.relOf n = some (tb, nid, .noisy e p0 x) ∧ p0.name = r) →
    ∃ K', updateLoop r l K = .ok K' ∧ SameKeys K K' ∧ (∀ tb I, K'.irms.find? tb = some I → IRM.Inv L (arS K.schema) I) ∧
      (∀ n, K'.relOf n = if n ∈ l then (K.relOf n).map (fun x => (x.1, x.2.1, x.2.2.repoint ⟨some ch, r, id⟩)) else K.relOf n) ∧
      ∀ tb, (K.irms.find? tb).map (·.doms) = (K'.irms.find? tb).map (·.doms) := by
  intro l
  induction l with
  | nil => intro K _ hinv _ _; exact ⟨K, rfl, .refl K, hinv, fun n => by simp, fun _ => rfl⟩
  | cons n ns ih =>
    intro K hs hinv hr hl
    obtain ⟨hne, tb, nid, e, p0, x, hn, hp0⟩ := hl n (by simp)
    obtain ⟨hT, I, hI, hx⟩ := relOf_some.mp hn
    dsimp only at hT hI hx
    let p : Ptr := ⟨some ch, r, id⟩
    have hinv1 := (hinv tb I hI).retarget hx (p' := p) hp0.symm (by simp only [arS, hp0, p])
    have hk1 : SameKeys K { K with irms := K.irms.set tb { I with rels := I.rels.set n (nid, .noisy e p x) } } := .setIrm hI (.setRel' hx)
    have hrel1 : ∀ m, HIRM.relOf { K with irms := K.irms.set tb { I with rels := I.rels.set n (nid, .noisy e p x) } } m =
        if m = n then some (tb, nid, .noisy e p x) else K.relOf m := relOf_setRel hn hI I.doms
    obtain ⟨K', h1, h2, h3, h4, h5⟩ := ih { K with irms := K.irms.set tb { I with rels := I.rels.set n (nid, .noisy e p x) } } (hk1.skel hs) (by
        intro u J hJ
        dsimp only at hJ ⊢
        rw [FMap.find?_set] at hJ
        split at hJ
        · cases hJ; exact hinv1
        · exact hinv u J hJ) (by rw [hrel1, if_neg (Ne.symm hne)]; exact hr) (by
        intro m hm
        obtain ⟨hmr, tb', nid', e', p0', x', hm1, hm2⟩ := hl m (by simp [hm])
        refine ⟨hmr, ?_⟩
        rw [hrel1]
        split
        · exact ⟨tb, nid, e, p, x, rfl, rfl⟩
        · exact ⟨tb', nid', e', p0', x', hm1, hm2⟩)
    refine ⟨K', ?_, hk1.trans h2, h3, fun m => ?_, fun u => ?_⟩
    · have g1 : K.relationToIrm n = .ok (tb, I) := relationToIrm_ok.mpr ⟨hT, hI⟩
      have g2 : K.getRelation r = .ok (p, q) := getRelation_ok.mpr ⟨ch, id, hr, rfl⟩
      simp only [updateLoop, g1, bind, Except.bind, FMap.atKey_of_find hx, g2]
      exact h1
    · rw [h4, hrel1]
      by_cases hm : m = n
      · subst hm
        simp only [if_true, List.mem_cons, true_or, hn, Option.map_some]
        split <;> rfl
      · simp only [hm, if_false, List.mem_cons, false_or]
    · rw [← h5]
      dsimp only
      rw [FMap.find?_set]
      split
      · rename_i hu; subst hu; rw [hI]; rfl
      · rfl

/-- an HIRM after relation `r` went to `choice`, before the base pointers are updated -/
structure Moved (L : FamilyLaws F) (H : HIRM F) (r : String) (rel : Rel F) (spec : RelSpec F) (p : Ptr) (choice : Int) (K : HIRM F) (id : Nat) (q : Rel F) :
    Prop where
  skel : Skel K
  schema : K.schema = H.schema
  baseToNoisy : K.baseToNoisy = H.baseToNoisy
  inv : ∀ tb I, K.irms.find? tb = some I → IRM.Inv L (arS H.schema) I
  others : ∀ n, n ≠ r → K.relOf n = H.relOf n
  obj : K.relOf r = some (choice, id, q)
  matched : spec.Matches q
  base : ∀ p', q.base? = some p' → p' = p
  data : q.data = rel.data
  linked : ∀ btb bid b, H.relOf p.name = some (btb, bid, b) → (∃ b', spec.base? = some b') → Linked q b

theorem Linked.data {r b b' : Rel F} (h : Linked r b) (hd : b'.data = b.data) (hm : b'.doms = b.doms) : Linked r b' := by
  unfold Linked
  rw [hd, hm]
  exact h

theorem Linked.repoint {r b : Rel F} (h : Linked r b) (p : Ptr) : Linked (r.repoint p) b := by
  unfold Linked
  rw [Rel.repoint_data, Rel.repoint_pairs]
  exact h

theorem Moved.good {H : HIRM F} {r : String} {cur : Int} {rid : Nat} {rel : Rel F} {spec : RelSpec F} {p : Ptr} (h : Ready L H r cur rid rel spec p)
    {choice : Int} {K : HIRM F} {id : Nat} {q : Rel F} (hm : Moved L H r rel spec p choice K id q) :
    ∃ H', K.updateBase r = .ok H' ∧ Good L H' ∧ SameKeys K H' ∧ H'.relOf r = some (choice, id, q) ∧
      (∀ n, n ≠ r → H'.relOf n = H.relOf n ∨ (∃ sp, H.schema.find? n = some sp ∧ sp.base? = some r) ∧
        H'.relOf n = (H.relOf n).map (fun x => (x.1, x.2.1, x.2.2.repoint ⟨some choice, r, id⟩))) ∧
      ∀ tb, (K.irms.find? tb).map (·.doms) = (H'.irms.find? tb).map (·.doms) := by
  have hg := h.good
  -- the noisy relations of r
  have hnoisy : ∀ n, n ∈ (K.baseToNoisy.find? r).getD [] → n ≠ r ∧ ∃ tb nid e p0 x, H.relOf n = some (tb, nid, .noisy e p0 x) ∧ p0.name = r := by
    intro n hn
    rw [hm.baseToNoisy] at hn
    obtain ⟨sp, h1, h2⟩ := (hg.noisy r n).mp hn
    obtain ⟨tb, hT⟩ := hg.skel.table_some (FMap.contains_iff.mpr ⟨sp, h1⟩)
    obtain ⟨I, hI, hx⟩ := hg.skel.irm hT
    obtain ⟨x, hx⟩ := FMap.contains_iff.mp hx
    have hrel : H.relOf n = some (tb, x.1, x.2) := hg.skel.obj hI hx
    obtain ⟨sp', h3, h4⟩ := hg.matched hrel
    rw [h1] at h3; cases h3
    obtain ⟨nid, y⟩ := x
    have hb := h4.base
    dsimp only at hb hrel
    cases y with
    | clean c z => rw [h2] at hb; cases hb
    | noisy e p0 z =>
      rw [h2] at hb
      have hp0 : p0.name = r := Option.some.inj hb
      refine ⟨?_, tb, nid, e, p0, z, hrel, hp0⟩
      rintro rfl
      exact (hg.ptr _ _ _ _ p0 hrel rfl).1 hp0
  obtain ⟨K', h1, h2, h3, h4, h5⟩ := updateLoop_ok (L := L) ((K.baseToNoisy.find? r).getD []) K hm.skel (by rw [hm.schema]; exact hm.inv) hm.obj (by
    intro n hn
    obtain ⟨h1, tb, nid, e, p0, x, h2, h3⟩ := hnoisy n hn
    exact ⟨h1, tb, nid, e, p0, x, (hm.others n h1).trans h2, h3⟩)
  have hru : r ∉ (K.baseToNoisy.find? r).getD [] := fun hh => (hnoisy r hh).1 rfl
  have hr' : K'.relOf r = some (choice, id, q) := by rw [h4, if_neg hru]; exact hm.obj
  have hup : K.updateBase r = .ok K' := by
    unfold updateBase
    cases hf : K.baseToNoisy.find? r with
    | none => rw [hf] at h1; exact h1
    | some l => rw [hf] at h1; exact h1
  have hoth : ∀ n, n ≠ r → K'.relOf n = H.relOf n ∨ (∃ sp, H.schema.find? n = some sp ∧ sp.base? = some r) ∧
        K'.relOf n = (H.relOf n).map (fun x => (x.1, x.2.1, x.2.2.repoint ⟨some choice, r, id⟩)) := by
    intro n hn
    rw [h4, hm.others n hn]
    split
    · rename_i hh
      rw [hm.baseToNoisy] at hh
      exact .inr ⟨(hg.noisy r n).mp hh, rfl⟩
    · exact .inl rfl
  have hall : ∀ n, n ≠ r → (∃ sp, H.schema.find? n = some sp ∧ sp.base? = some r) → n ∈ (K.baseToNoisy.find? r).getD [] := by
    intro n _ hs
    rw [hm.baseToNoisy]
    exact (hg.noisy r n).mpr hs
  refine ⟨K', hup, ⟨h2.skel hm.skel, ?_, ?_, ?_, by rw [h2.baseToNoisy, hm.baseToNoisy]; exact hg.listed⟩, h2, hr', hoth, h5⟩
  · rw [h2.schema, hm.schema]
    rw [hm.schema] at h3
    exact h3
  · -- a relation other than r keeps its data
    have hkeep : ∀ n tb nid x, n ≠ r → H.relOf n = some (tb, nid, x) → ∃ y, K'.relOf n = some (tb, nid, y) ∧ y.data = x.data ∧ y.doms = x.doms := by
      intro n tb nid x hn hx
      rcases hoth n hn with h6 | ⟨_, h6⟩
      · exact ⟨x, h6.trans hx, rfl, rfl⟩
      · rw [hx] at h6
        exact ⟨_, h6, Rel.repoint_data _ _, Rel.repoint_doms _ _⟩
    have hqd : q.doms = rel.doms := by
      obtain ⟨sp, s1, s2⟩ := hg.matched h.obj
      rw [h.find] at s1; cases s1
      rw [hm.matched.doms, s2.doms]
    intro n tb nid x p0 hx hp0
    by_cases hn : n = r
    · subst hn
      rw [hr'] at hx; cases hx
      have hpp := hm.base p0 hp0
      subst hpp
      have hsb := hm.matched.base
      rw [hp0] at hsb
      obtain ⟨btb, bid, b, c1, c2⟩ := h.ptr p0.name hsb.symm
      have hne := (h.arity p0.name hsb.symm).1
      obtain ⟨b', d1, d2, d3⟩ := hkeep _ _ _ _ hne c1
      exact ⟨hne, btb, bid, b', d1, c2, (hm.linked btb bid b c1 ⟨_, hsb.symm⟩).data d2 d3⟩
    · have hcase : ∃ x0, H.relOf n = some (tb, nid, x0) ∧ ((x = x0 ∧ n ∉ (K.baseToNoisy.find? r).getD []) ∨
          (x = x0.repoint ⟨some choice, r, id⟩ ∧ ∃ sp, H.schema.find? n = some sp ∧ sp.base? = some r)) := by
        rw [h4, hm.others n hn] at hx
        split at hx
        · rename_i hh
          rw [hm.baseToNoisy] at hh
          obtain ⟨⟨tb', nid', x0⟩, e1, e2⟩ := Option.map_eq_some_iff.mp hx
          dsimp only at e2
          cases e2
          exact ⟨x0, e1, .inr ⟨rfl, (hg.noisy r n).mp hh⟩⟩
        · rename_i hh
          exact ⟨x, hx, .inl ⟨rfl, hh⟩⟩
      obtain ⟨x0, hx0, hc⟩ := hcase
      obtain ⟨sp, s1, s2⟩ := hg.matched hx0
      rcases hc with ⟨rfl, hnl⟩ | ⟨rfl, sp', s3, s4⟩
      · obtain ⟨hne, btb, bid, b, c1, c2, c3⟩ := hg.ptr n tb nid x p0 hx0 hp0
        have hpr : p0.name ≠ r := by
          intro hpr
          refine hnl (hall n hn ⟨sp, s1, ?_⟩)
          rw [← s2.base, hp0, ← hpr]; rfl
        obtain ⟨b', d1, d2, d3⟩ := hkeep _ _ _ _ hpr c1
        exact ⟨hne, btb, bid, b', d1, c2, c3.data d2 d3⟩
      · rw [s1] at s3; cases s3
        rw [Rel.repoint_base] at hp0
        obtain ⟨p1, hp1, rfl⟩ := Option.map_eq_some_iff.mp hp0
        obtain ⟨hne, btb, bid, b, c1, c2, c3⟩ := hg.ptr n tb nid x0 p1 hx0 hp1
        have hpr : p1.name = r := by
          have := s2.base
          rw [hp1, s4] at this
          exact Option.some.inj this
        rw [hpr, h.obj] at c1; cases c1
        exact ⟨fun hh => hn hh.symm, choice, id, q, hr', rfl, (c3.data hm.data hqd).repoint _⟩
  · rw [h2.baseToNoisy, hm.baseToNoisy, h2.schema, hm.schema]
    exact hg.noisy

/-! ### dropping the copies -/

theorem size_one {K W : Type} [Key K] {m : FMap K W} {k : K} (hk : m.contains k = true) : m.size = 1 ↔ ∀ n, m.contains n = true → n = k := by
  obtain ⟨v, hv⟩ := FMap.contains_iff.mp hk
  have h1 := FMap.size_erase hv
  constructor
  · intro hs n hn
    have h2 : (m.erase k).size = 0 := by omega
    have h3 := size_zero_iff.mp h2 n
    by_contra hne
    rw [contains_erase.mpr ⟨hne, hn⟩] at h3; cases h3
  · intro hh
    have h2 : (m.erase k).size = 0 := size_zero_iff.mpr (fun n => by
      cases hc : (m.erase k).contains n with
      | false => rfl
      | true =>
        obtain ⟨h3, h4⟩ := contains_erase.mp hc
        exact absurd (hh n h4) h3)
    omega

theorem dropOthers_ok {ar : Ptr → Option Nat} {r : String} {cur choice : Int} {crp : CRP} : ∀ (l : List Int) (m : FMap Int (IRM F)), l.Nodup →
    (∀ tb ∈ l, ∃ I, m.find? tb = some I ∧ I.rels.size ≠ 0 ∧ (tb ≠ choice → IRM.Inv L ar I ∧ I.rels.contains r = true)) →
    (∀ tb ∈ l, ∀ I, tb ≠ choice → m.find? tb = some I → I.rels.size = 1 → tb = cur ∧ ∃ s, crp.tables.find? tb = some s ∧ s.size = 1) →
    ∃ m', dropOthers r cur choice crp l m = .ok m' := by
  intro l
  induction l with
  | nil => intro m _ _ _; exact ⟨m, rfl⟩
  | cons tb l ih =>
    intro m hnd hl hs
    rw [List.nodup_cons] at hnd
    obtain ⟨I, hI, hne, hc⟩ := hl tb (by simp)
    by_cases htb : tb = choice
    · subst htb
      obtain ⟨m', h1⟩ := ih (m.set tb I) hnd.2 (fun u hu => by rw [FMap.set_of_find hI]; exact hl u (by simp [hu]))
        (fun u hu => by rw [FMap.set_of_find hI]; exact hs u (by simp [hu]))
      exact ⟨m', by simp only [dropOthers, FMap.atKey_of_find hI, bind, Except.bind, ne_eq, not_true, if_false, hne, h1]⟩
    · obtain ⟨hinv, hcr⟩ := hc htb
      obtain ⟨⟨id, q⟩, hx⟩ := FMap.contains_iff.mp hcr
      obtain ⟨I', h1, h2, _⟩ := removeRelation_ok hinv hx (ar' := ar) (fun _ _ _ _ _ _ _ => rfl)
      have hsz : I'.rels.size + 1 = I.rels.size := by rw [h2.rels]; exact FMap.size_erase hx
      have hut : ∀ u, u ∈ l → u ≠ tb := by rintro u hu rfl; exact hnd.1 hu
      by_cases h0 : I'.rels.size = 0
      · obtain ⟨hcu, s, hs1, hs2⟩ := hs tb (by simp) I htb hI (by omega)
        obtain ⟨m', h3⟩ := ih (m.erase tb) hnd.2 (fun u hu => by
          rw [FMap.find?_erase_ne _ (hut u hu)]; exact hl u (by simp [hu])) (fun u hu => by
          rw [FMap.find?_erase_ne _ (hut u hu)]; exact hs u (by simp [hu]))
        subst hcu
        exact ⟨m', by simp only [dropOthers, FMap.atKey_of_find hI, bind, Except.bind, ne_eq, htb, not_false_eq_true, if_true, assertR, hcr, h1, h0,
          FMap.atKey_of_find hs1, hs2, decide_true, h3]⟩
      · obtain ⟨m', h3⟩ := ih (m.set tb I') hnd.2 (fun u hu => by
          rw [FMap.find?_set_ne _ (hut u hu)]; exact hl u (by simp [hu])) (fun u hu => by
          rw [FMap.find?_set_ne _ (hut u hu)]; exact hs u (by simp [hu]))
        exact ⟨m', by simp only [dropOthers, FMap.atKey_of_find hI, bind, Except.bind, ne_eq, htb, not_false_eq_true, if_true, assertR, hcr, h1, h0, if_false, h3]⟩

/-- an IRM with one relation belongs to a CRP table with one customer -/
theorem Skel.single {H : HIRM F} (h : Skel H) {tb : Int} {I : IRM F} (hI : H.irms.find? tb = some I) (hs : I.rels.size = 1) :
    ∃ s, H.crp.tables.find? tb = some s ∧ s.size = 1 := by
  obtain ⟨s, hs1⟩ := FMap.contains_iff.mp ((h.tables tb).symm.trans (FMap.contains_iff.mpr ⟨I, hI⟩))
  refine ⟨s, hs1, ?_⟩
  obtain ⟨n, hn⟩ := h.inhabited hI
  have hT := (h.place tb I hI n).mp hn
  obtain ⟨c, hc1, hc2⟩ := Option.bind_eq_some_iff.mp hT
  obtain ⟨s', hs2, hs3⟩ := (h.crp.mem c tb).mp hc2
  rw [hs1] at hs2; cases hs2
  rw [size_one (k := c) (FMap.contains_iff_mem.mpr hs3)]
  intro c' hc'
  have hc3 : H.crp.assignments.find? c' = some tb := (h.crp.mem c' tb).mpr ⟨s, hs1, FMap.contains_iff_mem.mp hc'⟩
  obtain ⟨n', hn', hT'⟩ := h.name hc3
  have := (size_one hn).mp hs n' ((h.place tb I hI n').mpr hT')
  subst this
  rw [hc1] at hn'; exact (Option.some.inj hn').symm

theorem Skel.sizes {H : HIRM F} (h : Skel H) : H.irms.size = H.crp.tables.size := by
  have h1 : H.irms.size ≤ H.crp.tables.size := size_le_of_sub (fun k hk => (h.tables k).symm.trans hk)
  have h2 : H.crp.tables.size ≤ H.irms.size := size_le_of_sub (fun k hk => (h.tables k).trans hk)
  exact le_antisymm h1 h2

theorem Skel.checkTables {H : HIRM F} (h : Skel H) : H.checkTables = .ok () := by
  have h1 := h.sizes
  have h2 : (H.irms.keys.all fun tb => H.crp.tables.contains tb) = true := by
    rw [List.all_eq_true]
    intro tb htb
    rw [← h.tables]
    exact FMap.contains_iff_mem.mpr htb
  simp only [HIRM.checkTables, h1, decide_true, assertR, if_true, h2, bind, Except.bind]

theorem crp_uninc {c : CRP} (h : c.WF) {i tb : Int} (hi : c.assignments.find? i = some tb) : ∃ c', c.unincorporate i = .ok c' := by
  obtain ⟨s, hs, _⟩ := CRP.mem_table h hi
  exact ⟨_, CRP.unincorporate_eq hi hs⟩

theorem crp_inc {c c1 : CRP} (h : c.WF) {i tb : Int} (hu : c.unincorporate i = .ok c1) : ∃ c', c1.incorporate i tb = .ok c' := by
  obtain ⟨_, ha, _⟩ := crp_unincorporate h hu
  exact ⟨_, CRP.incorporate_eq (by rw [ha, FMap.find?_erase_self])⟩

theorem withAux_some {aux : Option (Int × IRM F)} {choice tb : Int} {m : FMap Int (IRM F)} {I : IRM F} (h : (withAux aux choice m).find? tb = some I) :
    m.find? tb = some I ∨ aux = some (tb, I) ∧ tb = choice := by
  unfold withAux at h
  split at h
  · split at h
    · rename_i e
      rw [FMap.find?_set] at h
      split at h
      · rename_i e'
        cases h
        exact .inr ⟨by rw [e', e], e'⟩
      · exact .inl h
    · exact .inl h
  · exact .inl h

/-- the objects seen after a move -/
theorem Ready.moved {H : HIRM F} {r : String} {cur : Int} {rid : Nat} {rel : Rel F} {spec : RelSpec F} {p : Ptr} (h : Ready L H r cur rid rel spec p)
    {K : HIRM F} (hs : Skel K) (hsc : K.schema = H.schema) (hbn : K.baseToNoisy = H.baseToNoisy) {choice : Int}
    (htab : ∀ n, K.tableOf n = if n = r then some choice else H.tableOf n)
    (hinv : ∀ tb I, K.irms.find? tb = some I → IRM.Inv L (arS H.schema) I)
    (hoth : ∀ tb I I0 n, n ≠ r → K.irms.find? tb = some I → H.irms.find? tb = some I0 → I.rels.find? n = I0.rels.find? n)
    {id : Nat} {q : Rel F} (hobj : ∀ I, K.irms.find? choice = some I → I.rels.find? r = some (id, q))
    (hmatch : spec.Matches q) (hbase : ∀ p', q.base? = some p' → p' = p) (hdata : q.data = rel.data)
    (hlink : ∀ btb bid b, H.relOf p.name = some (btb, bid, b) → (∃ b', spec.base? = some b') → Linked q b) :
    Moved L H r rel spec p choice K id q where
  skel := hs
  schema := hsc
  baseToNoisy := hbn
  inv := hinv
  others n hn := by
    have hT := htab n
    rw [if_neg hn] at hT
    cases hH : H.tableOf n with
    | none =>
      rw [hH] at hT
      unfold HIRM.relOf; rw [hT, hH]; rfl
    | some tb =>
      rw [hH] at hT
      obtain ⟨I, hI, _⟩ := hs.irm hT
      obtain ⟨I0, hI0, _⟩ := h.good.skel.irm hH
      have := hoth tb I I0 n hn hI hI0
      unfold HIRM.relOf
      rw [hT, hH]
      simp only [Option.bind_eq_bind, Option.bind_some, hI, hI0, this]
  obj := by
    have hT := htab r
    rw [if_pos rfl] at hT
    obtain ⟨I, hI, _⟩ := hs.irm hT
    exact relOf_some.mpr ⟨hT, I, hI, hobj I hI⟩
  matched := hmatch
  base := hbase
  data := hdata
  linked := hlink

/-- what an IRM may gain when relation `r` is added to it, taken from it, or both: entities of the relation -/
structure Grown (r : String) (ds : List String) (obs : FMap Items V) (J I : IRM F) : Prop where
  rels : ∀ n, n ≠ r → I.rels.find? n = J.rels.find? n
  seats : ∀ d, (∃ n id q, n ≠ r ∧ J.rels.find? n = some (id, q) ∧ d ∈ q.doms) → ∀ i z, seatOf J.doms d i = some z → seatOf I.doms d i = some z
  entities : ∀ d i z, seatOf I.doms d i = some z → (∃ z, seatOf J.doms d i = some z) ∨ ∃ k, obs.contains k = true ∧ Uses ds d i k

theorem Grown.refl (r : String) (ds : List String) (obs : FMap Items V) (I : IRM F) : Grown r ds obs I I :=
  ⟨fun _ _ => rfl, fun _ _ _ _ h => h, fun _ _ z h => .inl ⟨z, h⟩⟩

theorem Grown.put {ar : Ptr → Option Nat} {H : HIRM F} {r : String} {spec : RelSpec F} {obs : FMap Items V} {p : Ptr} {J I I' : IRM F} {id : Nat} {q : Rel F}
    (hg : Grown r spec.doms obs J I) (h : Put L ar H r spec obs p I I' id q) : Grown r spec.doms obs J I' where
  rels n hn := by rw [h.rels, FMap.find?_set_ne _ hn]; exact hg.rels n hn
  seats d hd i z hz := h.seat d i z (hg.seats d hd i z hz)
  entities d i z hz := by
    rcases (h.mem d i).mp ⟨z, hz⟩ with ⟨z', h1⟩ | h1
    · exact hg.entities d i z' h1
    · exact .inr h1

theorem Grown.removed {ar : Ptr → Option Nat} {r : String} {ds : List String} {obs : FMap Items V} {J I I' : IRM F}
    (hg : Grown r ds obs J I) (h : Removed r I I') (hi : IRM.Inv L ar I') : Grown r ds obs J I' where
  rels n hn := by rw [h.rels, FMap.find?_erase_ne _ hn]; exact hg.rels n hn
  seats d hd i z hz := by
    obtain ⟨n, id, q, h1, h2, h3⟩ := hd
    have := h.doms d ⟨n, id, q, h1, by rw [hg.rels n h1]; exact h2, h3⟩
    unfold seatOf
    rw [this]
    exact hg.seats d ⟨n, id, q, h1, h2, h3⟩ i z hz
  entities d i z hz := by
    unfold seatOf at hz
    obtain ⟨dom, h1, h2⟩ := Option.bind_eq_some_iff.mp hz
    obtain ⟨s, hs⟩ := FMap.contains_iff.mp ((hi.names d).trans (FMap.contains_iff.mpr ⟨dom, h1⟩))
    obtain ⟨n, hn⟩ := hi.used d s hs
    obtain ⟨id, q, h3, h4⟩ := (hi.index d s hs n).mp hn
    rw [h.rels, FMap.find?_erase] at h3
    split at h3
    · cases h3
    · rename_i hne
      have := h.doms d ⟨n, id, q, hne, h3, h4⟩
      rw [this] at h1
      exact hg.entities d i z (by unfold seatOf; rw [h1]; exact h2)

/-- what a relation move in a good state does -/
structure MoveResult (L : FamilyLaws F) (H : HIRM F) (r : String) (choice : Int) (H' : HIRM F) : Prop where
  good : Good L H'
  moved : MovedTo r choice H H'
  others : ∀ n, n ≠ r → H'.relOf n = H.relOf n ∨ ∃ p, H'.relOf n = (H.relOf n).map (fun x => (x.1, x.2.1, x.2.2.repoint p))
  /-- an old IRM gains at most entities of the relation, a new IRM has no others -/
  grown : ∀ tb I', H'.irms.find? tb = some I' → ∀ d i z, seatOf I'.doms d i = some z →
    (∃ I z, H.irms.find? tb = some I ∧ seatOf I.doms d i = some z) ∨ ∃ tb id rel k, H.relOf r = some (tb, id, rel) ∧ rel.data.contains k = true ∧ Uses rel.doms d i k
  /-- the entities of the other relations keep their seats -/
  seats : ∀ n tb id q d I I', n ≠ r → H.relOf n = some (tb, id, q) → d ∈ q.doms → H.irms.find? tb = some I → H'.irms.find? tb = some I' →
    ∀ i z, seatOf I.doms d i = some z → seatOf I'.doms d i = some z

theorem MoveResult.of {H : HIRM F} {r : String} {cur : Int} {rid : Nat} {rel : Rel F} {spec : RelSpec F} {p : Ptr} (h : Ready L H r cur rid rel spec p)
    {choice : Int} {K H' : HIRM F} {id : Nat} (hgood : Good L H') (hmoved : MovedTo r choice H H')
    (hoth : ∀ n, n ≠ r → H'.relOf n = H.relOf n ∨ (∃ sp, H.schema.find? n = some sp ∧ sp.base? = some r) ∧
        H'.relOf n = (H.relOf n).map (fun x => (x.1, x.2.1, x.2.2.repoint ⟨some choice, r, id⟩)))
    (hgrown : ∀ tb I, K.irms.find? tb = some I → Grown r spec.doms rel.data ((H.irms.find? tb).getD {}) I)
    (hd : ∀ tb, (K.irms.find? tb).map (·.doms) = (H'.irms.find? tb).map (·.doms)) : MoveResult L H r choice H' where
  good := hgood
  moved := hmoved
  others n hn := by
    rcases hoth n hn with h1 | ⟨_, h1⟩
    · exact .inl h1
    · exact .inr ⟨_, h1⟩
  grown tb I' hI' d i z hz := by
    have h1 := hd tb
    rw [hI'] at h1
    obtain ⟨I, hI, he⟩ := Option.map_eq_some_iff.mp h1
    dsimp only at he
    rcases (hgrown tb I hI).entities d i z (by rw [he]; exact hz) with ⟨z', h2⟩ | ⟨k, h2, h3⟩
    · cases hJ : H.irms.find? tb with
      | none => rw [hJ] at h2; cases h2
      | some J => rw [hJ] at h2; exact .inl ⟨J, z', rfl, h2⟩
    · obtain ⟨sp, s1, s2⟩ := h.good.matched h.obj
      rw [h.find] at s1; cases s1
      exact .inr ⟨cur, rid, rel, k, h.obj, h2, by rw [s2.doms]; exact h3⟩
  seats n tb nid q d J I' hn hq hdq hJ hI' i z hz := by
    have h1 := hd tb
    rw [hI'] at h1
    obtain ⟨I, hI, he⟩ := Option.map_eq_some_iff.mp h1
    dsimp only at he
    obtain ⟨_, J', hJ', hx⟩ := relOf_some.mp hq
    dsimp only at hJ' hx
    rw [hJ] at hJ'; cases hJ'
    have := (hgrown tb I hI).seats d (by rw [hJ]; exact ⟨n, nid, q, hn, hx, hdq⟩) i z (by rw [hJ]; exact hz)
    rw [he] at this
    exact this

/-- every domain of the IRM contains the entities of the observations -/
def Full (ds : List String) (obs : FMap Items V) (I : IRM F) : Prop :=
  ∀ d i k, I.doms.contains d = true → obs.contains k = true → Uses ds d i k → ∃ z, seatOf I.doms d i = some z

theorem Put.full {ar : Ptr → Option Nat} {H : HIRM F} {r : String} {spec : RelSpec F} {obs : FMap Items V} {p : Ptr} {I I' : IRM F} {id : Nat} {q : Rel F}
    (h : Put L ar H r spec obs p I I' id q) : Full spec.doms obs I' :=
  fun d i k _ hk hu => (h.mem d i).mpr (.inr ⟨k, hk, hu⟩)

theorem Full.removed {ar : Ptr → Option Nat} {r : String} {ds : List String} {obs : FMap Items V} {I I' : IRM F}
    (hg : Full ds obs I) (h : Removed r I I') (hi : IRM.Inv L ar I') : Full ds obs I' := by
  intro d i k hd hk hu
  obtain ⟨s, hs⟩ := FMap.contains_iff.mp ((hi.names d).trans hd)
  obtain ⟨n, hn⟩ := hi.used d s hs
  obtain ⟨id, q, h3, h4⟩ := (hi.index d s hs n).mp hn
  rw [h.rels, FMap.find?_erase] at h3
  split at h3
  · cases h3
  · rename_i hne
    have := h.doms d ⟨n, id, q, hne, h3, h4⟩
    have hc : I.doms.contains d = true := by rw [FMap.contains, ← this]; exact hd
    obtain ⟨z, hz⟩ := hg d i k hc hk hu
    exact ⟨z, by unfold seatOf at hz ⊢; rw [this]; exact hz⟩

theorem _root_.Verif.Rel.Inv.full {ar : Ptr → Option Nat} {I : IRM F} {r : Rel F} (h : r.Inv L ar I.doms) : Full r.doms r.data I := by
  intro d i k _ hk hu
  obtain ⟨z, hz⟩ := h.seated hk
  exact tupleSeat_uses hz hu

theorem transitionRelation_ok {H : HIRM F} (h : Good L H) {r : String} (hr : H.schema.contains r = true) (t : Tape) :
    ∃ H' t' choice, H.transitionRelation r t = .ok (H', t') ∧ MoveResult L H r choice H' ∧
      (H.tableOf r = some choice → (∀ n, H'.relOf n = H.relOf n) ∧ (H'.irms.find? choice).map (·.doms) = (H.irms.find? choice).map (·.doms)) ∧
      ∀ tb I', H'.irms.find? tb = some I' → ∀ u id rel, H.relOf r = some (u, id, rel) → Full rel.doms rel.data I' := by
  obtain ⟨cur, rid, rel, spec, p, hR⟩ := h.ready hr
  obtain ⟨hT, I0, hI0, hx0⟩ := relOf_some.mp hR.obj
  dsimp only at hT hI0 hx0
  obtain ⟨rc, hrc, hcur⟩ := Option.bind_eq_some_iff.mp hT
  obtain ⟨w, hw1, new, hnew, hnewc, hw2, _⟩ := CRP.tablesWeightsGibbs_spec h.skel.crp (i := rc) hcur
  have hnd : ((shuffle w.entries t).1.map Prod.fst).Nodup :=
    ((shuffle_perm w.entries t).map _).nodup_iff.mpr (FMap.nodupKeys w)
  have hmemk : ∀ u, u ∈ (shuffle w.entries t).1.map Prod.fst ↔ w.contains u = true := by
    intro u
    rw [((shuffle_perm w.entries t).map Prod.fst).mem_iff, FMap.contains_iff_mem]
    rfl
  -- a listed table other than `new` has an IRM
  have hlisted : ∀ u, w.contains u = true → u ≠ new → H.irms.contains u = true := by
    intro u hu hne
    obtain ⟨x, hx⟩ := FMap.contains_iff.mp hu
    rw [hw2, if_neg hne] at hx
    split at hx
    · cases hx
    · rename_i hocc
      rw [h.skel.tables, table_iff h.skel.crp]
      obtain ⟨i, hi⟩ := Set.nonempty_of_ncard_ne_zero hocc
      simp only [without, Set.mem_ofPred_eq] at hi
      split at hi
      · cases hi
      · exact ⟨i, hi⟩
  -- every table that has an IRM is listed
  have hothers : ∀ u, H.irms.contains u = true → w.contains u = true := by
    intro u hu
    rw [FMap.contains_iff, hw2]
    by_cases hun : u = new
    · rw [if_pos hun]; exact ⟨_, rfl⟩
    · rw [if_neg hun]
      split
      · rename_i hocc
        exfalso
        by_cases huc : u = cur
        · subst huc; exact hun (hnewc hocc).symm
        · rw [h.skel.tables] at hu
          obtain ⟨s, hs⟩ := FMap.contains_iff.mp hu
          have h1 := CRP.size_eq_occupancy h.skel.crp hs
          have h2 := CRP.size_pos h.skel.crp hs
          have h3 : occupancy (without H.crp.seating rc) u = occupancy H.crp.seating u := by
            unfold occupancy
            congr 1
            ext j
            simp only [without, Set.mem_ofPred_eq]
            split
            · rename_i hj
              subst hj
              simp only [reduceCtorEq, false_iff]
              intro hh
              rw [CRP.seating, hcur] at hh
              exact huc (Option.some.inj hh).symm
            · exact Iff.rfl
          omega
      · exact ⟨_, rfl⟩
  have hrnone : ∀ tb I, H.irms.find? tb = some I → tb ≠ cur → I.rels.find? r = none := by
    intro tb I hI hne
    cases hx : I.rels.find? r with
    | none => rfl
    | some x =>
      have := (h.skel.place tb I hI r).mp (FMap.contains_iff.mpr ⟨x, hx⟩)
      rw [hT] at this
      exact absurd (Option.some.inj this).symm hne
  obtain ⟨lps, K, aux, t1, a1, a2, a3, _, a5⟩ := scoreTables_ok hR (shuffle w.entries t).1 H none (shuffle w.entries t).2 hnd (fun _ _ => rfl) rfl
    (fun tb _ I hI => ⟨h.inv tb I hI, hrnone tb I hI⟩)
    (fun tb _ he => by subst he; exact FMap.contains_iff.mpr ⟨I0, hI0⟩) (by
    intro tb htb hn
    refine ⟨rfl, fun tb' htb' hne => ?_⟩
    have e1 : tb = new := by
      by_contra hne'
      have := hlisted tb ((hmemk tb).mp htb) hne'
      rw [FMap.contains_false.mpr hn] at this; cases this
    exact hlisted tb' ((hmemk tb').mp htb') (fun hh => hne (hh.trans e1.symm)))
  obtain ⟨_, hS, _⟩ := scoreTables_inv _ _ _ _ _ _ _ _ hnd (fun _ _ h => by cases h) a1
  -- the choice
  have hlen : 0 < lps.length := by
    have e1 : lps.length = (shuffle w.entries t).1.length := by simpa using congrArg List.length a2
    have e2 : new ∈ (shuffle w.entries t).1.map Prod.fst := (hmemk new).mpr (FMap.contains_iff.mpr ⟨_, by rw [hw2, if_pos rfl]⟩)
    rw [e1]
    have := List.length_pos_of_mem e2
    simpa using this
  have hk := draw_lt hlen t1
  obtain ⟨ch, hch⟩ : ∃ z, lps[(draw lps.length t1).1]? = some z := ⟨_, List.getElem?_eq_getElem hk⟩
  have hchm : ch.1 ∈ (shuffle w.entries t).1.map Prod.fst := by
    rw [← a2]
    exact List.mem_map_of_mem (List.mem_of_getElem? hch)
  have hperm : (shuffle K.crp.tables.keys (draw lps.length t1).2).1.Perm H.crp.tables.keys := by
    have e : K.crp.tables.keys = H.crp.tables.keys := by rw [a3.crp]
    exact (shuffle_perm K.crp.tables.keys (draw lps.length t1).2).trans (by rw [e])
  have hond : (shuffle K.crp.tables.keys (draw lps.length t1).2).1.Nodup := hperm.nodup_iff.mpr (FMap.nodupKeys _)
  have homem : ∀ tb, tb ∈ (shuffle K.crp.tables.keys (draw lps.length t1).2).1 ↔ ∃ I, H.irms.find? tb = some I := by
    intro tb
    rw [hperm.mem_iff, ← FMap.contains_iff_mem, ← h.skel.tables, FMap.contains_iff]
  have hfull0 : Full spec.doms rel.data I0 := by
    obtain ⟨sp, s1, s2⟩ := h.matched hR.obj
    have s3 := hR.find
    rw [s1] at s3; cases s3
    rw [← s2.doms]
    exact ((h.inv cur I0 hI0).rels r rid rel hx0).full
  -- the IRMs after scoring
  have hK : ∀ tb I, H.irms.find? tb = some I → ∃ I', K.irms.find? tb = some I' ∧ IRM.Inv L (arS H.schema) I' ∧ I'.rels.contains r = true ∧
      Grown r spec.doms rel.data I I' ∧ Full spec.doms rel.data I' ∧ (tb = cur → I' = I) ∧ (tb ≠ cur → ∃ id q, Put L (arS H.schema) H r spec rel.data p I I' id q) := by
    intro tb I hI
    by_cases htc : tb = cur
    · subst htc
      rw [hI0] at hI; cases hI
      exact ⟨I0, a3.kept tb I0 hI0 (.inr rfl), h.inv tb I0 hI0, FMap.contains_iff.mpr ⟨_, hx0⟩, .refl _ _ _ _, hfull0, fun _ => rfl, fun hh => absurd rfl hh⟩
    · obtain ⟨I', id, q, b1, b2⟩ := a3.touched tb I hI ((hmemk tb).mpr (hothers tb (FMap.contains_iff.mpr ⟨I, hI⟩))) htc
      exact ⟨I', b1, b2.inv, FMap.contains_iff.mpr ⟨_, by rw [b2.rels, FMap.find?_set_self]⟩, (Grown.refl _ _ _ I).put b2, b2.full, fun hh => absurd hh htc,
        fun _ => ⟨id, q, b2⟩⟩
  obtain ⟨m, hm⟩ := dropOthers_ok (L := L) (ar := arS H.schema) (r := r) (cur := cur) (choice := ch.1) (crp := K.crp)
    (shuffle K.crp.tables.keys (draw lps.length t1).2).1 K.irms hond (by
      intro tb htb
      obtain ⟨I, hI⟩ := (homem tb).mp htb
      obtain ⟨I', b1, b2, b3, _⟩ := hK tb I hI
      refine ⟨I', b1, fun hz => ?_, fun _ => ⟨b2, b3⟩⟩
      rw [size_zero_iff.mp hz r] at b3; cases b3) (by
      intro tb htb I' _ hI' hsz
      obtain ⟨I, hI⟩ := (homem tb).mp htb
      obtain ⟨I'', b1, b2, b3, _, _, b4, b5⟩ := hK tb I hI
      rw [hI'] at b1; cases b1
      by_cases htc : tb = cur
      · refine ⟨htc, ?_⟩
        rw [a3.crp]
        rw [b4 htc] at hsz
        exact h.skel.single hI hsz
      · exfalso
        obtain ⟨id, q, b6⟩ := b5 htc
        obtain ⟨n, hn⟩ := h.skel.inhabited hI
        have : I.rels.size ≠ 0 := fun hz => by rw [size_zero_iff.mp hz n] at hn; cases hn
        have := b6.size
        omega)
  obtain ⟨c1, hc1⟩ := crp_uninc h.skel.crp hcur
  obtain ⟨c2, hc2⟩ := crp_inc (tb := ch.1) h.skel.crp hc1
  have hdata : H.dataOf r = some rel.data := by unfold dataOf; rw [hR.obj]; rfl
  obtain ⟨k1, k2, k3, k4⟩ := settle_moved h.skel hT hR.find hdata hS hchm hperm hm rfl
  have hsk := h.skel.moved (H' := { K with irms := withAux aux ch.1 m, crp := c2 }) hrc a3.schema a3.relToCode a3.codeToRel hc1 hc2 k1 k2 k3
    (fun tb I hI n hn => (k4 tb I hI n hn).1)
  obtain ⟨d1, d2⟩ := dropOthers_inv _ _ _ hond hm
  -- the IRMs at the end
  have hfin : ∀ tb I2, (withAux aux ch.1 m).find? tb = some I2 → IRM.Inv L (arS H.schema) I2 ∧
      Grown r spec.doms rel.data ((H.irms.find? tb).getD {}) I2 ∧ Full spec.doms rel.data I2 ∧
      (tb = ch.1 → (ch.1 = cur → H.irms.find? cur = some I2) ∧ (ch.1 ≠ cur → ∃ J id q, Put L (arS H.schema) H r spec rel.data p J I2 id q)) := by
    intro tb I2 hI2
    have hlive : ∀ I, H.irms.find? tb = some I → m.find? tb = some I2 → IRM.Inv L (arS H.schema) I2 ∧
        Grown r spec.doms rel.data I I2 ∧ Full spec.doms rel.data I2 ∧
        (tb = ch.1 → (ch.1 = cur → H.irms.find? cur = some I2) ∧ (ch.1 ≠ cur → ∃ J id q, Put L (arS H.schema) H r spec rel.data p J I2 id q)) := by
      intro I hI hm2
      obtain ⟨I', b1, b2, b3, b4, b8, b5, b6⟩ := hK tb I hI
      obtain ⟨J, J1, e1, e2, e3⟩ := d2 tb ((homem tb).mpr ⟨I, hI⟩)
      rw [b1] at e1; cases e1
      rw [hm2] at e3
      split at e3
      · cases e3
      cases e3
      by_cases htc : tb = ch.1
      · rw [if_pos htc] at e2
        cases e2
        refine ⟨b2, b4, b8, fun _ => ⟨fun hh => ?_, fun hh => ?_⟩⟩
        · rw [b5 (htc.trans hh), ← hh, ← htc]; exact hI
        · obtain ⟨id, q, b7⟩ := b6 (by rw [htc]; exact hh)
          exact ⟨I, id, q, b7⟩
      · rw [if_neg htc] at e2
        obtain ⟨⟨id, q⟩, hx⟩ := FMap.contains_iff.mp b3
        obtain ⟨I3, f1, f2, f3⟩ := removeRelation_ok b2 hx (ar' := arS H.schema) (fun _ _ _ _ _ _ _ => rfl)
        rw [e2.2] at f1; cases f1
        exact ⟨f3, b4.removed f2 f3, b8.removed f2 f3, fun hh => absurd hh htc⟩
    cases hI : H.irms.find? tb with
    | some I =>
      have hm2 : m.find? tb = some I2 := by
        rcases withAux_some hI2 with hh | ⟨hh, _⟩
        · exact hh
        · rw [hS.aux_none tb I2 hh] at hI; cases hI
      exact hlive I hI hm2
    | none =>
      have hmn : m.find? tb = none := by
        rw [d1 tb (fun hh => by
          obtain ⟨I, hI'⟩ := (homem tb).mp hh
          rw [hI] at hI'; cases hI')]
        exact a3.none_irm tb hI
      have hx : aux = some (tb, I2) ∧ tb = ch.1 := by
        rcases withAux_some hI2 with hh | hh
        · rw [hmn] at hh; cases hh
        · exact hh
      obtain ⟨e1, e2⟩ := hx
      obtain ⟨J', id, q, e3, e4⟩ := a3.aux_some tb (by rw [e2]; exact hchm) hI
      rw [e1] at e3; cases e3
      refine ⟨e4.inv, (Grown.refl _ _ _ _).put e4, e4.full, fun _ => ⟨fun hh => ?_, fun _ => ⟨_, id, q, e4⟩⟩⟩
      rw [e2, hh, hI0] at hI; cases hI
  -- the relation's new object
  obtain ⟨Ic, hIc, hIcr⟩ := hsk.1.irm (n := r) (by rw [hsk.2, if_pos rfl])
  obtain ⟨f1, f2, _, f3⟩ := hfin ch.1 Ic hIc
  obtain ⟨f4, f5⟩ := f3 rfl
  have hobj : ∃ id q, Ic.rels.find? r = some (id, q) ∧ spec.Matches q ∧ (∀ p', q.base? = some p' → p' = p) ∧ q.data = rel.data ∧
      (∀ btb bid b, H.relOf p.name = some (btb, bid, b) → (∃ b', spec.base? = some b') → Linked q b) ∧ (ch.1 = cur → id = rid ∧ q = rel) := by
    by_cases hcc : ch.1 = cur
    · have g1 := f4 hcc
      rw [hI0] at g1; cases g1
      obtain ⟨sp, s1, s2⟩ := h.matched hR.obj
      have s3 := hR.find
      rw [s1] at s3; cases s3
      refine ⟨rid, rel, hx0, s2, hR.own, rfl, ?_, fun _ => ⟨rfl, rfl⟩⟩
      intro btb bid b hb ⟨b', hb'⟩
      have g2 := s2.base
      rw [hb'] at g2
      obtain ⟨p0, g3, g4⟩ := Option.map_eq_some_iff.mp g2
      have g5 := hR.own p0 g3
      subst g5
      obtain ⟨_, btb', bid', b1, g6, _, g7⟩ := h.ptr r cur rid rel p0 hR.obj g3
      rw [hb] at g6; cases g6
      exact g7
    · obtain ⟨J, id, q, g1⟩ := f5 hcc
      exact ⟨id, q, by rw [g1.rels, FMap.find?_set_self], g1.matched, g1.base, g1.data, g1.linked, fun hh => absurd hh hcc⟩
  obtain ⟨id, q, o1, o2, o3, o4, o5, o6⟩ := hobj
  have hMoved : Moved L H r rel spec p ch.1 { K with irms := withAux aux ch.1 m, crp := c2 } id q :=
    hR.moved hsk.1 a3.schema a3.baseToNoisy hsk.2 (fun tb I hI => (hfin tb I hI).1) (by
      intro tb I I1 n hn hI hI1
      have := (hfin tb I hI).2.1.rels n hn
      rw [hI1] at this
      exact this) (by
      intro I hI
      dsimp only at hI
      rw [hIc] at hI; cases hI
      exact o1) o2 o3 o4 o5
  obtain ⟨H', u1, u2, u3, u4, u5, u6⟩ := hMoved.good hR
  have heq : H.transitionRelation r t = .ok (H', (shuffle K.crp.tables.keys (draw lps.length t1).2).2) := by
    have g0 : H.getRelation r = .ok (⟨some cur, r, rid⟩, rel) := getRelation_ok.mpr ⟨cur, rid, hR.obj, rfl⟩
    have g1 : ({ K with irms := withAux aux ch.1 m, crp := c2 } : HIRM F).checkTables = .ok () := hsk.1.checkTables
    have g2 : K.crp.unincorporate rc = .ok c1 := by rw [a3.crp]; exact hc1
    have g3 : K.settle r rc cur ch.1 (shuffle K.crp.tables.keys (draw lps.length t1).2).1 aux = .ok H' := by
      exact bind_ok.mpr ⟨m, hm, bind_ok.mpr ⟨c1, g2, bind_ok.mpr ⟨c2, hc2, bind_ok.mpr ⟨(), g1, u1⟩⟩⟩⟩
    simp only [transitionRelation, bind, Except.bind, FMap.atKey_of_find hrc, FMap.atKey_of_find hcur, g0, FMap.atKey_of_find hR.find, hw1, a1, idxR, hch, g3]
  obtain ⟨_, tb, hmv⟩ := transitionRelation_skel h.skel heq
  have htb : tb = ch.1 := by
    have g1 := hmv.tables r
    rw [if_pos rfl] at g1
    rw [(relOf_some.mp u4).1] at g1
    exact (Option.some.inj g1).symm
  rw [htb] at hmv
  refine ⟨H', _, ch.1, heq, .of hR u2 hmv u5 (fun tb I hI => (hfin tb I hI).2.1) u6, fun hcc => ?_, ?_⟩
  swap
  · intro tb I' hI' u id' rel' hrel
    rw [hR.obj] at hrel; cases hrel
    have g1 := u6 tb
    rw [hI'] at g1
    obtain ⟨I, g2, g3⟩ := Option.map_eq_some_iff.mp g1
    dsimp only at g3
    obtain ⟨sp, s1, s2⟩ := h.matched hR.obj
    have s3 := hR.find
    rw [s1] at s3; cases s3
    have g4 := (hfin tb I g2).2.2.1
    rw [s2.doms]
    intro d i k hd
    rw [← g3] at hd ⊢
    exact g4 d i k hd
  rw [hT] at hcc
  have hcc := (Option.some.inj hcc).symm
  obtain ⟨e1, e2⟩ := o6 hcc
  subst e1 e2
  rw [hcc] at u4 u5 ⊢
  refine ⟨fun n => ?_, ?_⟩
  · by_cases hn : n = r
    · subst hn; rw [u4, hR.obj]
    · rcases u5 n hn with g1 | ⟨⟨sp, s1, s2⟩, g1⟩
      · exact g1
      · rw [g1]
        cases hnr : H.relOf n with
        | none => rfl
        | some x =>
          obtain ⟨tb, nid, x⟩ := x
          simp only [Option.map_some]
          cases x with
          | clean c y => rfl
          | noisy e p0 y =>
            obtain ⟨_, btb, bid, b, v1, v2, _⟩ := h.ptr n tb nid _ p0 hnr rfl
            obtain ⟨sp', s3, s4⟩ := h.matched hnr
            rw [s1] at s3; cases s3
            have hpr : p0.name = r := by
              have := s4.base
              rw [s2] at this
              exact Option.some.inj this
            rw [hpr, hR.obj] at v1; cases v1
            rw [hpr] at v2
            simp only [Rel.repoint, v2]
  · have := f4 hcc
    rw [this, ← u6]
    have hIc' : (withAux aux ch.1 m).find? ch.1 = some Ic := hIc
    dsimp only
    rw [← hcc, hIc']

theorem setClusterAssignmentGibbs_ok {H : HIRM F} (h : Good L H) {r : String} (hr : H.schema.contains r = true) (table : Int) (t : Tape) :
    ∃ H' t', H.setClusterAssignmentGibbs r table t = .ok (H', t') ∧ MoveResult L H r table H' := by
  obtain ⟨cur, rid, rel, spec, p, hR⟩ := h.ready hr
  obtain ⟨hT, I0, hI0, hx0⟩ := relOf_some.mp hR.obj
  dsimp only at hT hI0 hx0
  obtain ⟨rc, hrc, hcur⟩ := Option.bind_eq_some_iff.mp hT
  have hrnone : ∀ tb I, H.irms.find? tb = some I → tb ≠ cur → I.rels.find? r = none := by
    intro tb I hI hne
    cases hx : I.rels.find? r with
    | none => rfl
    | some x =>
      have := (h.skel.place tb I hI r).mp (FMap.contains_iff.mpr ⟨x, hx⟩)
      rw [hT] at this
      exact absurd (Option.some.inj this).symm hne
  obtain ⟨I1, b1, b2, b3⟩ := removeRelation_ok (h.inv cur I0 hI0) hx0 (ar' := arS H.schema) (fun _ _ _ _ _ _ _ => rfl)
  have b4 : Grown r spec.doms rel.data I0 I1 := (Grown.refl _ _ _ I0).removed b2 b3
  -- the IRMs without the relation
  obtain ⟨m1, hm1, hse⟩ : ∃ m1, m1 = (if I1.rels.size = 0 then H.irms.erase cur else H.irms.set cur I1) ∧
      setIrms H.irms cur table I1 = if m1.contains table then m1 else m1.set table {} := ⟨_, rfl, rfl⟩
  have hm2 : ∀ tb I, (setIrms H.irms cur table I1).find? tb = some I → IRM.Inv L (arS H.schema) I ∧ I.rels.find? r = none ∧
      Grown r spec.doms rel.data ((H.irms.find? tb).getD {}) I := by
    intro tb I hI
    have hone : ∀ J, m1.find? tb = some J →
        IRM.Inv L (arS H.schema) J ∧ J.rels.find? r = none ∧ Grown r spec.doms rel.data ((H.irms.find? tb).getD {}) J := by
      intro J hJ
      rw [hm1] at hJ
      have hcase : (tb = cur ∧ J = I1) ∨ (tb ≠ cur ∧ H.irms.find? tb = some J) := by
        split at hJ
        · rw [FMap.find?_erase] at hJ
          split at hJ
          · cases hJ
          · exact .inr ⟨by assumption, hJ⟩
        · rw [FMap.find?_set] at hJ
          split at hJ
          · cases hJ; exact .inl ⟨by assumption, rfl⟩
          · exact .inr ⟨by assumption, hJ⟩
      rcases hcase with ⟨rfl, rfl⟩ | ⟨hne, hJ⟩
      · exact ⟨b3, by rw [b2.rels, FMap.find?_erase_self], by rw [hI0]; exact b4⟩
      · exact ⟨h.inv tb J hJ, hrnone tb J hJ hne, by rw [hJ]; exact .refl _ _ _ _⟩
    rw [hse] at hI
    split at hI
    · exact hone I hI
    · rename_i hcon
      rw [FMap.find?_set] at hI
      split at hI
      · rename_i e
        cases hI
        refine ⟨inv_empty, rfl, ?_⟩
        -- the table is new, or was emptied
        cases hJ : H.irms.find? tb with
        | none => exact .refl _ _ _ _
        | some J =>
          have e2 : tb = cur ∧ I1.rels.size = 0 := by
            rw [← e] at hcon
            by_contra hno
            refine hcon (FMap.contains_iff.mpr ?_)
            rw [hm1]
            split
            · rename_i hz
              exact ⟨J, by rw [FMap.find?_erase_ne _ (fun hh => hno ⟨hh, hz⟩)]; exact hJ⟩
            · rw [FMap.find?_set]
              split
              · exact ⟨_, rfl⟩
              · exact ⟨J, hJ⟩
          obtain ⟨e3, e4⟩ := e2
          subst e3
          rw [hI0] at hJ; cases hJ
          have hno : ∀ n, n ≠ r → I0.rels.find? n = none := by
            intro n hn
            have := size_zero_iff.mp e4 n
            rw [FMap.contains_false, b2.rels, FMap.find?_erase_ne _ hn] at this
            exact this
          refine ⟨fun n hn => ?_, fun d hd => ?_, fun d i z hz => by cases hz⟩
          · simp only [Option.getD_some]
            rw [hno n hn]; rfl
          · obtain ⟨n, id, q, h1, h2, _⟩ := hd
            simp only [Option.getD_some] at h2
            rw [hno n h1] at h2; cases h2
      · exact hone I hI
  obtain ⟨I2, hI2⟩ : ∃ I2, (setIrms H.irms cur table I1).find? table = some I2 := by
    rw [hse]
    split
    · rename_i hc; exact FMap.contains_iff.mp hc
    · exact ⟨_, FMap.find?_set_self _ _ _⟩
  obtain ⟨i1, i2, i3⟩ := hm2 table I2 hI2
  -- the other relations are seen as before
  have hrel : ∀ n, n ≠ r → HIRM.relOf { H with irms := setIrms H.irms cur table I1 } n = H.relOf n := by
    intro n hn
    have hT' : HIRM.tableOf { H with irms := setIrms H.irms cur table I1 } n = H.tableOf n := rfl
    unfold HIRM.relOf
    rw [hT']
    cases hH : H.tableOf n with
    | none => rfl
    | some tb =>
      obtain ⟨J, hJ, hJn⟩ := h.skel.irm hH
      simp only [Option.bind_eq_bind, Option.bind_some, hJ]
      cases hI : (setIrms H.irms cur table I1).find? tb with
      | some I =>
        have := (hm2 tb I hI).2.2.rels n hn
        rw [hJ] at this
        simp only [Option.bind_some]
        rw [this]; rfl
      | none =>
        exfalso
        rw [hse] at hI
        have hkeep : ∃ I, m1.find? tb = some I := by
          rw [hm1]
          by_cases hc : tb = cur
          · subst hc
            rw [hI0] at hJ; cases hJ
            have : I1.rels.contains n = true := by rw [b2.rels]; exact contains_erase.mpr ⟨hn, hJn⟩
            have hz : I1.rels.size ≠ 0 := fun hz => by rw [size_zero_iff.mp hz n] at this; cases this
            rw [if_neg hz]
            exact ⟨_, FMap.find?_set_self _ _ _⟩
          · split
            · exact ⟨J, by rw [FMap.find?_erase_ne _ hc]; exact hJ⟩
            · exact ⟨J, by rw [FMap.find?_set_ne _ hc]; exact hJ⟩
        obtain ⟨I, hI'⟩ := hkeep
        split at hI
        · rw [hI'] at hI; cases hI
        · rw [FMap.find?_set] at hI
          split at hI
          · cases hI
          · rw [hI'] at hI; cases hI
  obtain ⟨I3, q, t', j1, j2⟩ := hR.put (K := { H with irms := setIrms H.irms cur table I1 }) hrel i1 i2 t
  obtain ⟨c1, hc1⟩ := crp_uninc h.skel.crp hcur
  obtain ⟨c2, hc2⟩ := crp_inc (tb := table) h.skel.crp hc1
  have hdata : H.dataOf r = some rel.data := by unfold dataOf; rw [hR.obj]; rfl
  obtain ⟨hsk, _⟩ := set_moved h.skel hrc hT hR.find hdata hI0 b1 hI2 (putRelation_with j1) hc1 hc2
  have hfin : ∀ tb I, ((setIrms H.irms cur table I1).set table I3).find? tb = some I → IRM.Inv L (arS H.schema) I ∧
      Grown r spec.doms rel.data ((H.irms.find? tb).getD {}) I := by
    intro tb I hI
    rw [FMap.find?_set] at hI
    split at hI
    · rename_i e; subst e; cases hI
      exact ⟨j2.inv, i3.put j2⟩
    · exact ⟨(hm2 tb I hI).1, (hm2 tb I hI).2.2⟩
  have hMoved : Moved L H r rel spec p table { H with irms := (setIrms H.irms cur table I1).set table I3, crp := c2, next := H.next + 1 } H.next q :=
    hR.moved hsk.1 rfl rfl hsk.2 (fun tb I hI => (hfin tb I hI).1) (by
      intro tb I I4 n hn hI hI4
      have := (hfin tb I hI).2.rels n hn
      rw [hI4] at this
      exact this) (by
      intro I hI
      dsimp only at hI
      rw [FMap.find?_set_self] at hI; cases hI
      rw [j2.rels, FMap.find?_set_self]) j2.matched j2.base j2.data j2.linked
  obtain ⟨H', u1, u2, u3, u4, u5, u6⟩ := hMoved.good hR
  have heq : H.setClusterAssignmentGibbs r table t = .ok (H', t') := by
    have g0 : H.getRelation r = .ok (⟨some cur, r, rid⟩, rel) := getRelation_ok.mpr ⟨cur, rid, hR.obj, rfl⟩
    have g1 := (u3.skel hsk.1).checkTables
    have g2 := h.skel.sizes
    refine bind_ok.mpr ⟨(), by rw [g2]; simp [assertR], bind_ok.mpr ⟨rc, FMap.atKey_of_find hrc, bind_ok.mpr ⟨cur, FMap.atKey_of_find hcur,
      bind_ok.mpr ⟨_, g0, bind_ok.mpr ⟨spec, FMap.atKey_of_find hR.find, bind_ok.mpr ⟨I0, FMap.atKey_of_find hI0, bind_ok.mpr ⟨I1, b1,
      bind_ok.mpr ⟨I2, FMap.atKey_of_find hI2, bind_ok.mpr ⟨(I3, t'), j1, bind_ok.mpr ⟨c1, hc1, bind_ok.mpr ⟨c2, hc2, bind_ok.mpr ⟨H', u1,
      bind_ok.mpr ⟨(), g1, rfl⟩⟩⟩⟩⟩⟩⟩⟩⟩⟩⟩⟩⟩
  obtain ⟨_, hmv⟩ := setClusterAssignmentGibbs_skel h.skel heq
  exact ⟨H', t', heq, .of hR u2 hmv u5 (fun tb I hI => (hfin tb I hI).2) u6⟩

end HIRM
end
end Verif
