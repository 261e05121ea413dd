import Verif.Lemmas.ClusterFileHIRM
/-! Reading back cluster files. -/
namespace Verif
variable {V : Type}
namespace UtilIO
open Text

theorem irmText_ok_iff {F : Family V} {I : IRM F} (hT : Tidy I.doms) (e : Encoding) (t : Tape) :
    (∃ text t', irmText I e t = .ok (text, t')) ↔ Nameable I.doms e := by
  constructor
  · rintro ⟨text, t', h⟩
    obtain ⟨rows, _, _, _, h2⟩ := irmRows hT h
    rintro d tb i hin
    obtain ⟨dom, hd, _⟩ := id hin
    obtain ⟨s, hs, hi⟩ := (hT.inCluster hd).mp hin
    obtain ⟨r, _, rfl, _, hg⟩ := h2 d dom tb s hd hs
    exact hg.named i hi
  · intro h
    have hperm := shuffle_perm I.doms.entries t
    obtain ⟨txt, t', h1⟩ := domainsText_ex (e := e) (shuffle I.doms.entries t).1 (shuffle I.doms.entries t).2 (by
      intro x hx tb s hs i hi
      have hf := FMap.mem_entries.mp (hperm.mem_iff.mp hx)
      rw [(hT _ _ hf).1]
      exact h _ tb i ((hT.inCluster hf).mpr ⟨s, hs, hi⟩))
    exact ⟨txt, t', h1⟩

theorem irmText_loaded {F : Family V} {I : IRM F} (hT : Tidy I.doms) {e : Encoding} {t t' : Tape} {text : List Char} (h : irmText I e t = .ok (text, t'))
    (hW : Wordy I.doms e) : ∃ cl, loadClustersIrm text = .ok cl ∧ Saved I.doms e cl := by
  obtain ⟨rows, rfl, h1, h2, h3⟩ := irmRows hT h
  have hr : ∀ r ∈ rows, r.Readable := by
    intro r hr
    obtain ⟨dom, s, h4, h5, h6⟩ := h2 r hr
    exact irmRows_readable hT hW h4 h5 h6
  refine ⟨_, ?_, irmRows_saved hT h1 h2 h3⟩
  unfold loadClustersIrm
  rw [rows_lines hr]
  exact irmLines_rows rows ∅ hr h1 (fun r _ => rfl)

theorem hirmText_loaded {F : Family V} {H : HIRM F} (hC : H.Consistent) (hcrp : TidyCRP H.crp) (hT : ∀ tb I, H.irms.find? tb = some I → Tidy I.doms)
    {e : Encoding} {t t' : Tape} {text : List Char} (h : hirmText H e t = .ok (text, t'))
    (hW : ∀ tb I, H.irms.find? tb = some I → Wordy I.doms e ∧ ∀ d tb' i, InCluster I.doms d tb' i → DomainWord d ∧ 0 ≤ tb')
    (hR : ∀ n tb, H.tableOf n = some tb → Word n ∧ 0 ≤ tb) :
    ∃ rels irms, loadClustersHirm text = .ok (rels, irms) ∧ SavedHirm H e rels irms := by
  unfold hirmText at h
  obtain ⟨⟨txt1, t1⟩, h1, h2⟩ := bind_ok.mp h
  obtain ⟨⟨txt2, t2⟩, h3, h4⟩ := bind_ok.mp h2
  cases h4
  obtain ⟨rrows, rfl, h5, h6⟩ := relClustersText_ok h1
  obtain ⟨bs, rfl, h7, h8⟩ := irmsText_ok hT h3
  -- the tables
  have hkeys : (H.crp.tables.entries.map Prod.fst).Nodup := H.crp.tables.nodupKeys
  have htab : ∀ tb, tb ∈ H.crp.tables.entries.map Prod.fst ↔ ∃ n, H.tableOf n = some tb := by
    intro tb
    constructor
    · intro hm
      obtain ⟨⟨tb', s⟩, hx, rfl⟩ := List.mem_map.mp hm
      have hs := FMap.mem_entries.mp hx
      obtain ⟨c, hc⟩ := hcrp.2 _ _ hs
      have ha := (hcrp.1 c tb').mpr ⟨s, hs, hc⟩
      obtain ⟨n, hn⟩ := (hC.customers c).mp ⟨tb', ha⟩
      exact ⟨n, by unfold HIRM.tableOf; rw [hn]; exact ha⟩
    · rintro ⟨n, hn⟩
      unfold HIRM.tableOf at hn
      obtain ⟨c, hc, ha⟩ := Option.bind_eq_some_iff.mp hn
      obtain ⟨s, hs, _⟩ := (hcrp.1 c tb).mp ha
      exact List.mem_map.mpr ⟨(tb, s), FMap.mem_entries.mpr hs, rfl⟩
  -- the relation rows
  have hrr : ∀ r ∈ rrows, (∀ n, n ∈ r.names ↔ H.tableOf n = some r.tb) ∧ r.names.Nodup ∧ r.names ≠ [] ∧ r.names.length ≤ r.n := by
    intro r hr
    obtain ⟨s, cs, h9, h10, h11, h12⟩ := h6 r hr
    have hs := FMap.mem_entries.mp h9
    have hmem : ∀ n, n ∈ r.names ↔ H.tableOf n = some r.tb := by
      intro n
      constructor
      · intro hn
        obtain ⟨j, hj, rfl⟩ := List.getElem_of_mem hn
        have hj' : j < cs.length := by rw [h12.length_eq]; exact hj
        have hc := h12.get hj' hj
        have hrc : H.relToCode.find? r.names[j] = some cs[j] := (hC.codes _ _).mpr hc
        unfold HIRM.tableOf
        rw [hrc]
        exact (hcrp.1 _ _).mpr ⟨s, hs, h10.mem_iff.mp (List.getElem_mem _)⟩
      · intro hn
        unfold HIRM.tableOf at hn
        obtain ⟨c, hc, ha⟩ := Option.bind_eq_some_iff.mp hn
        obtain ⟨s', hs', hi⟩ := (hcrp.1 c r.tb).mp ha
        rw [hs] at hs'
        cases hs'
        obtain ⟨j, hj, rfl⟩ := List.getElem_of_mem (h10.mem_iff.mpr hi)
        have hj' : j < r.names.length := by rw [← h12.length_eq]; exact hj
        have hc' := h12.get hj hj'
        have hc'' := (hC.codes _ _).mp hc
        have hc' : H.codeToRel.find? cs[j] = some r.names[j] := hc'
        rw [hc'] at hc''
        cases hc''
        exact List.getElem_mem _
    refine ⟨hmem, ?_, ?_, by rw [h11, h12.length_eq]⟩
    · have hcs : cs.Nodup := h10.nodup_iff.mpr s.nodupKeys
      rw [List.nodup_iff_injective_get]
      intro a b hab
      have ha' : a.1 < cs.length := by rw [h12.length_eq]; exact a.2
      have hb' : b.1 < cs.length := by rw [h12.length_eq]; exact b.2
      have h13 : H.codeToRel.find? cs[a.1] = some r.names[a.1] := h12.get ha' a.2
      have h14 : H.codeToRel.find? cs[b.1] = some r.names[b.1] := h12.get hb' b.2
      have hab : r.names[a.1] = r.names[b.1] := hab
      rw [hab] at h13
      have h15 := (hC.codes _ _).mpr h13
      rw [(hC.codes _ _).mpr h14] at h15
      have h16 : cs[a.1] = cs[b.1] := (Option.some.inj h15).symm
      exact Fin.ext ((List.Nodup.getElem_inj_iff hcs).mp h16)
    · obtain ⟨c, hc⟩ := hcrp.2 _ _ hs
      intro h0
      have := h12.length_eq
      rw [h0, List.length_nil, List.length_eq_zero_iff] at this
      rw [this] at h10
      have := h10.mem_iff.mpr hc
      cases this
  have hrow : ∀ r ∈ rrows, r.Readable := by
    intro r hr
    obtain ⟨h9, h10, h11, h12⟩ := hrr r hr
    obtain ⟨n, hn⟩ := List.exists_mem_of_ne_nil _ h11
    exact ⟨(hR n r.tb ((h9 n).mp hn)).2, fun x hx => (hR x r.tb ((h9 x).mp hx)).1, h11, h12⟩
  have hblock : ∀ b ∈ bs, 0 ≤ b.1 ∧ (b.2.map (fun r => (r.d, r.tb))).Nodup ∧ ∀ r ∈ b.2, r.Readable ∧ DomainWord r.d ∧ 0 ≤ r.tb := by
    intro b hb
    obtain ⟨I, h9, h10, h11, _⟩ := h8 b hb
    have hbt : b.1 ∈ H.crp.tables.entries.map Prod.fst := h7 ▸ List.mem_map.mpr ⟨b, hb, rfl⟩
    obtain ⟨n, hn⟩ := (htab b.1).mp hbt
    refine ⟨(hR n b.1 hn).2, h10, fun r hr => ?_⟩
    obtain ⟨dom, s, h12, h13, h14⟩ := h11 r hr
    obtain ⟨hw1, hw2⟩ := hW b.1 I h9
    obtain ⟨i, hi⟩ := ((hT _ _ h9) _ _ h12).2.2 _ _ h13
    exact ⟨irmRows_readable (hT _ _ h9) hw1 h12 h13 h14, hw2 r.d r.tb i (((hT _ _ h9).inCluster h12).mpr ⟨s, h13, hi⟩)⟩
  -- the lines
  have hlines : lines (rrows.flatMap (fun r => r.line ++ ['\n']) ++ '\n' :: (blockLines bs).flatMap (· ++ ['\n'])) =
      rrows.map RRow.line ++ [] :: blockLines bs := by
    have : rrows.flatMap (fun r => r.line ++ ['\n']) ++ '\n' :: (blockLines bs).flatMap (· ++ ['\n']) =
        (rrows.map RRow.line ++ [] :: blockLines bs).flatMap (· ++ ['\n']) := by
      rw [List.flatMap_append, List.flatMap_map, List.flatMap_cons]
      rfl
    rw [this]
    apply lines_flatMap
    have hbl : ∀ bs : List (Int × List CRow), (∀ b ∈ bs, ∀ r ∈ b.2, r.Readable) → ∀ l ∈ blockLines bs, '\n' ∉ l := by
      intro bs
      induction bs with
      | nil => intro _ l hl; simp [blockLines] at hl
      | cons b bs ih =>
        obtain ⟨tb, rows⟩ := b
        intro hb l hl
        rw [blockLines] at hl
        rcases List.mem_append.mp hl with hl | hl
        · rcases List.mem_append.mp hl with hl | hl
          · rcases List.mem_cons.mp hl with rfl | hl
            · intro hn; exact absurd (head_not_space tb _ hn) (by decide)
            · obtain ⟨r, hr, rfl⟩ := List.mem_map.mp hl
              have := hb (tb, rows) (by simp) r hr
              exact clusterLine_newline this.d this.names
          · split at hl
            · cases hl
            · rw [List.mem_singleton.mp hl]; simp
        · exact ih (fun b hb' => hb b (by simp [hb'])) l hl
    intro l hl
    rcases List.mem_append.mp hl with hl | hl
    · obtain ⟨r, hr, rfl⟩ := List.mem_map.mp hl
      exact RRow.line_newline (hrow r hr)
    · rcases List.mem_cons.mp hl with rfl | hl
      · simp
      · exact hbl bs (fun b hb r hr => ((hblock b hb).2.2 r hr).1) l hl
  obtain ⟨c, hc⟩ := hirmLines_blocks bs { relations := rrows.foldl (fun m r => m.set r.tb r.names) ∅, irms := ∅, irmc := -1 } rfl (h7 ▸ hkeys)
    (fun b hb => ⟨(hblock b hb).1, rfl, (hblock b hb).2⟩)
  have hread : hirmLines (rrows.map RRow.line ++ [] :: blockLines bs) {} =
      .ok ⟨rrows.foldl (fun m r => m.set r.tb r.names) ∅, bs.foldl (fun m b => m.set b.1 (b.2.foldl (fun c r => r.add c) ∅)) ∅, c⟩ := by
    rw [hirmLines_append, hirmLines_rels rrows {} hrow (h5 ▸ hkeys) (fun r _ => rfl)]
    simp only [bind, Except.bind]
    rw [hirmLines, hirmLine, if_pos rfl]
    exact hc
  have hfr : ∀ tb l, (rrows.foldl (fun m r => m.set r.tb r.names) (∅ : FMap Int (List String))).find? tb = some l ↔ ∃ r ∈ rrows, r.tb = tb ∧ r.names = l := by
    intro tb l
    rw [foldl_set_find RRow.tb RRow.names rrows ∅ (h5 ▸ hkeys)]
    simp
  have hfi : ∀ tb cl, (bs.foldl (fun m b => m.set b.1 (b.2.foldl (fun c r => r.add c) ∅)) (∅ : FMap Int Clusters)).find? tb = some cl ↔
      ∃ b ∈ bs, b.1 = tb ∧ b.2.foldl (fun c r => r.add c) ∅ = cl := by
    intro tb cl
    rw [foldl_set_find Prod.fst (fun b : Int × List CRow => b.2.foldl (fun c r => r.add c) ∅) bs ∅ (h7 ▸ hkeys)]
    simp
  set rels := rrows.foldl (fun m r => m.set r.tb r.names) (∅ : FMap Int (List String)) with hrels
  set irms := bs.foldl (fun m b => m.set b.1 (b.2.foldl (fun c r => r.add c) ∅)) (∅ : FMap Int Clusters) with hirms
  have hrk : ∀ tb, tb ∈ rels.keys ↔ ∃ n, H.tableOf n = some tb := by
    intro tb
    rw [FMap.mem_keys, ← htab, ← h5]
    constructor
    · rintro ⟨l, hl⟩
      obtain ⟨r, hr, rfl, _⟩ := (hfr tb l).mp hl
      exact List.mem_map.mpr ⟨r, hr, rfl⟩
    · intro hm
      obtain ⟨r, hr, rfl⟩ := List.mem_map.mp hm
      exact ⟨r.names, (hfr _ _).mpr ⟨r, hr, rfl, rfl⟩⟩
  have hik : ∀ tb, tb ∈ irms.keys ↔ ∃ n, H.tableOf n = some tb := by
    intro tb
    rw [FMap.mem_keys, ← htab, ← h7]
    constructor
    · rintro ⟨l, hl⟩
      obtain ⟨b, hb, rfl, _⟩ := (hfi tb l).mp hl
      exact List.mem_map.mpr ⟨b, hb, rfl⟩
    · intro hm
      obtain ⟨b, hb, rfl⟩ := List.mem_map.mp hm
      exact ⟨_, (hfi _ _).mpr ⟨b, hb, rfl, rfl⟩⟩
  have hsize : rels.size = irms.size := by
    have hp : rels.keys.Perm irms.keys := (List.perm_ext_iff_of_nodup rels.nodupKeys irms.nodupKeys).mpr (fun tb => (hrk tb).trans (hik tb).symm)
    have := hp.length_eq
    have h1 : rels.keys.length = rels.size := List.length_map ..
    have h2 : irms.keys.length = irms.size := List.length_map ..
    omega
  refine ⟨rels, irms, ?_, ?_⟩
  · unfold loadClustersHirm
    rw [hlines, hread]
    simp only [bind, Except.bind]
    rw [(assertR_ok (u := ())).mpr (by simpa using hsize), (assertR_ok (u := ())).mpr (by
      rw [List.all_eq_true]
      intro tb htb
      exact FMap.contains_iff_mem.mpr ((hik tb).mpr ((hrk tb).mp htb)))]
  · have hcase : ∀ tb, (rels.find? tb = none ∧ ¬ ∃ n, H.tableOf n = some tb) ∨ ∃ r ∈ rrows, r.tb = tb ∧ rels.find? tb = some r.names := by
      intro tb
      cases hf : rels.find? tb with
      | none =>
        refine .inl ⟨rfl, fun hn => ?_⟩
        obtain ⟨l, hl⟩ := FMap.mem_keys.mp ((hrk tb).mpr hn)
        rw [hf] at hl
        cases hl
      | some l =>
        obtain ⟨r, hr, h9, h10⟩ := (hfr tb l).mp hf
        exact .inr ⟨r, hr, h9, by rw [h10]⟩
    refine ⟨fun tb n => ?_, fun tb => ?_, fun tb l hl => ?_, fun tb => ?_, fun tb I cl hI hcl => ?_⟩
    · rcases hcase tb with ⟨h9, h10⟩ | ⟨r, hr, rfl, h9⟩
      · rw [h9]
        constructor
        · intro h; cases h
        · intro h; exact absurd ⟨n, h⟩ h10
      · rw [h9]
        exact (hrr r hr).1 n
    · rcases hcase tb with ⟨h9, _⟩ | ⟨r, hr, rfl, h9⟩
      · rw [h9]; simp
      · rw [h9]; exact (hrr r hr).2.1
    · obtain ⟨r, hr, _, rfl⟩ := (hfr tb l).mp hl
      exact (hrr r hr).2.2.1
    · rw [FMap.contains_iff_mem]
      exact hik tb
    · obtain ⟨b, hb, rfl, rfl⟩ := (hfi tb cl).mp hcl
      obtain ⟨I', h9, h10, h11, h12⟩ := h8 b hb
      rw [hI] at h9
      cases h9
      exact irmRows_saved (hT _ _ hI) h10 h11 h12

theorem irmsText_ex {F : Family V} {irms : FMap Int (IRM F)} {e : Encoding} (hT : ∀ tb I, irms.find? tb = some I → Tidy I.doms)
    (hN : ∀ tb I, irms.find? tb = some I → Nameable I.doms e) : ∀ (l : List (Int × FSet Int)) (t : Tape), (∀ x ∈ l, irms.contains x.1 = true) →
    ∃ text t', irmsText irms e l t = .ok (text, t') := by
  intro l
  induction l with
  | nil => intro t _; exact ⟨[], t, rfl⟩
  | cons x l ih =>
    obtain ⟨tb, s⟩ := x
    intro t h
    obtain ⟨I, hI⟩ := FMap.contains_iff.mp (h (tb, s) (by simp))
    obtain ⟨here, t1, h1⟩ := (irmText_ok_iff (hT _ _ hI) e t).mpr (hN _ _ hI)
    obtain ⟨rest, t2, h2⟩ := ih t1 (fun x hx => h x (by simp [hx]))
    have : ∃ x, irmsText irms e ((tb, s) :: l) t = .ok x := by
      rw [irmsText, FMap.atKey_of_find hI]
      simp only [bind, Except.bind, h1, h2]
      exact ⟨_, rfl⟩
    obtain ⟨x, hx⟩ := this
    exact ⟨x.1, x.2, hx⟩

theorem irmsText_named {F : Family V} {irms : FMap Int (IRM F)} {e : Encoding} (hT : ∀ tb I, irms.find? tb = some I → Tidy I.doms) :
    ∀ (l : List (Int × FSet Int)) (t : Tape) (x : List Char × Tape), irmsText irms e l t = .ok x →
    ∀ tb I, tb ∈ l.map Prod.fst → irms.find? tb = some I → Nameable I.doms e := by
  intro l
  induction l with
  | nil => intro t x _ tb I h; cases h
  | cons y l ih =>
    obtain ⟨tb', s⟩ := y
    intro t x h tb I hm hI
    obtain ⟨I', h1, h2⟩ := bind_ok.mp h
    obtain ⟨⟨here, t1⟩, h3, h4⟩ := bind_ok.mp h2
    obtain ⟨⟨rest, t2⟩, h5, h6⟩ := bind_ok.mp h4
    rcases List.mem_cons.mp hm with he | hm
    · have he : tb = tb' := he
      subst he
      rw [FMap.atKey_of_find hI] at h1
      cases h1
      exact (irmText_ok_iff (hT _ _ hI) e t).mp ⟨_, _, h3⟩
    · exact ih _ _ h5 tb I hm hI

theorem hirmText_ok_iff {F : Family V} {H : HIRM F} (hC : H.Consistent) (hcrp : TidyCRP H.crp)
    (hT : ∀ tb I, H.irms.find? tb = some I → Tidy I.doms) (e : Encoding) (t : Tape) :
    (∃ text t', hirmText H e t = .ok (text, t')) ↔ ∀ tb I, H.irms.find? tb = some I → Nameable I.doms e := by
  constructor
  · rintro ⟨text, t', h⟩ tb I hI
    obtain ⟨x, h1, h2⟩ := bind_ok.mp h
    obtain ⟨y, h3, h4⟩ := bind_ok.mp h2
    refine irmsText_named hT _ _ _ h3 tb I ?_ hI
    have : H.crp.tables.contains tb = true := by rw [hC.tables]; exact FMap.contains_iff.mpr ⟨I, hI⟩
    exact FMap.contains_iff_mem.mp this
  · intro h
    obtain ⟨r, t1, h1⟩ := relClustersText_ex (c2r := H.codeToRel) H.crp.tables.entries t (by
      intro x hx c hc
      have hs := FMap.mem_entries.mp hx
      have ha := (hcrp.1 c x.1).mpr ⟨x.2, hs, hc⟩
      obtain ⟨n, hn⟩ := (hC.customers c).mp ⟨_, ha⟩
      exact ⟨n, (hC.codes n c).mp hn⟩)
    obtain ⟨i, t2, h2⟩ := irmsText_ex hT h H.crp.tables.entries t1 (by
      intro x hx
      rw [← hC.tables]
      exact FMap.contains_iff.mpr ⟨x.2, FMap.mem_entries.mp hx⟩)
    have : ∃ x, hirmText H e t = .ok x := by
      rw [hirmText, h1]
      simp only [bind, Except.bind, h2]
      exact ⟨_, rfl⟩
    obtain ⟨x, hx⟩ := this
    exact ⟨x.1, x.2, hx⟩

end UtilIO
end Verif
