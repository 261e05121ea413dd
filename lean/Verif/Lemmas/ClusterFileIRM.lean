import Verif.Lemmas.ClusterFile
namespace Verif
variable {V : Type}
namespace UtilIO
open Text

theorem Tidy.inCluster {σ : Doms} (h : Tidy σ) {d : String} {dom : Domain} (hd : σ.find? d = some dom) {tb i : Int} :
    InCluster σ d tb i ↔ ∃ s, dom.crp.tables.find? tb = some s ∧ i ∈ s.keys := by
  constructor
  · rintro ⟨dom', h1, h2⟩
    rw [hd] at h1
    cases h1
    exact ((h d dom hd).2.1 i tb).mp h2
  · intro h'
    exact ⟨dom, hd, ((h d dom hd).2.1 i tb).mpr h'⟩

/-- the rows of an IRM -/
theorem irmRows {F : Family V} {I : IRM F} {e : Encoding} {t t' : Tape} {txt : List Char} (hT : Tidy I.doms)
    (h : irmText I e t = .ok (txt, t')) :
    ∃ rows : List CRow, txt = rows.flatMap (fun r => r.line ++ ['\n']) ∧ (rows.map (fun r => (r.d, r.tb))).Nodup ∧
      (∀ r ∈ rows, ∃ dom s, I.doms.find? r.d = some dom ∧ dom.crp.tables.find? r.tb = some s ∧ r.Good e s) ∧
      ∀ d dom tb s, I.doms.find? d = some dom → dom.crp.tables.find? tb = some s → ∃ r ∈ rows, r.d = d ∧ r.tb = tb ∧ r.Good e s := by
  have hperm := shuffle_perm I.doms.entries t
  have hmem : ∀ x, x ∈ (shuffle I.doms.entries t).1 ↔ I.doms.find? x.1 = some x.2 := fun x => hperm.mem_iff.trans FMap.mem_entries
  have hnd : ((shuffle I.doms.entries t).1.map Prod.fst).Nodup := (hperm.map Prod.fst).nodup_iff.mpr I.doms.nodupKeys
  unfold irmText at h
  have h : domainsText e (shuffle I.doms.entries t).1 (shuffle I.doms.entries t).2 = .ok (txt, t') := h
  obtain ⟨rows, rfl, h1, h2⟩ := domainsText_ok h
  set l := (shuffle I.doms.entries t).1 with hl
  have h3 : ∀ r ∈ rows, ∃ dom s, I.doms.find? r.d = some dom ∧ dom.crp.tables.find? r.tb = some s ∧ r.Good e s := by
    intro r hr
    obtain ⟨x, hx, h4, s, h5, h6⟩ := h2 r hr
    have hf := (hmem x).mp hx
    exact ⟨x.2, s, by rw [h4, (hT _ _ hf).1, hf], h5, h6⟩
  refine ⟨rows, rfl, ?_, h3, ?_⟩
  · rw [h1, List.nodup_flatMap]
    refine ⟨?_, ?_⟩
    · intro x _
      have : x.2.crp.tables.entries.map (fun y => (x.2.name, y.1)) = x.2.crp.tables.keys.map (fun k => (x.2.name, k)) := by
        simp [FMap.keys, List.map_map, Function.comp_def]
      rw [this]
      exact (FMap.nodupKeys x.2.crp.tables).map (fun a b hab => (Prod.mk.inj hab).2)
    · have hp : l.Pairwise (fun a b => a.1 ≠ b.1) := by
        rw [← List.pairwise_map (f := Prod.fst) (R := fun a b => a ≠ b)]
        exact hnd
      refine List.Pairwise.imp_of_mem ?_ hp
      intro a b ha hb hne p hp1 hp2
      obtain ⟨y, _, rfl⟩ := List.mem_map.mp hp1
      obtain ⟨z, _, hz⟩ := List.mem_map.mp hp2
      have := (Prod.mk.inj hz).1
      rw [(hT _ _ ((hmem a).mp ha)).1, (hT _ _ ((hmem b).mp hb)).1] at this
      exact hne this.symm
  · intro d dom tb s hd hs
    have hmemr : (d, tb) ∈ rows.map (fun r => (r.d, r.tb)) := by
      rw [h1, List.mem_flatMap]
      refine ⟨(d, dom), (hmem (d, dom)).mpr hd, List.mem_map.mpr ⟨(tb, s), FMap.mem_entries.mpr hs, ?_⟩⟩
      simp only
      rw [(hT d dom hd).1]
    obtain ⟨r, hr, hrd⟩ := List.mem_map.mp hmemr
    obtain ⟨h4, h5⟩ := Prod.mk.inj hrd
    obtain ⟨dom', s', h6, h7, h8⟩ := h3 r hr
    rw [h4, hd] at h6
    cases h6
    rw [h5, hs] at h7
    cases h7
    exact ⟨r, hr, h4, h5, h8⟩

theorem irmRows_readable {F : Family V} {I : IRM F} {e : Encoding} (hT : Tidy I.doms) (hW : Wordy I.doms e) {r : CRow} {dom : Domain} {s : FSet Int}
    (h1 : I.doms.find? r.d = some dom) (h2 : dom.crp.tables.find? r.tb = some s) (h3 : r.Good e s) : r.Readable := by
  obtain ⟨i, hi⟩ := (hT _ _ h1).2.2 _ _ h2
  have hin : ∀ i ∈ s.keys, InCluster I.doms r.d r.tb i := fun i hi => (hT.inCluster h1).mpr ⟨s, h2, hi⟩
  refine ⟨(hW _ _ _ (hin i hi)).1, fun x hx => ?_, ?_, h3.length⟩
  · obtain ⟨j, hj, hx⟩ := (h3.mem x).mp hx
    exact (hW _ _ _ (hin j hj)).2 x hx
  · obtain ⟨x, hx⟩ := h3.named i hi
    exact List.ne_nil_of_mem ((h3.mem x).mpr ⟨i, hi, hx⟩)

theorem irmRows_saved {F : Family V} {I : IRM F} {e : Encoding} (hT : Tidy I.doms) {rows : List CRow} (hnd : (rows.map (fun r => (r.d, r.tb))).Nodup)
    (h1 : ∀ r ∈ rows, ∃ dom s, I.doms.find? r.d = some dom ∧ dom.crp.tables.find? r.tb = some s ∧ r.Good e s)
    (h2 : ∀ d dom tb s, I.doms.find? d = some dom → dom.crp.tables.find? tb = some s → ∃ r ∈ rows, r.d = d ∧ r.tb = tb ∧ r.Good e s) :
    Saved I.doms e (rows.foldl (fun c r => r.add c) ∅) := by
  have hnone : ∀ d tb, look ∅ d tb = none := fun d tb => rfl
  have hlook := look_foldl rows ∅ hnd (fun r _ => hnone r.d r.tb)
  have hlook : ∀ d tb l, look (rows.foldl (fun c r => r.add c) ∅) d tb = some l ↔ ∃ r ∈ rows, r.d = d ∧ r.tb = tb ∧ r.names = l := by
    intro d tb l
    rw [hlook, hnone]
    simp
  refine ⟨fun d tb x => ?_, fun d tb => ?_, fun d m tb l hm hl => ?_, foldl_domain rows ∅ (fun d m h => by cases h)⟩
  · rw [listed_look]
    constructor
    · intro h
      cases hl : look (rows.foldl (fun c r => r.add c) ∅) d tb with
      | none => rw [hl] at h; simp at h
      | some l =>
        rw [hl] at h
        obtain ⟨r, hr, rfl, rfl, rfl⟩ := (hlook d tb l).mp hl
        obtain ⟨dom, s, h3, h4, h5⟩ := h1 r hr
        obtain ⟨i, hi, hx⟩ := (h5.mem x).mp h
        exact ⟨i, (hT.inCluster h3).mpr ⟨s, h4, hi⟩, hx⟩
    · rintro ⟨i, hin, hx⟩
      obtain ⟨dom, hd, _⟩ := id hin
      obtain ⟨s, hs, hi⟩ := (hT.inCluster hd).mp hin
      obtain ⟨r, hr, h4, h5, h6⟩ := h2 d dom tb s hd hs
      rw [(hlook d tb r.names).mpr ⟨r, hr, h4, h5, rfl⟩]
      exact (h6.mem x).mpr ⟨i, hi, by rw [h4]; exact hx⟩
  · rw [listed_look]
    cases hl : look (rows.foldl (fun c r => r.add c) ∅) d tb with
    | none => simp
    | some l =>
      obtain ⟨r, hr, rfl, rfl, rfl⟩ := (hlook d tb l).mp hl
      obtain ⟨dom, s, h3, h4, h5⟩ := h1 r hr
      exact h5.nodup
  · have : look (rows.foldl (fun c r => r.add c) ∅) d tb = some l := by
      unfold look
      rw [hm]
      exact hl
    obtain ⟨r, hr, rfl, rfl, rfl⟩ := (hlook d tb l).mp this
    obtain ⟨dom, s, h3, h4, h5⟩ := h1 r hr
    obtain ⟨i, hi⟩ := (hT _ _ h3).2.2 _ _ h4
    obtain ⟨x, hx⟩ := h5.named i hi
    exact List.ne_nil_of_mem ((h5.mem x).mpr ⟨i, hi, hx⟩)

theorem rows_lines {rows : List CRow} (h : ∀ r ∈ rows, r.Readable) : lines (rows.flatMap (fun r => r.line ++ ['\n'])) = rows.map CRow.line := by
  have : rows.flatMap (fun r => r.line ++ ['\n']) = (rows.map CRow.line).flatMap (· ++ ['\n']) := by rw [List.flatMap_map]
  rw [this]
  apply lines_flatMap
  intro l hl
  obtain ⟨r, hr, rfl⟩ := List.mem_map.mp hl
  exact clusterLine_newline (h r hr).d (h r hr).names

/-! ### HIRM files -/

/-- a line of a relation cluster -/
structure RRow where
  tb : Int
  n : Nat
  names : List String

def RRow.line (r : RRow) : List Char := intText r.tb ++ ' ' :: joinNames r.n 1 r.names

theorem relNames_ok {c2r : FMap Int String} : ∀ {cs : List Int} {ns : List String}, relNames c2r cs = .ok ns ↔ List.Forall₂ (fun c n => c2r.find? c = some n) cs ns := by
  intro cs
  induction cs with
  | nil =>
    intro ns
    constructor
    · intro h; cases h; exact .nil
    · intro h; cases h; rfl
  | cons c cs ih =>
    intro ns
    rw [relNames, bind_ok]
    constructor
    · rintro ⟨n, h1, h2⟩
      obtain ⟨rest, h3, h4⟩ := bind_ok.mp h2
      cases h4
      exact .cons (FMap.atKey_ok.mp h1) (ih.mp h3)
    · intro h
      cases h with
      | cons h1 h2 => exact ⟨_, FMap.atKey_of_find h1, bind_ok.mpr ⟨_, ih.mpr h2, rfl⟩⟩

theorem relClustersText_ok {c2r : FMap Int String} : ∀ {l : List (Int × FSet Int)} {t t' : Tape} {txt : List Char}, relClustersText c2r l t = .ok (txt, t') →
    ∃ rows : List RRow, txt = rows.flatMap (fun r => r.line ++ ['\n']) ∧ rows.map RRow.tb = l.map Prod.fst ∧
      ∀ r ∈ rows, ∃ s cs, (r.tb, s) ∈ l ∧ cs.Perm s.keys ∧ r.n = cs.length ∧ List.Forall₂ (fun c n => c2r.find? c = some n) cs r.names := by
  intro l
  induction l with
  | nil => intro t t' txt h; cases h; exact ⟨[], rfl, rfl, by simp⟩
  | cons x l ih =>
    obtain ⟨tb, s⟩ := x
    intro t t' txt h
    rw [relClustersText] at h
    obtain ⟨names, h1, h2⟩ := bind_ok.mp h
    obtain ⟨⟨rest, t2⟩, h3, h4⟩ := bind_ok.mp h2
    have h1 : relNames c2r (shuffle s.keys t).1 = .ok names := h1
    cases h4
    obtain ⟨rows, rfl, h5, h6⟩ := ih h3
    have hperm := shuffle_perm s.keys t
    refine ⟨⟨tb, s.size, names⟩ :: rows, by simp [RRow.line], by simp [h5], ?_⟩
    intro r hr
    rcases List.mem_cons.mp hr with rfl | hr
    · refine ⟨s, _, by simp, hperm, ?_, relNames_ok.mp h1⟩
      simp only
      rw [hperm.length_eq]
      exact (List.length_map ..).symm
    · obtain ⟨s', cs, h7, h8⟩ := h6 r hr
      exact ⟨s', cs, by simp [h7], h8⟩

theorem relClustersText_ex {c2r : FMap Int String} : ∀ (l : List (Int × FSet Int)) (t : Tape), (∀ x ∈ l, ∀ c ∈ x.2.keys, ∃ n, c2r.find? c = some n) →
    ∃ txt t', relClustersText c2r l t = .ok (txt, t') := by
  intro l
  induction l with
  | nil => intro t _; exact ⟨_, _, rfl⟩
  | cons x l ih =>
    obtain ⟨tb, s⟩ := x
    intro t h
    have hperm := shuffle_perm s.keys t
    have hex : ∀ cs : List Int, (∀ c ∈ cs, ∃ n, c2r.find? c = some n) → ∃ ns, relNames c2r cs = .ok ns := by
      intro cs
      induction cs with
      | nil => intro _; exact ⟨[], rfl⟩
      | cons c cs ih =>
        intro h
        obtain ⟨n, hn⟩ := h c (by simp)
        obtain ⟨ns, hns⟩ := ih (fun c hc => h c (by simp [hc]))
        exact ⟨n :: ns, relNames_ok.mpr (.cons hn (relNames_ok.mp hns))⟩
    obtain ⟨names, h1⟩ := hex (shuffle s.keys t).1 (fun c hc => h (tb, s) (by simp) c (hperm.mem_iff.mp hc))
    obtain ⟨rest, t2, h2⟩ := ih (shuffle s.keys t).2 (fun x hx => h x (by simp [hx]))
    refine ⟨intText tb ++ ' ' :: joinNames s.size 1 names ++ '\n' :: rest, t2, ?_⟩
    rw [relClustersText]
    exact bind_ok.mpr ⟨names, h1, bind_ok.mpr ⟨(rest, t2), h2, rfl⟩⟩

/-- the lines of the IRMs -/
def blockLines : List (Int × List CRow) → List (List Char)
  | [] => []
  | (tb, rows) :: bs => ("irm=".toList ++ intText tb) :: rows.map CRow.line ++ (if bs = [] then [] else [[]]) ++ blockLines bs

theorem irmsText_ok {F : Family V} {irms : FMap Int (IRM F)} {e : Encoding} (hT : ∀ tb I, irms.find? tb = some I → Tidy I.doms) :
    ∀ {l : List (Int × FSet Int)} {t t' : Tape} {txt : List Char}, irmsText irms e l t = .ok (txt, t') →
    ∃ bs : List (Int × List CRow), txt = (blockLines bs).flatMap (· ++ ['\n']) ∧ bs.map Prod.fst = l.map Prod.fst ∧
      ∀ b ∈ bs, ∃ I, irms.find? b.1 = some I ∧ (b.2.map (fun r => (r.d, r.tb))).Nodup ∧
      (∀ r ∈ b.2, ∃ dom s, I.doms.find? r.d = some dom ∧ dom.crp.tables.find? r.tb = some s ∧ r.Good e s) ∧
      ∀ d dom tb s, I.doms.find? d = some dom → dom.crp.tables.find? tb = some s → ∃ r ∈ b.2, r.d = d ∧ r.tb = tb ∧ r.Good e s := by
  intro l
  induction l with
  | nil => intro t t' txt h; cases h; exact ⟨[], rfl, rfl, by simp⟩
  | cons x l ih =>
    obtain ⟨tb, s⟩ := x
    intro t t' txt h
    rw [irmsText] at h
    obtain ⟨I, h1, h2⟩ := bind_ok.mp h
    obtain ⟨⟨here, t1⟩, h3, h4⟩ := bind_ok.mp h2
    obtain ⟨⟨rest, t2⟩, h5, h6⟩ := bind_ok.mp h4
    cases h6
    have h1 := FMap.atKey_ok.mp h1
    obtain ⟨rows, rfl, h7, h8, h9⟩ := irmRows (hT tb I h1) h3
    obtain ⟨bs, rfl, h10, h11⟩ := ih h5
    have hnil : l = [] ↔ bs = [] := by
      have := congrArg List.length h10
      simp at this
      rw [← List.length_eq_zero_iff, ← List.length_eq_zero_iff, this]
    refine ⟨(tb, rows) :: bs, ?_, by simp [h10], ?_⟩
    · rw [blockLines]
      have hrows : rows.flatMap (fun r => r.line ++ ['\n']) = (rows.map CRow.line).flatMap (· ++ ['\n']) := by rw [List.flatMap_map]
      rw [hrows]
      simp only [List.flatMap_append, List.flatMap_cons, hnil]
      by_cases hb : bs = []
      · simp [hb, blockLines]
      · simp [hb]
    · intro b hb
      rcases List.mem_cons.mp hb with rfl | hb
      · exact ⟨I, h1, h7, h8, h9⟩
      · exact h11 b hb

end UtilIO
end Verif
