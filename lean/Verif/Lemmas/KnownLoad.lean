import Verif.Lemmas.Known
/-!
`from_txt` (util_io.cc:668-717): the HIRM it makes is consistent, and the entities it seats are those that have a code in the encoding of `from_txt`.
-/
namespace Verif
noncomputable section
variable {V : Type} {F : Family V} {Q : String → Int → Prop}

theorem SeatedIn.place {d : String} {dom dom' : Domain} {i table : Int} {t t' : Tape} (h : SeatedIn Q d dom) (hq : Q d i) (ht : 0 ≤ table)
    (hc : dom.incorporate i t table = .ok (dom', t')) : SeatedIn Q d dom' := by
  obtain ⟨⟨h0, h1, h2⟩, h3⟩ := h
  have hne : table ≠ -1 := by omega
  cases hi : dom.items.contains i with
  | true => rw [Domain.incorporate_present_table hi t hne] at hc; cases hc
  | false =>
    rw [Domain.incorporate_new h1 hi] at hc
    have hw := h1.incState hi (dom.chosenTable t table).1
    cases hc
    have hch : (dom.chosenTable t table).1 = table := by unfold Domain.chosenTable; rw [if_pos ht]
    refine ⟨⟨h0, hw, fun j tb hj => ?_⟩, fun j hj => ?_⟩
    · rw [hch] at hj
      have hj : (dom.crp.assignments.set i table).find? j = some tb := hj
      rw [FMap.find?_set] at hj
      split at hj
      · cases hj; exact ht
      · exact h2 _ _ hj
    · have hj : (FSet.insert dom.items i).contains j = true := hj
      rw [FMap.contains_iff_mem, FSet.mem_insert] at hj
      rcases hj with rfl | hj
      · exact hq
      · exact h3 j (FMap.contains_iff_mem.mpr hj)

namespace UtilIO

theorem seatItems_seated {enc : Encoding} (hbij : ∀ d x c, Encoding.code enc d x = some c → Q d c) {d : String} {table : Int} (ht : 0 ≤ table) :
    ∀ (l : List String) (σ : Doms) (t : Tape) (x : Doms × Tape), DomAll (SeatedIn Q) σ → seatItems enc.fwd d table l σ t = .ok x → DomAll (SeatedIn Q) x.1 := by
  intro l
  induction l with
  | nil => intro σ t x h hc; cases hc; exact h
  | cons item l ih =>
    intro σ t x h hc
    obtain ⟨m, h1, hc⟩ := bind_ok.mp hc
    obtain ⟨c, h2, hc⟩ := bind_ok.mp hc
    obtain ⟨dom, h3, hc⟩ := bind_ok.mp hc
    obtain ⟨⟨dom', t'⟩, h4, hc⟩ := bind_ok.mp hc
    refine ih _ _ _ (h.set ?_) hc
    refine (h _ _ (FMap.atKey_ok.mp h3)).place (hbij d item c ?_) ht h4
    unfold Encoding.code
    rw [FMap.atKey_ok.mp h1]
    exact FMap.atKey_ok.mp h2

theorem seatTables_seated {enc : Encoding} (hbij : ∀ d x c, Encoding.code enc d x = some c → Q d c) {d : String} :
    ∀ (l : List (Int × List String)) (σ : Doms) (t : Tape) (x : Doms × Tape), DomAll (SeatedIn Q) σ → seatTables enc.fwd d l σ t = .ok x → DomAll (SeatedIn Q) x.1 := by
  intro l
  induction l with
  | nil => intro σ t x h hc; cases hc; exact h
  | cons e l ih =>
    obtain ⟨table, items⟩ := e
    intro σ t x h hc
    obtain ⟨_, h0, hc⟩ := bind_ok.mp hc
    obtain ⟨⟨σ', t'⟩, h1, hc⟩ := bind_ok.mp hc
    exact ih _ _ _ (seatItems_seated hbij (of_decide_eq_true (assertR_ok.mp h0)) _ _ _ _ h h1) hc

theorem seatClusters_seated {enc : Encoding} (hbij : ∀ d x c, Encoding.code enc d x = some c → Q d c) :
    ∀ (l : List (String × FMap Int (List String))) (σ : Doms) (t : Tape) (x : Doms × Tape), DomAll (SeatedIn Q) σ → seatClusters enc.fwd l σ t = .ok x →
      DomAll (SeatedIn Q) x.1 := by
  intro l
  induction l with
  | nil => intro σ t x h hc; cases hc; exact h
  | cons e l ih =>
    obtain ⟨d, tables⟩ := e
    intro σ t x h hc
    obtain ⟨_, _, hc⟩ := bind_ok.mp hc
    obtain ⟨_, _, hc⟩ := bind_ok.mp hc
    obtain ⟨⟨σ', t'⟩, h1, hc⟩ := bind_ok.mp hc
    exact ih _ _ _ (seatTables_seated hbij _ _ _ _ h h1) hc

end UtilIO

namespace HIRM

/-- Moving a relation to a given table keeps all values. -/
theorem setClusterAssignmentGibbs_tidy {H H' : HIRM F} (h : H.Tidy) {r : String} {table : Int} {t t' : Tape}
    (hc : H.setClusterAssignmentGibbs r table t = .ok (H', t')) : H'.Tidy := by
  refine ⟨(setClusterAssignmentGibbs_skel h.skel hc).1, ?_⟩
  obtain ⟨_, _, hc⟩ := bind_ok.mp hc
  obtain ⟨rc, h1, hc⟩ := bind_ok.mp hc
  obtain ⟨cur, h2, hc⟩ := bind_ok.mp hc
  obtain ⟨⟨p, rel⟩, h0, hc⟩ := bind_ok.mp hc
  obtain ⟨spec, h3, hc⟩ := bind_ok.mp hc
  obtain ⟨I0, h4, hc⟩ := bind_ok.mp hc
  obtain ⟨I1, h5, hc⟩ := bind_ok.mp hc
  obtain ⟨I2, h6, hc⟩ := bind_ok.mp hc
  obtain ⟨⟨I3, t3⟩, h7, hc⟩ := bind_ok.mp hc
  obtain ⟨c1, h8, hc⟩ := bind_ok.mp hc
  obtain ⟨c2, h9, hc⟩ := bind_ok.mp hc
  obtain ⟨H2, h10, hc⟩ := bind_ok.mp hc
  obtain ⟨_, _, hc⟩ := bind_ok.mp hc
  cases hc
  have hI1 : I1.Tidy := IRM.removeRelation_tidy h5 (h.irms _ _ (FMap.atKey_ok.mp h4))
  have ha : ∀ tb I, (if I1.rels.size = 0 then H.irms.erase cur else H.irms.set cur I1).find? tb = some I → I.Tidy := by
    intro tb I hI
    split at hI
    · rw [FMap.find?_erase] at hI
      split at hI
      · cases hI
      · exact h.irms _ _ hI
    · rw [FMap.find?_set] at hI
      split at hI
      · cases hI; exact hI1
      · exact h.irms _ _ hI
  have hb : ∀ m : FMap Int (IRM F), (∀ tb I, m.find? tb = some I → I.Tidy) →
      ∀ tb I, (if m.contains table then m else m.set table {}).find? tb = some I → I.Tidy := by
    intro m hm tb I hI
    split at hI
    · exact hm _ _ hI
    · rw [FMap.find?_set] at hI
      split at hI
      · cases hI; intro n x hx; cases hx
      · exact hm _ _ hI
  have hI3 : I3.Tidy := putRelation_tidy h7 (hb _ ha _ _ (FMap.atKey_ok.mp h6))
  have hn := updateBase_next (P := fun _ => False) h10
  intro tb J hJ
  cases hI : ((if (if I1.rels.size = 0 then H.irms.erase cur else H.irms.set cur I1).contains table then
      (if I1.rels.size = 0 then H.irms.erase cur else H.irms.set cur I1) else
      (if I1.rels.size = 0 then H.irms.erase cur else H.irms.set cur I1).set table {}).set table I3).find? tb with
  | none => rw [hn.none tb hI] at hJ; cases hJ
  | some I =>
    obtain ⟨I₁, q1, q2⟩ := hn.some tb I hI
    rw [hJ] at q1; cases q1
    refine q2.tidy ?_
    rw [FMap.find?_set] at hI
    split at hI
    · cases hI; exact hI3
    · exact hb _ ha _ _ hI

theorem Known.set {H H' : HIRM F} (h : Known Q H) {r : String} {table : Int} {t t' : Tape} (hc : H.setClusterAssignmentGibbs r table t = .ok (H', t')) : Known Q H' := by
  obtain ⟨_, hm⟩ := setClusterAssignmentGibbs_skel h.tidy.skel hc
  refine ⟨setClusterAssignmentGibbs_tidy h.tidy hc, ?_, fun n spec k hs hk => ?_, by rw [hm.baseToNoisy, hm.schema]; exact h.links⟩
  · refine (setClusterAssignmentGibbs_keeps (seatedIn_closed Q) hc (fun spec x hs hx k hk => ?_)).all h.seats
    obtain ⟨_, _, _, _, hd⟩ := h.tidy.relOf hx
    refine h.tuples r spec k hs ?_
    unfold stores; rw [hd]; exact hk
  · rw [hm.schema] at hs
    rw [stores_congr (hm.data n)] at hk
    exact h.tuples n spec k hs hk

/-- other domains in an IRM -/
theorem Known.reseat {H : HIRM F} (h : Known Q H) {table : Int} {I : IRM F} (hI : H.irms.find? table = some I) {σ : Doms} (hσ : DomAll (SeatedIn Q) σ) :
    Known Q { H with irms := H.irms.set table { I with doms := σ } } := by
  have hn : Next (fun _ => False) H { H with irms := H.irms.set table { I with doms := σ } } := by
    refine ⟨rfl, rfl, rfl, rfl, rfl, fun tb htb => ?_, fun tb J hJ => ?_⟩
    · show (H.irms.set table _).find? tb = none
      rw [FMap.find?_set, if_neg (by rintro rfl; rw [hI] at htb; cases htb)]
      exact htb
    · show ∃ J', (H.irms.set table _).find? tb = some J' ∧ _
      rw [FMap.find?_set]
      split
      · rename_i e
        subst e
        rw [hI] at hJ
        cases hJ
        exact ⟨_, rfl, rfl, fun _ hx => hx, fun _ x hx => ⟨x, hx, .refl _, fun _ => rfl⟩⟩
      · exact ⟨J, hJ, .refl J⟩
  refine h.next hn ⟨fun hs tb J hJ => ?_⟩
  have hJ : (H.irms.set table { I with doms := σ }).find? tb = some J := hJ
  rw [FMap.find?_set] at hJ
  split at hJ
  · cases hJ; exact hσ
  · exact hs tb J hJ

end HIRM

namespace UtilIO
open HIRM

/-- what holds while `from_txt` works -/
structure Loading (Q : String → Int → Prop) (H : HIRM F) : Prop where
  known : HIRM.Known Q H
  tables : From (-1) H

theorem addAside_loading : ∀ (l : List (String × RelSpec F)) (H : HIRM F) (t : Tape) (x : HIRM F × Tape), Loading Q H → addAside l H t = .ok x →
    Loading Q x.1 ∧ ∀ n spec, x.1.schema.find? n = some spec → H.schema.find? n = some spec ∨ (n, spec) ∈ l := by
  intro l
  induction l with
  | nil => intro H t x h hc; cases hc; exact ⟨h, fun n spec hs => .inl hs⟩
  | cons e l ih =>
    obtain ⟨r, spec⟩ := e
    intro H t x h hc
    obtain ⟨⟨H₁, t₁⟩, h1, hc⟩ := bind_ok.mp hc
    obtain ⟨_, _, hc⟩ := bind_ok.mp hc
    obtain ⟨⟨H₂, t₂⟩, h2, hc⟩ := bind_ok.mp hc
    have k1 := h.known.add h1
    have k2 := k1.set h2
    have f1 := h.tables.add (by omega) h.known.tidy.skel h1
    obtain ⟨a, b⟩ := ih _ _ _ ⟨k2, f1.set (le_refl _) h2⟩ hc
    refine ⟨a, fun n sp hs => ?_⟩
    rcases b n sp hs with hs | hs
    · rw [(setClusterAssignmentGibbs_skel k1.tidy.skel h2).2.schema, (addRelation_inv h1).2.1, FMap.find?_set] at hs
      split at hs
      · rename_i e; subst e; cases hs; exact .inr (by simp)
      · exact .inl hs
    · exact .inr (by simp [hs])

theorem moveAll_loading {table : Int} (ht : -1 ≤ table) : ∀ (l : List String) (H : HIRM F) (t : Tape) (x : HIRM F × Tape), Loading Q H →
    moveAll table l H t = .ok x → Loading Q x.1 ∧ x.1.schema = H.schema := by
  intro l
  induction l with
  | nil => intro H t x h hc; cases hc; exact ⟨h, rfl⟩
  | cons r l ih =>
    intro H t x h hc
    obtain ⟨_, _, hc⟩ := bind_ok.mp hc
    obtain ⟨cur, _, hc⟩ := bind_ok.mp hc
    split at hc
    · obtain ⟨_, _, hc⟩ := bind_ok.mp hc
      obtain ⟨⟨H₁, t₁⟩, h1, hc⟩ := bind_ok.mp hc
      obtain ⟨a, b⟩ := ih _ _ _ ⟨h.known.set h1, h.tables.set ht h1⟩ hc
      exact ⟨a, b.trans (setClusterAssignmentGibbs_skel h.known.tidy.skel h1).2.schema⟩
    · exact ih _ _ _ h hc

theorem seatIrms_loading {enc : Encoding} (hbij : ∀ d x c, Encoding.code enc d x = some c → Q d c) {irms : FMap Int Clusters} :
    ∀ (l : List (Int × List String)) (H : HIRM F) (t : Tape) (x : HIRM F × Tape), (∀ e ∈ l, -1 ≤ e.1) → Loading Q H → seatIrms enc.fwd irms l H t = .ok x →
      Loading Q x.1 ∧ x.1.schema = H.schema := by
  intro l
  induction l with
  | nil => intro H t x _ h hc; cases hc; exact ⟨h, rfl⟩
  | cons e l ih =>
    obtain ⟨table, rs⟩ := e
    intro H t x hl h hc
    obtain ⟨_, _, hc⟩ := bind_ok.mp hc
    obtain ⟨⟨H₁, t₁⟩, h1, hc⟩ := bind_ok.mp hc
    obtain ⟨I, h2, hc⟩ := bind_ok.mp hc
    obtain ⟨cl, _, hc⟩ := bind_ok.mp hc
    obtain ⟨_, _, hc⟩ := bind_ok.mp hc
    obtain ⟨⟨σ, t₂⟩, h3, hc⟩ := bind_ok.mp hc
    obtain ⟨k1, k2⟩ := moveAll_loading (hl (table, rs) (by simp)) _ _ _ _ h h1
    have hI := FMap.atKey_ok.mp h2
    obtain ⟨a, b⟩ := ih _ _ _ (fun e he => hl e (by simp [he]))
      ⟨k1.known.reseat hI (seatClusters_seated hbij _ _ _ _ (k1.known.seats _ _ hI) h3), k1.tables⟩ hc
    exact ⟨a, b.trans k2⟩

theorem hirmFromTxt_known {parse : F.C ⊕ F.E → String → Res V} {schema : Schema F} {obs : ObsMap String} {relations : FMap Int (List String)}
    {irms : FMap Int Clusters} {t : Tape} {x : HIRM F × Tape}
    (hp : ∀ n spec b sp, schema.find? n = some spec → spec.base? = some b → schema.find? b = some sp → sp.doms <+: spec.doms)
    (hr : ∀ tb, relations.contains tb = true → 0 ≤ tb) (hc : hirmFromTxt parse schema obs relations irms t = .ok x) :
    ∃ enc t', calculateEncoding schema obs t = .ok (enc, t') ∧
      ((∀ d x c, Encoding.code enc d x = some c → HasName enc d c) → HIRM.Known (HasName enc) x.1 ∧ From 0 x.1 ∧
        ∀ n spec, x.1.schema.find? n = some spec → schema.find? n = some spec) := by
  obtain ⟨⟨enc, t1⟩, h1, hc⟩ := bind_ok.mp hc
  obtain ⟨⟨H₁, t₂⟩, h2, hc⟩ := bind_ok.mp hc
  obtain ⟨⟨H₂, t₃⟩, h3, hc⟩ := bind_ok.mp hc
  obtain ⟨_, h4, hc⟩ := bind_ok.mp hc
  refine ⟨enc, t1, h1, fun hbij => ?_⟩
  obtain ⟨a, b⟩ := addAside_loading _ _ _ _ ⟨known_empty, fun i tb h => by cases h⟩ h2
  obtain ⟨c, d⟩ := seatIrms_loading hbij _ _ _ _ (fun e he => by
    have := hr e.1 (FMap.contains_iff.mpr ⟨e.2, FMap.mem_entries.mp he⟩); omega) a h3
  have hs : ∀ n spec, H₂.schema.find? n = some spec → schema.find? n = some spec := by
    intro n spec hn
    rw [d] at hn
    rcases b n spec hn with hn | hn
    · cases hn
    · exact FMap.mem_entries.mp hn
  obtain ⟨e, e', g⟩ := c.known.observations hbij (fun n spec b sp h1 h2 h3 => hp n spec b sp (hs _ _ h1) h2 (hs _ _ h3)) hc
  refine ⟨e, fun i tb hi => ?_, fun n spec hn => hs n spec (by rw [← e']; exact hn)⟩
  rw [g] at hi
  have hge := c.tables i tb hi
  by_contra hlt
  have : tb = -1 := by omega
  subst this
  have hno : H₂.irms.contains (-1) = false := by
    have := assertR_ok.mp h4
    cases hcn : H₂.irms.contains (-1) with
    | false => rfl
    | true => rw [hcn] at this; cases this
  rw [c.known.tidy.skel.tables] at hno
  obtain ⟨s, hs', _⟩ := (c.known.tidy.skel.crp.mem i (-1)).mp hi
  rw [FMap.contains_false.mp hno] at hs'
  cases hs'

end UtilIO
end
end Verif
