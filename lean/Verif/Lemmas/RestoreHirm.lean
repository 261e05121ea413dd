import Verif.Lemmas.RestoreHosts
import Verif.Lemmas.HIRMMk
/-!
`from_txt` (util_io.cc:668-717) for an HIRM: where the relations and the entities are.
-/
namespace Verif
noncomputable section
variable {V : Type} {F : Family V}
open UtilIO
namespace HIRM

theorem updateBase_irm_doms {r : String} {H H' : HIRM F} (hc : H.updateBase r = .ok H') (tb : Int) :
    (H'.irms.find? tb).map (·.doms) = (H.irms.find? tb).map (·.doms) := by
  have key : ∀ (l : List String) (H H' : HIRM F), updateLoop r l H = .ok H' → (H'.irms.find? tb).map (·.doms) = (H.irms.find? tb).map (·.doms) := by
    intro l
    induction l with
    | nil => intro H H' hc; cases hc; rfl
    | cons n l ih =>
      intro H H' hc
      obtain ⟨⟨tb', I⟩, h1, h2⟩ := bind_ok.mp hc
      obtain ⟨⟨id, rel⟩, h3, h4⟩ := bind_ok.mp h2
      cases rel with
      | clean c q => cases h4
      | noisy e p q =>
        obtain ⟨_, _, h5⟩ := bind_ok.mp h4
        rw [ih _ _ h5]
        show ((H.irms.set tb' _).find? tb).map _ = _
        rw [FMap.find?_set]
        split
        · rename_i e
          subst e
          rw [(relationToIrm_ok.mp h1).2]; rfl
        · rfl
  unfold updateBase at hc
  split at hc
  · cases hc; rfl
  · exact key _ _ _ hc

/-- moving a relation without tuples: the other clusters keep their domains, and the two clusters seat nobody if nobody was there -/
theorem set_doms {H H' : HIRM F} {r : String} {table cur : Int} {t t' : Tape} (hc : H.setClusterAssignmentGibbs r table t = .ok (H', t'))
    (hcur : H.tableOf r = some cur) (h0 : ∀ k, ¬ H.stores r k = true) :
    (∀ tb, tb ≠ cur → tb ≠ table → (H'.irms.find? tb).map (·.doms) = (H.irms.find? tb).map (·.doms)) ∧
    ((∀ I, H.irms.find? cur = some I → DomAll (SeatedIn (fun _ _ => False)) I.doms) →
      (∀ I, H.irms.find? table = some I → DomAll (SeatedIn (fun _ _ => False)) I.doms) →
      ∀ tb I, tb = cur ∨ tb = table → H'.irms.find? tb = some I → DomAll (SeatedIn (fun _ _ => False)) I.doms) := by
  obtain ⟨_, _, hc⟩ := bind_ok.mp hc
  obtain ⟨rc, h1, hc⟩ := bind_ok.mp hc
  obtain ⟨cur', h2, hc⟩ := bind_ok.mp hc
  obtain ⟨⟨p, rel⟩, hg, hc⟩ := bind_ok.mp hc
  obtain ⟨spec, h3, hc⟩ := bind_ok.mp hc
  obtain ⟨I0, h4, hc⟩ := bind_ok.mp hc
  obtain ⟨I1, h5, hc⟩ := bind_ok.mp hc
  obtain ⟨I2, h6, hc⟩ := bind_ok.mp hc
  obtain ⟨⟨I3, t3⟩, h7, hc⟩ := bind_ok.mp hc
  obtain ⟨c1, h8, hc⟩ := bind_ok.mp hc
  obtain ⟨c2, h9, hc⟩ := bind_ok.mp hc
  obtain ⟨H2, h10, hc⟩ := bind_ok.mp hc
  obtain ⟨_, _, hc⟩ := bind_ok.mp hc
  cases hc
  have e : cur' = cur := by
    have : H.tableOf r = some cur' := by
      unfold tableOf
      rw [FMap.atKey_ok.mp h1]
      exact FMap.atKey_ok.mp h2
    rw [hcur] at this; cases this; rfl
  subst e
  have hdata : ∀ k, ¬ rel.data.contains k = true := by
    intro k hk
    obtain ⟨tb, id, g, _⟩ := getRelation_ok.mp hg
    refine h0 k ?_
    unfold stores dataOf
    rw [g]
    exact hk
  refine ⟨fun tb ha hb => ?_, fun hcur htab tb I htb hI => ?_⟩
  · rw [updateBase_irm_doms h10]
    show ((FMap.set _ table I3).find? tb).map _ = _
    rw [FMap.find?_set, if_neg hb]
    have hm : ∀ m : FMap Int (IRM F), (if m.contains table then m else m.set table {}).find? tb = m.find? tb := by
      intro m
      split
      · rfl
      · rw [FMap.find?_set, if_neg hb]
    rw [hm]
    split
    · rw [FMap.find?_erase, if_neg ha]
    · rw [FMap.find?_set, if_neg ha]
  · have hI1 : DomAll (SeatedIn (fun _ _ => False)) I1.doms := (IRM.removeRelation_keeps h5).all (hcur _ (FMap.atKey_ok.mp h4))
    have ha : ∀ tb I, tb = cur' ∨ tb = table → (if I1.rels.size = 0 then H.irms.erase cur' else H.irms.set cur' I1).find? tb = some I →
        DomAll (SeatedIn (fun _ _ => False)) I.doms := by
      intro tb I ht hI
      split at hI
      · rw [FMap.find?_erase] at hI
        split at hI
        · cases hI
        · rename_i e
          rcases ht with ht | ht
          · exact absurd ht e
          · subst ht; exact htab _ hI
      · rw [FMap.find?_set] at hI
        split at hI
        · cases hI; exact hI1
        · rename_i e
          rcases ht with ht | ht
          · exact absurd ht e
          · subst ht; exact htab _ hI
    have hb : ∀ m : FMap Int (IRM F), (∀ tb I, tb = cur' ∨ tb = table → m.find? tb = some I → DomAll (SeatedIn (fun _ _ => False)) I.doms) →
        ∀ tb I, tb = cur' ∨ tb = table → (if m.contains table then m else m.set table {}).find? tb = some I → DomAll (SeatedIn (fun _ _ => False)) I.doms := by
      intro m hm tb I ht hI
      split at hI
      · exact hm _ _ ht hI
      · rw [FMap.find?_set] at hI
        split at hI
        · cases hI; intro d dom h; cases h
        · exact hm _ _ ht hI
    have hI3 : DomAll (SeatedIn (fun _ _ => False)) I3.doms :=
      (putRelation_keeps (seatedIn_closed (fun _ _ => False)) h7 (fun k hk => absurd hk (hdata k))).all (hb _ ha _ _ (.inr rfl) (FMap.atKey_ok.mp h6))
    have hu := updateBase_irm_doms h10 tb
    rw [hI] at hu
    replace hu : some I.doms = ((FMap.set _ table I3).find? tb).map (·.doms) := hu
    rw [FMap.find?_set] at hu
    split at hu
    · rw [Option.some.inj hu]; exact hI3
    · cases hJ : FMap.find? (if (if I1.rels.size = 0 then H.irms.erase cur' else H.irms.set cur' I1).contains table then
          (if I1.rels.size = 0 then H.irms.erase cur' else H.irms.set cur' I1) else
          (if I1.rels.size = 0 then H.irms.erase cur' else H.irms.set cur' I1).set table {}) tb with
      | none => rw [hJ] at hu; cases hu
      | some J =>
        rw [hJ] at hu
        rw [Option.some.inj hu]
        exact hb _ ha _ _ htb hJ

end HIRM

namespace UtilIO
open HIRM

/-- while the relations are added: they are all aside, and there are no values and no seated entities -/
structure Aside (H : HIRM F) : Prop where
  known : HIRM.Known (fun _ _ => False) H
  named : H.Named
  tables : ∀ n tb, H.tableOf n = some tb → tb = -1
  empty : ∀ n k, ¬ H.stores n k = true

theorem addAside_aside : ∀ (l : List (String × RelSpec F)) (H : HIRM F) (t : Tape) (x : HIRM F × Tape), Aside H → addAside l H t = .ok x →
    Aside x.1 ∧ (∀ n spec, H.schema.find? n = some spec → x.1.schema.find? n = some spec) ∧ ∀ n spec, (n, spec) ∈ l → x.1.schema.find? n = some spec := by
  intro l
  induction l with
  | nil => intro H t x h hc; cases hc; exact ⟨h, fun _ _ h => h, by simp⟩
  | cons e l ih =>
    obtain ⟨r, spec⟩ := e
    intro H t x h hc
    obtain ⟨⟨H₁, t₁⟩, h1, hc⟩ := bind_ok.mp hc
    obtain ⟨_, _, hc⟩ := bind_ok.mp hc
    obtain ⟨⟨H₂, t₂⟩, h2, hc⟩ := bind_ok.mp hc
    have k1 := h.known.add h1
    obtain ⟨_, hm⟩ := setClusterAssignmentGibbs_skel k1.tidy.skel h2
    obtain ⟨tb1, _, htab⟩ := addRelation_tables h.known.tidy.skel h1
    have hdata := addRelation_data h.known.tidy.skel h1
    obtain ⟨hfresh, hsch, _⟩ := addRelation_inv h1
    have ha : Aside H₂ := by
      refine ⟨k1.set h2, (Named.addRelation h1 h.named).set k1 h2, fun n tb hn => ?_, fun n k hk => ?_⟩
      · rw [hm.tables] at hn
        split at hn
        · cases hn; rfl
        · rename_i e
          rw [htab n e] at hn
          exact h.tables n tb hn
      · rw [stores_congr (hm.data n)] at hk
        unfold stores at hk
        rw [hdata] at hk
        split at hk
        · cases hk
        · exact h.empty n k hk
    obtain ⟨a, b, c⟩ := ih _ _ _ ha hc
    refine ⟨a, fun n sp hs => b n sp ?_, fun n sp hs => ?_⟩
    · rw [hm.schema, hsch, FMap.find?_set_ne _ (by rintro rfl; rw [FMap.contains_false] at hfresh; rw [hfresh] at hs; cases hs)]
      exact hs
    · rcases List.mem_cons.mp hs with hs | hs
      · cases hs
        refine b r spec ?_
        rw [hm.schema, hsch, FMap.find?_set_self]
      · exact c n sp hs

/-- while the clusters of the file are made: `D` are those that are done -/
structure Seating (enc : Encoding) (irms : FMap Int Clusters) (D : List (Int × List String)) (H : HIRM F) : Prop where
  known : HIRM.Known (fun _ _ => True) H
  named : H.Named
  empty : ∀ n k, ¬ H.stores n k = true
  free : ∀ tb I, H.irms.find? tb = some I → tb ∉ D.map Prod.fst → DomAll (SeatedIn (fun _ _ => False)) I.doms
  done : ∀ tb rs, (tb, rs) ∈ D → ∃ I cl, H.irms.find? tb = some I ∧ irms.find? tb = some cl ∧ Placed enc cl I.doms
  at_ : ∀ n tb, H.tableOf n = some tb → tb = -1 ∨ ∃ rs, (tb, rs) ∈ D ∧ n ∈ rs
  listed : ∀ tb rs, (tb, rs) ∈ D → ∀ n ∈ rs, H.tableOf n = some tb

/-- while the relations of a cluster are moved -/
structure Moving (enc : Encoding) (irms : FMap Int Clusters) (D : List (Int × List String)) (table : Int) (H : HIRM F) : Prop where
  known : HIRM.Known (fun _ _ => True) H
  named : H.Named
  empty : ∀ n k, ¬ H.stores n k = true
  free : ∀ tb I, H.irms.find? tb = some I → tb ∉ D.map Prod.fst → DomAll (SeatedIn (fun _ _ => False)) I.doms
  done : ∀ tb rs, (tb, rs) ∈ D → ∃ I cl, H.irms.find? tb = some I ∧ irms.find? tb = some cl ∧ Placed enc cl I.doms

theorem moveAll_moving {enc : Encoding} {irms : FMap Int Clusters} {D : List (Int × List String)} {table : Int} (hnew : table ∉ D.map Prod.fst)
    (h1 : (-1 : Int) ∉ D.map Prod.fst) : ∀ (l : List String) (H : HIRM F) (t : Tape) (x : HIRM F × Tape), Moving enc irms D table H →
    (∀ n ∈ l, ∀ tb, H.tableOf n = some tb → tb = -1 ∨ tb = table) → moveAll table l H t = .ok x →
    Moving enc irms D table x.1 ∧ x.1.schema = H.schema ∧ ∀ n tb, x.1.tableOf n = some tb ↔ if n ∈ l then tb = table else H.tableOf n = some tb := by
  intro l
  induction l with
  | nil => intro H t x h _ hc; cases hc; exact ⟨h, rfl, fun n tb => by simp⟩
  | cons r l ih =>
    intro H t x h hl hc
    obtain ⟨_, _, hc⟩ := bind_ok.mp hc
    obtain ⟨cur, hcur, hc⟩ := bind_ok.mp hc
    replace hcur := relationToTable_ok.mp hcur
    split at hc
    · rename_i hne
      obtain ⟨_, _, hc⟩ := bind_ok.mp hc
      obtain ⟨⟨H₁, t₁⟩, h2, hc⟩ := bind_ok.mp hc
      have ecur : cur = -1 := (hl r (by simp) cur hcur).resolve_right hne
      subst ecur
      obtain ⟨_, hm⟩ := setClusterAssignmentGibbs_skel h.known.tidy.skel h2
      obtain ⟨g1, g2⟩ := set_doms h2 hcur (h.empty r)
      have hback : ∀ tb I, tb ≠ -1 → tb ≠ table → H.irms.find? tb = some I → ∃ I', H₁.irms.find? tb = some I' ∧ I'.doms = I.doms := by
        intro tb I ha hb hI
        have := g1 tb ha hb
        rw [hI] at this
        cases hI' : H₁.irms.find? tb with
        | none => rw [hI'] at this; cases this
        | some I' => rw [hI'] at this; exact ⟨I', rfl, Option.some.inj this⟩
      have hmov : Moving enc irms D table H₁ := by
        refine ⟨h.known.set h2, h.named.set h.known h2, fun n k => by rw [stores_congr (hm.data n)]; exact h.empty n k, fun tb I hI hD => ?_, fun tb rs hrs => ?_⟩
        · by_cases ha : tb = -1 ∨ tb = table
          · exact g2 (fun I hI => h.free _ I hI h1) (fun I hI => h.free _ I hI hnew) tb I ha hI
          · rw [not_or] at ha
            have := g1 tb ha.1 ha.2
            rw [hI] at this
            cases hJ : H.irms.find? tb with
            | none => rw [hJ] at this; cases this
            | some J =>
              rw [hJ] at this
              have : I.doms = J.doms := Option.some.inj this
              rw [this]
              exact h.free tb J hJ hD
        · obtain ⟨I, cl, k1, k2, k3⟩ := h.done tb rs hrs
          have hmem : tb ∈ D.map Prod.fst := List.mem_map.mpr ⟨_, hrs, rfl⟩
          obtain ⟨I', k4, k5⟩ := hback tb I (by rintro rfl; exact h1 hmem) (by rintro rfl; exact hnew hmem) k1
          exact ⟨I', cl, k4, k2, by rw [k5]; exact k3⟩
      obtain ⟨a, b, c⟩ := ih _ _ _ hmov (fun n hn tb htb => by
        rw [hm.tables] at htb
        split at htb
        · cases htb; exact .inr rfl
        · exact hl n (by simp [hn]) tb htb) hc
      refine ⟨a, b.trans hm.schema, fun n tb => ?_⟩
      rw [c, hm.tables]
      by_cases e1 : n ∈ l
      · simp [e1]
      · by_cases e2 : n = r
        · subst e2
          simp [e1, eq_comm]
        · simp [e1, e2]
    · rename_i hne
      obtain ⟨a, b, c⟩ := ih _ _ _ h (fun n hn tb htb => hl n (by simp [hn]) tb htb) hc
      refine ⟨a, b, fun n tb => ?_⟩
      rw [c]
      by_cases e1 : n ∈ l
      · simp [e1]
      · by_cases e2 : n = r
        · subst e2
          have : cur = table := not_not.mp hne
          subst this
          simp [e1, hcur, eq_comm]
        · simp [e1, e2]

theorem seatIrms_seating {enc : Encoding} {irms : FMap Int Clusters} : ∀ (l D : List (Int × List String)) (H : HIRM F) (t : Tape) (x : HIRM F × Tape),
    (∀ e ∈ D ++ l, 0 ≤ e.1) → ((D ++ l).map Prod.fst).Nodup → (∀ e ∈ D ++ l, ∀ e' ∈ D ++ l, ∀ n, n ∈ e.2 → n ∈ e'.2 → e.1 = e'.1) →
    Seating enc irms D H → seatIrms enc.fwd irms l H t = .ok x → Seating enc irms (D ++ l) x.1 ∧ x.1.schema = H.schema := by
  intro l
  induction l with
  | nil => intro D H t x _ _ _ h hc; cases hc; rw [List.append_nil]; exact ⟨h, rfl⟩
  | cons e l ih =>
    obtain ⟨table, rs⟩ := e
    intro D H t x h0 hnd hone h hc
    obtain ⟨_, _, hc⟩ := bind_ok.mp hc
    obtain ⟨⟨H₁, t₁⟩, h1, hc⟩ := bind_ok.mp hc
    obtain ⟨I, h2, hc⟩ := bind_ok.mp hc
    obtain ⟨cl, h3, hc⟩ := bind_ok.mp hc
    obtain ⟨_, _, hc⟩ := bind_ok.mp hc
    obtain ⟨⟨σ, t₂⟩, h4, hc⟩ := bind_ok.mp hc
    have hnew : table ∉ D.map Prod.fst := by
      intro hm
      rw [List.map_append, List.nodup_append] at hnd
      exact hnd.2.2 table hm table (by simp) rfl
    have hneg : (-1 : Int) ∉ D.map Prod.fst := by
      intro hm
      obtain ⟨e, he, heq⟩ := List.mem_map.mp hm
      have := h0 e (by simp [he])
      omega
    obtain ⟨a, b, c⟩ := moveAll_moving hnew hneg rs H t _ ⟨h.known, h.named, h.empty, h.free, h.done⟩ (fun n hn tb htb => by
      rcases h.at_ n tb htb with h | ⟨rs', hrs', hn'⟩
      · exact .inl h
      · exact .inr (hone (tb, rs') (by simp [hrs']) (table, rs) (by simp) n hn' hn)) h1
    have hI := FMap.atKey_ok.mp h2
    replace hI : H₁.irms.find? table = some I := hI
    have hfree := a.free table I hI hnew
    have hpl := seatClusters_placed hfree h4
    have hkn : HIRM.Known (fun _ _ => True) { H₁ with irms := H₁.irms.set table { I with doms := σ } } :=
      a.known.reseat hI (seatClusters_seated (fun _ _ _ _ => trivial) _ _ _ _ (a.known.seats _ _ hI) h4)
    have hst : ∀ n k, ¬ stores { H₁ with irms := H₁.irms.set table { I with doms := σ } } n k = true := by
      intro n k hk
      refine a.empty n k ?_
      rw [← hk]
      refine (stores_congr ?_ k).symm
      unfold dataOf relOf
      cases hT : H₁.tableOf n with
      | none =>
        have : tableOf { H₁ with irms := H₁.irms.set table { I with doms := σ } } n = none := hT
        rw [this]; rfl
      | some u =>
        have : tableOf { H₁ with irms := H₁.irms.set table { I with doms := σ } } n = some u := hT
        rw [this]
        show Option.map _ (Option.bind ((H₁.irms.set table _).find? u) _) = Option.map _ (Option.bind (H₁.irms.find? u) _)
        rw [FMap.find?_set]
        split
        · rename_i e; subst e; rw [hI]; rfl
        · rfl
    have hseat : Seating enc irms (D ++ [(table, rs)]) { H₁ with irms := H₁.irms.set table { I with doms := σ } } := by
      refine ⟨hkn, a.named.setIrm (fun n x hx => a.named table I hI n x hx), hst, fun tb J hJ hD => ?_, fun tb rs' hrs' => ?_, fun n tb hn => ?_, fun tb rs' hrs' n hn => ?_⟩
      · rw [List.map_append, List.mem_append, not_or] at hD
        have e : tb ≠ table := fun e => hD.2 (by simp [e])
        replace hJ : (H₁.irms.set table _).find? tb = some J := hJ
        rw [FMap.find?_set, if_neg e] at hJ
        exact a.free tb J hJ hD.1
      · rcases List.mem_append.mp hrs' with hrs' | hrs'
        · obtain ⟨J, cl', k1, k2, k3⟩ := a.done tb rs' hrs'
          refine ⟨J, cl', ?_, k2, k3⟩
          show (H₁.irms.set table _).find? tb = _
          rw [FMap.find?_set, if_neg (fun e => hnew (List.mem_map.mpr ⟨_, hrs', e⟩))]
          exact k1
        · simp only [List.mem_cons, List.not_mem_nil, or_false, Prod.mk.injEq] at hrs'
          obtain ⟨rfl, rfl⟩ := hrs'
          exact ⟨_, cl, FMap.find?_set_self _ _ _, FMap.atKey_ok.mp h3, hpl⟩
      · replace hn : H₁.tableOf n = some tb := hn
        rw [c] at hn
        split at hn
        · subst hn
          exact .inr ⟨rs, by simp, by assumption⟩
        · exact (h.at_ n tb hn).imp id (fun ⟨rs', h1, h2⟩ => ⟨rs', by simp [h1], h2⟩)
      · show H₁.tableOf n = some tb
        rw [c]
        rcases List.mem_append.mp hrs' with hrs' | hrs'
        · have hT := h.listed tb rs' hrs' n hn
          split
          · rename_i hn'
            exact hone (tb, rs') (by simp [hrs']) (table, rs) (by simp) n hn hn'
          · exact hT
        · simp only [List.mem_cons, List.not_mem_nil, or_false, Prod.mk.injEq] at hrs'
          obtain ⟨rfl, rfl⟩ := hrs'
          rw [if_pos hn]
    obtain ⟨p, q⟩ := ih (D ++ [(table, rs)]) _ _ _ (by simpa using h0) (by simpa using hnd) (by simpa using hone) hseat hc
    exact ⟨by simpa using p, q.trans b⟩

end UtilIO
end
end Verif
