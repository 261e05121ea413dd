import Verif.Spec.GenDBClusters
import Verif.Lemmas.GenDBFirm
import Verif.Props.GenDBHistory
import Verif.Props.PCleanLib
/-!
C75: the clusters of a database stay in order; and C68, about the file of the clusters, for every history of a database.
-/
namespace Verif
namespace HIRM
noncomputable section
variable {V : Type} {F : Family V}

theorem tupleSeat_some {σ : Doms} : ∀ (ds : List String) (k : Items), k.length = ds.length → (∀ d i, Uses ds d i k → ∃ z, seatOf σ d i = some z) → ∃ z, tupleSeat σ ds k = some z := by
  intro ds
  induction ds with
  | nil => intro k hl _; cases k with
    | nil => exact ⟨[], rfl⟩
    | cons i k => cases hl
  | cons d ds ih =>
    intro k hl h
    cases k with
    | nil => cases hl
    | cons i k =>
      obtain ⟨z, hz⟩ := h d i (List.mem_cons_self ..)
      obtain ⟨zs, hzs⟩ := ih k (Nat.succ.inj hl) (fun d' i' hu => h d' i' (List.mem_cons_of_mem _ hu))
      exact ⟨z :: zs, by simp [tupleSeat, hz, hzs]⟩

theorem Firm.seat {I : IRM F} (h : I.Sound) {d : String} {i : Int} (hs : Seated I.doms d i) : ∃ z, seatOf I.doms d i = some z := by
  obtain ⟨dom, h1, h2⟩ := hs
  obtain ⟨z, hz⟩ := (h.doms d dom h1).2.1.mem.mp h2
  exact ⟨z, by unfold seatOf; rw [h1]; exact hz⟩

theorem Firm.inOrder {H : HIRM F} (h : H.Firm) (ht : H.Tidy) : H.InOrder where
  shared := ht.skel.consistent
  members tb I d dom hI hd i := ((h tb I hI).doms d dom hd).2.1.mem
  clusters tb I d dom hI hd i z := by
    have := ((h tb I hI).doms d dom hd).2.1.crp.mem i z
    simp only [FMap.contains_iff_mem]
    exact this.symm
  nonempty tb I d dom hI hd z s hs := by
    obtain ⟨i, hi⟩ := ((h tb I hI).doms d dom hd).2.1.crp.nonempty z s hs
    exact ⟨i, FMap.contains_iff_mem.mpr hi⟩
  counted tb I d dom hI hd := by
    have hw := ((h tb I hI).doms d dom hd).2.1
    rw [hw.crp.count]
    have hp : List.Perm dom.crp.assignments.keys dom.items.keys := by
      rw [List.perm_ext_iff_of_nodup dom.crp.assignments.nodupKeys dom.items.nodupKeys]
      exact fun i => (hw.items i).symm
    have := hp.length_eq
    simpa [FMap.size, FMap.keys] using this
  domains tb I n id rel hI hr := by
    obtain ⟨_, spec, h1, h2⟩ := (h tb I hI).tidy n _ hr
    have h3 := ht.skel.specs tb I hI n (FMap.contains_iff.mpr ⟨_, hr⟩)
    refine ⟨spec, h3.symm.trans h1, h2, fun d hd => ?_⟩
    rw [← (h tb I hI).names]
    obtain ⟨s, h4, _⟩ := (h tb I hI).index n _ hr d (by rw [h2]; exact hd)
    exact FMap.contains_iff.mpr ⟨s, h4⟩
  tuples tb I n id rel hI hr k v hv := by
    have hc : rel.data.contains k = true := FMap.contains_iff.mpr ⟨v, hv⟩
    exact tupleSeat_some _ _ (((h tb I hI).tidy n _ hr).1.len hc) (fun d i hu => Firm.seat (h tb I hI) ((h tb I hI).seated n _ hr k hc d i hu))

end
end HIRM

namespace GenDB
open PClean
noncomputable section
variable {V : Type} {F : Family V} {s : PClean.Schema} {hash : String → Int} {mkC : String → FMap String String → Res F.C}
  {mkE : String → FMap String String → Res F.E} {clean finalOnly : Bool} {t₀ t₁ : Tape} {D₀ : DB F} {rows : List (Row V)} {D D' : DB F}

theorem tidy_holding : Holding (F := F) HIRM.Tidy where
  incorporate h hc := (HIRM.incorporate_next hc).1.tidy h
  takeOut h hc := (HIRM.takeOut_next hc).1.tidy h
  sample h hc := (HIRM.sampleRelation_next (P := fun _ => True) _ _ _ _ _ _ trivial (fun _ _ _ _ _ _ _ => trivial) hc).tidy h
  leave {H code I c dom dom' i} h hI _ _ _ := (HIRM.Next.setIrm (P := fun _ => False) (I' := { I with doms := I.doms.set c dom' }) hI
    ⟨rfl, fun _ h => h, fun _ x hx => ⟨x, hx, .refl _, fun _ => rfl⟩⟩).tidy h
  join {H code I c dom dom' i _ _ _} h hI _ _ _ := (HIRM.Next.setIrm (P := fun _ => False) (I' := { I with doms := I.doms.set c dom' }) hI
    ⟨rfl, fun _ h => h, fun _ x hx => ⟨x, hx, .refl _, fun _ => rfl⟩⟩).tidy h
  cleanup h hc := (HIRM.cleanupLoop_next (P := fun _ => False) _ _ _ hc).tidy h
  inference h hc := (HIRM.inference_tidy _ _ _ _ h hc).1

theorem make_tidy (hmk : make s hash mkC mkE clean finalOnly t₀ = .ok (D₀, t₁)) : D₀.H.Tidy := by
  obtain ⟨_, _, hmk⟩ := bind_ok.mp hmk
  obtain ⟨_, _, hmk⟩ := bind_ok.mp hmk
  obtain ⟨⟨H, t⟩, h1, hmk⟩ := bind_ok.mp hmk
  obtain ⟨_, _, hmk⟩ := bind_ok.mp hmk
  cases hmk
  exact HIRM.mk'_tidy h1

theorem Worked.asked (h : Worked D₀ rows D) {x : Row V} (hx : x ∈ rows) {q : String} {v : V} (hv : x.vals.find? q = some v) :
    ∃ f, D₀.schema.query.fields.find? q = some f := by
  induction h with
  | nil => cases hx
  | row _ hq _ ih =>
    rcases List.mem_cons.mp hx with rfl | hx
    · exact hq q v hv
    · exact ih hx
  | ref _ _ ih => exact ih hx
  | cls _ _ ih => exact ih hx
  | iter _ _ ih => exact ih hx
  | rels _ _ ih => exact ih hx

/-- **C75**: from the constructor on, whatever the schema, the distributions and the emissions are, and whatever calls of `incorporate`, of the transitions of
references and of inference returned, in whatever order, the clusters of the database are in order. -/
theorem C75_clusters (hmk : make s hash mkC mkE clean finalOnly t₀ = .ok (D₀, t₁)) (h : Worked D₀ rows D) : D.H.InOrder := by
  exact HIRM.Firm.inOrder (firm_closed.worked (make_firm hmk) h) (tidy_holding.worked (make_tidy hmk) h)

/-- C68: the rows have no name, whatever came after them. -/
theorem C68_history_unnamed (hf : Fine s clean) (hi : Indexed s finalOnly) (hmk : make s hash mkC mkE clean finalOnly t₀ = .ok (D₀, t₁)) (h : Worked D₀ rows D) (i : Int) :
    UtilIO.Encoding.entity D.dummyEncoding s.query.recordClass i = none := by
  have hm := make_laid hf hmk
  obtain ⟨r, hr, hw⟩ := hm.ready hf hi
  obtain ⟨hs, hst, _⟩ := h.stays hm hf hi hr hw
  cases hx : UtilIO.Encoding.entity D.dummyEncoding s.query.recordClass i with
  | none => rfl
  | some x =>
    exfalso
    have hsc : D.schema = s := hs.schema.trans hm.schema
    obtain ⟨crp, hc, h3, h4, _⟩ := (C68_names D _ i x).mp hx
    have hempty : crp.assignments = ∅ := by
      refine FMap.ext fun k => ?_
      cases hk : crp.assignments.find? k with
      | none => rfl
      | some v =>
        obtain ⟨c, f, j, k1, k2, _⟩ := (hst.ok.agree _ _ k v hc).mp hk
        have k3 := hst.under c f j v k2
        have k4 := hst.ready.rank _ _ _ k1
        rw [hsc] at k3
        omega
    have hN : crp.N = 0 := by rw [(hst.ok.wf _ _ hc).count, hempty]; rfl
    unfold CRP.maxTable at h4
    rw [if_pos hN] at h4
    omega

/-- C68 is false: whatever calls of `incorporate`, of the transitions of references and of inference returned, in whatever order and with whatever distributions and
emissions, as soon as a row has a value the clusters of the database cannot be written with the encoding that the program makes for them. -/
theorem C68_history_false (hf : Fine s clean) (hi : Indexed s finalOnly) (hmk : make s hash mkC mkE clean finalOnly t₀ = .ok (D₀, t₁)) (h : Worked D₀ rows D)
    {x : Row V} (hx : x ∈ rows) {q : String} {v : V} (hv : x.vals.find? q = some v) (t : Tape) (y : List Char × Tape) : UtilIO.hirmText D.H D.dummyEncoding t ≠ .ok y := by
  intro hy
  have ho := C75_clusters hmk h
  have htidy : D.H.Tidy := tidy_holding.worked (make_tidy hmk) h
  have hfirm := firm_closed.worked (make_firm hmk) h
  have hm := make_laid hf hmk
  obtain ⟨r, hr, hw⟩ := hm.ready hf hi
  obtain ⟨hs, hst, _⟩ := h.stays hm hf hi hr hw
  have hsc : D.schema = s := hs.schema.trans hm.schema
  obtain ⟨f, hq⟩ : ∃ f, s.query.fields.find? q = some f := by
    rw [← hm.schema]
    exact h.asked hx hv
  have hqd : Queried D q := ⟨f, by rw [hsc]; exact hq⟩
  obtain ⟨k, hk⟩ := hst.held.rows q hqd x.id v ⟨x, hx, rfl, hv⟩
  have hval := (hst.held.vals q hqd k v).mpr ⟨x.id, ⟨x, hx, rfl, hv⟩, hk⟩
  obtain ⟨spec, hspec, _, hlast⟩ := hk
  obtain ⟨spec', hspec', _, hd, _⟩ := hst.ready.query q hqd
  rw [hspec] at hspec'
  cases hspec'
  obtain ⟨tb, id, rel, hrel, hdata⟩ := HIRM.value_some.mp hval
  obtain ⟨_, I, hI, hrx⟩ := HIRM.relOf_some.mp hrel
  obtain ⟨z, hz⟩ := ho.tuples tb I q id rel hI hrx k v hdata
  obtain ⟨spec', hs', hdoms, _⟩ := ho.domains tb I q id rel hI hrx
  rw [hspec] at hs'
  cases hs'
  rw [hdoms] at hz
  have hlen := (tupleSeat_length hz).1
  rw [List.getLast?_eq_getElem?] at hd hlast
  rw [hlen] at hlast
  obtain ⟨c, hc⟩ := HIRM.tupleSeat_uses hz (show Verif.Uses spec.doms D.schema.query.recordClass x.id k from List.mem_iff_getElem?.mpr ⟨spec.doms.length - 1, by
    rw [List.getElem?_zip_eq_some]; exact ⟨hd, hlast⟩⟩)
  obtain ⟨dom, hdm, hseat⟩ := Option.bind_eq_some_iff.mp hc
  obtain ⟨name, hn⟩ := (UtilIO.hirmText_ok_iff htidy.skel.consistent htidy.skel.crp.tidy (fun tb I hI => DomAll.tidy (hfirm tb I hI).doms) D.dummyEncoding t).mp ⟨y.1, y.2, hy⟩
    tb I hI _ c x.id ⟨dom, hdm, hseat⟩
  rw [hsc, C68_history_unnamed hf hi hmk h x.id] at hn
  cases hn

/-! ### Concrete cases -/
open Latent (bools boolLaws)

/-- `C75_clusters` and `C68_history_false` for people: after one person has been moved to the city of another. -/
example : ∃ D₀ t₀ D, start people false false = .ok (D₀, t₀) ∧ Worked D₀ [⟨true, 8, rowOf [("City", true)]⟩, ⟨true, 7, rowOf [("City", true)]⟩] D ∧
    HasRef D.ents "Record" "home" 8 0 ∧ D.H.InOrder ∧ ∀ t y, UtilIO.hirmText D.H D.dummyEncoding t ≠ .ok y := by
  have w := people_moved
  unfold reassign at w
  cases h : loadAll people false false 4 [⟨true, 8, rowOf [("City", true)]⟩, ⟨true, 7, rowOf [("City", true)]⟩] with
  | error e => rw [h] at w; cases w
  | ok x =>
    obtain ⟨D, t⟩ := x
    rw [h] at w
    cases h' : D.transitionReference "Record" "home" 8 [] with
    | error e => simp only [bind, Except.bind, h'] at w; cases w
    | ok x =>
      obtain ⟨D', t'⟩ := x
      simp only [bind, Except.bind, h'] at w
      have w := Except.ok.inj w
      unfold loadAll at h
      obtain ⟨⟨D₂, t₂⟩, h2, h⟩ := bind_ok.mp h
      unfold loadAll at h2
      obtain ⟨⟨D₁, t₁⟩, h1, h2⟩ := bind_ok.mp h2
      unfold loadAll at h1
      have hfit : ∀ v q u, (rowOf [("City", v)]).find? q = some u → ∃ f, D₁.schema.query.fields.find? q = some f := fun v q u hu => by
        obtain ⟨f, _, hf, _⟩ := people_fits h1 v q u hu
        exact ⟨f, hf⟩
      have hl : Worked D₁ [⟨true, 8, rowOf [("City", true)]⟩, ⟨true, 7, rowOf [("City", true)]⟩] D' := .ref (.row (.row .nil (hfit _) h2) (hfit _) h) h'
      exact ⟨D₁, t₁, D', h1, hl, (hasRef_of w).mpr ⟨[(("home", 7), 0), (("home", 8), 0)], by simp, by simp⟩, C75_clusters h1 hl,
        C68_history_false people_fine people_indexed h1 hl (List.mem_cons_self ..) (FMap.find?_set_self (∅ : FMap String Bool) "City" true)⟩

end
end GenDB
end Verif
