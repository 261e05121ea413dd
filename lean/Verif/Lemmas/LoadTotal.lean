import Verif.Lemmas.LoadReach
import Verif.Spec.Loading
/-!
`from_txt` accepts cluster files that suit the schema and the observations.
-/
namespace Verif
noncomputable section
variable {V : Type} {F : Family V} {L : FamilyLaws F}
open HIRM

namespace UtilIO

/-! ### The entities -/

theorem code_find {enc : Encoding} {d item : String} {c : Int} (h : Encoding.code enc d item = some c) :
    ∃ m, enc.fwd.atKey d = .ok m ∧ m.atKey item = .ok c := by
  unfold Encoding.code at h
  cases hm : enc.fwd.find? d with
  | none => rw [hm] at h; cases h
  | some m => rw [hm] at h; exact ⟨m, FMap.atKey_of_find hm, FMap.atKey_of_find h⟩

theorem seatItems_ok {enc : Encoding} {d : String} {table : Int} (h0 : 0 ≤ table) (hinj : ∀ x y c, Encoding.code enc d x = some c → Encoding.code enc d y = some c → x = y) :
    ∀ (l : List String) (σ : Doms) (t : Tape), DomAll TidyDom σ → σ.contains d = true → l.Nodup → (∀ x ∈ l, ∃ i, Encoding.code enc d x = some i) →
      (∀ x ∈ l, ∀ i c, Encoding.code enc d x = some i → ¬ InCluster σ d c i) →
      ∃ y, seatItems enc.fwd d table l σ t = .ok y ∧ ∀ d', y.1.contains d' = σ.contains d' := by
  intro l
  induction l with
  | nil => intro σ t _ _ _ _ _; exact ⟨_, rfl, fun _ => rfl⟩
  | cons x l ih =>
    intro σ t h hd hnd hc hfree
    obtain ⟨i, hi⟩ := hc x (by simp)
    obtain ⟨m, h1, h2⟩ := code_find hi
    obtain ⟨dom, h3⟩ := FMap.contains_iff.mp hd
    have ht := h d dom h3
    have hnot : dom.items.contains i = false := by
      cases e : dom.items.contains i with
      | false => rfl
      | true =>
        obtain ⟨c, hc'⟩ := ht.2.1.mem.mp e
        exact absurd ⟨dom, h3, hc'⟩ (hfree x (by simp) i c hi)
    have h4 := Domain.incorporate_new ht.2.1 hnot t table
    have hs := h.set (tidyDom_closed.incorporate trivial ht h4)
    have hcon : ∀ d', (σ.set d (dom.incState i (dom.chosenTable t table).1)).contains d' = σ.contains d' := by
      intro d'
      simp only [FMap.contains, FMap.find?_set]
      split
      · rename_i e; subst e; simp [h3]
      · rfl
    obtain ⟨y, h5, h6⟩ := ih _ (dom.chosenTable t table).2 hs ((hcon d).trans hd) (List.nodup_cons.mp hnd).2 (fun x hx => hc x (by simp [hx])) (fun z hz j c hj hin => by
      rw [inCluster_set, (ht.grow h4).2.2 h0] at hin
      rcases hin with ⟨_, hin | ⟨rfl, _⟩⟩ | ⟨hin, _⟩
      · exact hfree z (by simp [hz]) j c hj ⟨dom, h3, hin⟩
      · have := hinj z x j hj hi
        subst this
        exact (List.nodup_cons.mp hnd).1 hz
      · exact hin rfl)
    exact ⟨y, bind_ok.mpr ⟨m, h1, bind_ok.mpr ⟨i, h2, bind_ok.mpr ⟨dom, FMap.atKey_of_find h3, bind_ok.mpr ⟨_, h4, h5⟩⟩⟩⟩, fun d' => (h6 d').trans (hcon d')⟩

theorem seatTables_ok {enc : Encoding} {d : String} (hinj : ∀ x y c, Encoding.code enc d x = some c → Encoding.code enc d y = some c → x = y) :
    ∀ (l : List (Int × List String)) (σ : Doms) (t : Tape), DomAll TidyDom σ → σ.contains d = true → (l.flatMap Prod.snd).Nodup → (∀ e ∈ l, 0 ≤ e.1) →
      (∀ e ∈ l, ∀ x ∈ e.2, ∃ i, Encoding.code enc d x = some i) → (∀ e ∈ l, ∀ x ∈ e.2, ∀ i c, Encoding.code enc d x = some i → ¬ InCluster σ d c i) →
      ∃ y, seatTables enc.fwd d l σ t = .ok y ∧ ∀ d', y.1.contains d' = σ.contains d' := by
  intro l
  induction l with
  | nil => intro σ t _ _ _ _ _ _; exact ⟨_, rfl, fun _ => rfl⟩
  | cons e l ih =>
    obtain ⟨table, items⟩ := e
    intro σ t h hd hnd hpos hc hfree
    rw [List.flatMap_cons, List.nodup_append] at hnd
    have h0 : 0 ≤ table := hpos (table, items) (by simp)
    obtain ⟨⟨σ₁, t₁⟩, h1, hcon⟩ := seatItems_ok h0 hinj items σ t h hd hnd.1 (hc (table, items) (by simp)) (hfree (table, items) (by simp))
    obtain ⟨a, b, _⟩ := seatItems_exact h0 _ _ _ _ h h1
    obtain ⟨y, h2, h3⟩ := ih σ₁ t₁ a ((hcon d).trans hd) hnd.2.1 (fun e he => hpos e (by simp [he])) (fun e he => hc e (by simp [he])) (fun e he x hx i c hi hin => by
      rcases (b d c i).mp hin with hin | ⟨_, _, z, hz, hzi⟩
      · exact hfree e (by simp [he]) x hx i c hi hin
      · have := hinj x z i hi hzi
        subst this
        exact hnd.2.2 x hz x (List.mem_flatMap.mpr ⟨e, he, hx⟩) rfl)
    exact ⟨y, bind_ok.mpr ⟨(), assertR_ok.mpr (by simpa using h0), bind_ok.mpr ⟨_, h1, h2⟩⟩, fun d' => (h3 d').trans (hcon d')⟩

theorem seatClusters_ok {enc : Encoding} (hinj : ∀ d x y c, Encoding.code enc d x = some c → Encoding.code enc d y = some c → x = y) :
    ∀ (l : List (String × FMap Int (List String))) (σ : Doms) (t : Tape), DomAll TidyDom σ → (l.map Prod.fst).Nodup →
      (∀ e ∈ l, σ.contains e.1 = true ∧ (∀ c i, ¬ InCluster σ e.1 c i) ∧ (e.2.entries.flatMap Prod.snd).Nodup ∧ (∀ f ∈ e.2.entries, 0 ≤ f.1) ∧
        ∀ f ∈ e.2.entries, ∀ x ∈ f.2, ∃ i, Encoding.code enc e.1 x = some i) →
      ∃ y, seatClusters enc.fwd l σ t = .ok y := by
  intro l
  induction l with
  | nil => intro σ t _ _ _; exact ⟨_, rfl⟩
  | cons e l ih =>
    obtain ⟨d, tables⟩ := e
    intro σ t h hnd hl
    obtain ⟨k1, k2, k3, k4, k5⟩ := hl (d, tables) (by simp)
    dsimp only at k1 k2 k3 k4 k5
    obtain ⟨dom, hdom⟩ := FMap.contains_iff.mp k1
    have hsize : dom.items.size = 0 := by
      rw [size_zero_iff]
      intro i
      cases e : dom.items.contains i with
      | false => rfl
      | true =>
        obtain ⟨c, hc⟩ := (h d dom hdom).2.1.mem.mp e
        exact absurd ⟨dom, hdom, hc⟩ (k2 c i)
    obtain ⟨⟨σ₁, t₁⟩, h1, hcon⟩ := seatTables_ok (hinj d) tables.entries σ t h k1 k3 k4 k5 (fun e _ x _ i c _ hin => k2 c i hin)
    obtain ⟨a, b, _⟩ := seatTables_exact _ _ _ _ h h1
    rw [List.map_cons, List.nodup_cons] at hnd
    obtain ⟨y, h2⟩ := ih σ₁ t₁ a hnd.2 (fun e he => by
      obtain ⟨q1, q2, q3⟩ := hl e (by simp [he])
      refine ⟨(hcon e.1).trans q1, fun c i hin => ?_, q3⟩
      rcases (b e.1 c i).mp hin with hin | ⟨hin, _⟩
      · exact q2 c i hin
      · exact hnd.1 (hin ▸ List.mem_map.mpr ⟨e, he, rfl⟩))
    exact ⟨y, bind_ok.mpr ⟨dom, FMap.atKey_of_find hdom, bind_ok.mpr ⟨(), assertR_ok.mpr (by simp [hsize]), bind_ok.mpr ⟨_, h1, h2⟩⟩⟩⟩

theorem _root_.Verif.Numbers.inj {schema : Schema F} {obs : ObsMap String} {enc : Encoding} (h : Numbers schema obs enc) (d x y : String) (c : Int)
    (hx : Encoding.code enc d x = some c) (hy : Encoding.code enc d y = some c) : x = y := by
  have h1 := ((h d).1 x c).mp hx
  rw [((h d).1 y c).mp hy] at h1
  exact (Option.some.inj h1).symm

theorem SuitsIrm.flat {schema : Schema F} {obs : ObsMap String} {rels : List String} {cl : Clusters} (h : SuitsIrm schema obs rels cl) {d : String}
    {m : FMap Int (List String)} (hm : cl.find? d = some m) : (m.entries.flatMap Prod.snd).Nodup := by
  have hl : ∀ c items, m.find? c = some items → listed cl d c = items := by
    intro c items hc
    unfold listed
    rw [hm, Option.getD_some, hc]
    rfl
  rw [List.nodup_flatMap]
  refine ⟨fun e he => ?_, ?_⟩
  · rw [← hl e.1 e.2 (FMap.mem_entries.mp he)]
    exact h.once d e.1
  · refine (List.Pairwise.and_mem.mp m.sorted).imp ?_
    rintro a b ⟨ha, hb, hlt⟩
    intro x hxa hxb
    have e1 := hl a.1 a.2 (FMap.mem_entries.mp ha)
    have e2 := hl b.1 b.2 (FMap.mem_entries.mp hb)
    have := h.one d a.1 b.1 x (by rw [e1]; exact hxa) (by rw [e2]; exact hxb)
    exact Key.ne_of_lt hlt this

/-- the clusters of the file can be made in domains that are empty -/
theorem SuitsIrm.seat {schema : Schema F} {obs : ObsMap String} {enc : Encoding} (hnum : Numbers schema obs enc) {rels : List String} {cl : Clusters}
    (h : SuitsIrm schema obs rels cl) {σ : Doms} (hσ : DomAll (SeatedIn (fun _ _ => False)) σ)
    (hd : ∀ n ∈ rels, ∀ spec, schema.find? n = some spec → ∀ d ∈ spec.doms, σ.contains d = true) (t : Tape) :
    ∃ y, seatClusters enc.fwd cl.entries σ t = .ok y := by
  refine seatClusters_ok hnum.inj _ _ _ (fun d dom hdom => (hσ d dom hdom).1) cl.nodupKeys (fun e he => ?_)
  have hm := FMap.mem_entries.mp he
  obtain ⟨n, hn, spec, hs, hds⟩ := h.domain e.1 e.2 hm
  refine ⟨hd n hn spec hs e.1 hds, ?_, h.flat hm, fun f hf => h.table e.1 e.2 f.1 f.2 hm (FMap.mem_entries.mp hf), fun f hf x hx => ?_⟩
  · rintro c i ⟨dom, k1, k2⟩
    exact (hσ e.1 dom k1).2 i ((hσ e.1 dom k1).1.2.1.mem.mpr ⟨c, k2⟩)
  · refine ((hnum e.1).2 x).mpr (h.occurs e.1 f.1 x ?_)
    exact listed_iff.mpr ⟨e.2, f.2, he, FMap.mem_entries.mp hf, hx⟩

/-! ### The relations -/

theorem addAside_ok {schema : Schema F} (ha : ∀ n spec b sp, schema.find? n = some spec → spec.base? = some b → schema.find? b = some sp →
      sp.doms.length ≤ spec.doms.length) (hd : ∀ n spec, schema.find? n = some spec → spec.doms ≠ []) (hb : BasesEarlier schema) :
    ∀ (l done : List (String × RelSpec F)) (H : HIRM F) (t : Tape), schema.entries = done ++ l → (∀ n, H.schema.find? n = (done.find? (fun e => e.1 == n)).map Prod.snd) →
      Reach L H → ∃ y, addAside l H t = .ok y := by
  intro l
  induction l with
  | nil => intro done H t _ _ _; exact ⟨_, rfl⟩
  | cons e l ih =>
    obtain ⟨r, spec⟩ := e
    intro done H t he hs h
    have hr : schema.find? r = some spec := FMap.mem_entries.mp (by rw [he]; simp)
    have hsort := schema.sorted
    rw [he, List.pairwise_append] at hsort
    have hfresh : H.schema.contains r = false := by
      rw [FMap.contains_false, hs]
      cases hf : done.find? (fun e => e.1 == r) with
      | none => rfl
      | some e =>
        have h1 := List.mem_of_find?_eq_some hf
        have h2 := List.find?_some hf
        have h3 := hsort.2.2 e h1 (r, spec) (by simp)
        rw [show e.1 = r by simpa using h2] at h3
        exact absurd rfl (Key.ne_of_lt h3)
    have hin : ∀ e ∈ done, H.schema.find? e.1 = some e.2 := by
      intro e hed
      rw [hs]
      cases hf : done.find? (fun f => f.1 == e.1) with
      | none =>
        have := List.find?_eq_none.mp hf e hed
        simp at this
      | some f =>
        have h1 := List.mem_of_find?_eq_some hf
        have h2 : f.1 = e.1 := by simpa using List.find?_some hf
        have k1 : schema.find? f.1 = some f.2 := FMap.mem_entries.mp (by rw [he]; simp [h1])
        have k2 : schema.find? e.1 = some e.2 := FMap.mem_entries.mp (by rw [he]; simp [hed])
        rw [h2, k2] at k1
        exact k1.symm
    have hbase : ∀ b, spec.base? = some b → ∃ sp, H.schema.find? b = some sp ∧ sp.doms.length ≤ spec.doms.length := by
      intro b hbb
      obtain ⟨h1, h2⟩ := hb r spec b hr hbb
      obtain ⟨sp, h3⟩ := FMap.contains_iff.mp h1
      have hm : (b, sp) ∈ schema.entries := FMap.mem_entries.mpr h3
      rw [he] at hm
      rcases List.mem_append.mp hm with hm | hm
      · exact ⟨sp, hin _ hm, ha r spec b sp hr hbb h3⟩
      · rcases List.mem_cons.mp hm with hm | hm
        · cases hm
          exact absurd rfl (Key.ne_of_lt h2)
        · have := (List.pairwise_cons.mp hsort.2.1).1 (b, sp) hm
          rw [Key.asymm h2] at this
          cases this
    obtain ⟨H₁, t₁, _, _, _, h1, h2, h3, _⟩ := h.good.add hfresh (hd r spec hr) hbase t
    have hk : H₁.schema.contains r = true := FMap.contains_iff.mpr ⟨spec, by rw [h3, FMap.find?_set_self]⟩
    obtain ⟨H₂, t₂, h4, h5⟩ := setClusterAssignmentGibbs_ok h2 hk (-1) t₁
    have hR : Reach L H₁ := .add h (fun b sp hbb hsp => by
      obtain ⟨sp', q1, q2⟩ := hbase b hbb
      rw [hsp] at q1; cases q1; exact q2) h1
    obtain ⟨y, hy⟩ := ih (done ++ [(r, spec)]) H₂ t₂ (by rw [he, List.append_assoc]; rfl) (fun n => by
      rw [h5.moved.schema, h3, FMap.find?_set, List.find?_append]
      by_cases e : n = r
      · subst e
        have : done.find? (fun e => e.1 == n) = none := by
          have := hs n
          rw [FMap.contains_false.mp hfresh] at this
          cases hf : done.find? (fun e => e.1 == n) with
          | none => rfl
          | some _ => rw [hf] at this; cases this
        simp [this]
      · rw [if_neg e, hs n]
        cases hf : done.find? (fun e => e.1 == n) with
        | some _ => rfl
        | none => simp [Ne.symm e]) (.set hR h4)
    exact ⟨y, bind_ok.mpr ⟨_, h1, bind_ok.mpr ⟨(), assertR_ok.mpr (by simp [h2.skel.sizes]), bind_ok.mpr ⟨_, h4, hy⟩⟩⟩⟩

theorem moveAll_ok {table : Int} : ∀ (l : List String) (H : HIRM F) (t : Tape), Reach L H → (∀ n ∈ l, H.schema.contains n = true) →
    ∃ y, moveAll table l H t = .ok y := by
  intro l
  induction l with
  | nil => intro H t _ _; exact ⟨_, rfl⟩
  | cons r l ih =>
    intro H t h hl
    have hsz : assertR (H.irms.size == H.crp.tables.size) = .ok () := assertR_ok.mpr (by simp [h.good.skel.sizes])
    obtain ⟨cur, hcur⟩ := h.good.skel.table_some (hl r (by simp))
    by_cases e : cur ≠ table
    · obtain ⟨H₁, t₁, h1, h2⟩ := setClusterAssignmentGibbs_ok h.good (hl r (by simp)) table t
      obtain ⟨y, hy⟩ := ih H₁ t₁ (.set h h1) (fun n hn => by rw [h2.moved.schema]; exact hl n (by simp [hn]))
      refine ⟨y, bind_ok.mpr ⟨(), hsz, bind_ok.mpr ⟨cur, relationToTable_ok.mpr hcur, ?_⟩⟩⟩
      rw [if_pos e]
      exact bind_ok.mpr ⟨(), hsz, bind_ok.mpr ⟨_, h1, hy⟩⟩
    · obtain ⟨y, hy⟩ := ih H t h (fun n hn => hl n (by simp [hn]))
      refine ⟨y, bind_ok.mpr ⟨(), hsz, bind_ok.mpr ⟨cur, relationToTable_ok.mpr hcur, ?_⟩⟩⟩
      rw [if_neg e]
      exact hy

theorem seatIrms_cons (fwd : FMap String (FMap String Int)) (irms : FMap Int Clusters) (e : Int × List String) (l : List (Int × List String)) (H : HIRM F) (t : Tape) :
    seatIrms fwd irms (e :: l) H t = (seatIrms fwd irms [e] H t).bind (fun x => seatIrms fwd irms l x.1 x.2) := by
  obtain ⟨table, rs⟩ := e
  simp only [seatIrms, bind, Except.bind]
  repeat' (first | rfl | split)

/-- one cluster of relations -/
theorem seatIrms_one {schema : Schema F} {obs : ObsMap String} {enc : Encoding} (hnum : Numbers schema obs enc) {irms : FMap Int Clusters}
    {D : List (Int × List String)} {table : Int} {rs : List String} {H : HIRM F} (hR : Reach L H) (hs : H.schema = schema) (h : Seating enc irms D H)
    (hpos : ∀ e ∈ D, 0 ≤ e.1) (hnew : table ∉ D.map Prod.fst) (hne : rs ≠ []) (hnd : rs.Nodup) (hrs : ∀ n ∈ rs, schema.contains n = true)
    (hone : ∀ e ∈ D, ∀ n, n ∈ e.2 → n ∈ rs → e.1 = table) (h0 : 0 ≤ table)
    {cl : Clusters} (hcl : irms.find? table = some cl) (hsuit : SuitsIrm schema obs rs cl) (t : Tape) :
    ∃ y, seatIrms enc.fwd irms [(table, rs)] H t = .ok y := by
  obtain ⟨⟨H₁, t₁⟩, h1⟩ := moveAll_ok (table := table) rs H t hR (by rw [hs]; exact hrs)
  have hneg : (-1 : Int) ∉ D.map Prod.fst := by
    intro hm
    obtain ⟨e, he, heq⟩ := List.mem_map.mp hm
    have := hpos e he
    omega
  obtain ⟨a, b, c⟩ := moveAll_moving hnew hneg rs H t _ ⟨h.known, h.named, h.empty, h.free, h.done⟩ (fun n hn tb htb => by
      rcases h.at_ n tb htb with h | ⟨rs', hrs', hn'⟩
      · exact .inl h
      · exact .inr (hone (tb, rs') hrs' n hn' hn)) h1
  have hR₁ := moveAll_reach _ _ _ _ hR h1
  dsimp only at a b c hR₁
  obtain ⟨n₀, hn₀⟩ := List.exists_mem_of_ne_nil rs hne
  have hat : ∀ n, H₁.tableOf n = some table ↔ n ∈ rs := by
    intro n
    rw [c]
    split
    · rename_i e; simp [e]
    · rename_i e
      simp only [e, iff_false]
      intro hT
      rcases h.at_ n table hT with h' | ⟨rs', hrs', _⟩
      · omega
      · exact hnew (List.mem_map.mpr ⟨_, hrs', rfl⟩)
  obtain ⟨I, hI, _⟩ := hR₁.good.skel.irm ((hat n₀).mpr hn₀)
  have hsize : I.rels.size = rs.length := by
    have hp : I.rels.keys.Perm rs := by
      rw [List.perm_ext_iff_of_nodup I.rels.nodupKeys hnd]
      intro n
      rw [← FMap.contains_iff_mem, hR₁.good.skel.place table I hI n, hat]
    rw [← hp.length_eq]
    exact (List.length_map ..).symm
  obtain ⟨y, hy⟩ := hsuit.seat hnum (a.free table I hI hnew) (fun n hn spec hspec d hd => by
    obtain ⟨x, hx⟩ := FMap.contains_iff.mp ((hR₁.good.skel.place table I hI n).mpr ((hat n).mpr hn))
    obtain ⟨sp, k1, k2⟩ := hR₁.good.matched (hR₁.good.skel.obj hI hx)
    rw [b, hs, hspec] at k1; cases k1
    exact ((hR₁.good.inv table I hI).rels n x.1 x.2 hx).doms d (by rw [k2.doms]; exact hd)) t₁
  exact ⟨_, bind_ok.mpr ⟨(), assertR_ok.mpr (by simp [hR.good.skel.sizes]), bind_ok.mpr ⟨_, h1, bind_ok.mpr ⟨I, FMap.atKey_of_find hI,
    bind_ok.mpr ⟨cl, FMap.atKey_of_find hcl, bind_ok.mpr ⟨(), assertR_ok.mpr (by simp [hsize]), bind_ok.mpr ⟨_, hy, rfl⟩⟩⟩⟩⟩⟩⟩

theorem seatIrms_ok {schema : Schema F} {obs : ObsMap String} {enc : Encoding} (hnum : Numbers schema obs enc) {relations : FMap Int (List String)} {irms : FMap Int Clusters}
    (hsuit : SuitsHirm schema obs relations irms) : ∀ (l D : List (Int × List String)) (H : HIRM F) (t : Tape), relations.entries = D ++ l → Reach L H → H.schema = schema →
      Seating enc irms D H → ∃ y, seatIrms enc.fwd irms l H t = .ok y := by
  intro l
  induction l with
  | nil => intro D H t _ _ _ _; exact ⟨_, rfl⟩
  | cons e l ih =>
    intro D H t he hR hs h
    have hm : ∀ f ∈ D ++ e :: l, relations.find? f.1 = some f.2 := fun f hf => FMap.mem_entries.mp (by rw [he]; exact hf)
    have hnodup := relations.nodupKeys
    rw [FMap.keys, he] at hnodup
    have hme := hm e (by simp)
    obtain ⟨cl, hcl, hsu⟩ := hsuit.irm e.1 e.2 hme
    obtain ⟨k1, k2, k3⟩ := hsuit.table e.1 e.2 hme
    obtain ⟨⟨H₁, t₁⟩, h1⟩ := seatIrms_one hnum hR hs h (fun f hf => (hsuit.table f.1 f.2 (hm f (by simp [hf]))).1) (fun hf => by
        rw [List.map_append, List.nodup_append] at hnodup
        exact hnodup.2.2 e.1 hf e.1 (by simp) rfl) k2 k3 (fun n hn => (hsuit.each n).mpr ⟨e.1, e.2, hme, hn⟩)
      (fun f hf n hn hn' => hsuit.one f.1 e.1 f.2 e.2 n (hm f (by simp [hf])) hme hn hn') k1 hcl hsu t
    obtain ⟨s, hs'⟩ := seatIrms_seating [e] D H t _ (fun f hf => (hsuit.table f.1 f.2 (hm f (by
        rcases List.mem_append.mp hf with hf | hf
        · simp [hf]
        · simp [List.mem_singleton.mp hf]))).1) (by
        refine List.Nodup.sublist ?_ hnodup
        exact List.Sublist.map _ (List.Sublist.append_left (List.Sublist.cons_cons _ (List.nil_sublist _)) _))
      (fun f hf g hg n hn hn' => by
        have hsub : ∀ f ∈ D ++ [e], f ∈ D ++ e :: l := by
          intro f hf
          rcases List.mem_append.mp hf with hf | hf
          · simp [hf]
          · simp [List.mem_singleton.mp hf]
        exact hsuit.one f.1 g.1 f.2 g.2 n (hm f (hsub f hf)) (hm g (hsub g hg)) hn hn') h h1
    obtain ⟨y, hy⟩ := ih (D ++ [e]) H₁ t₁ (by rw [he, List.append_assoc]; rfl) (seatIrms_reach _ _ _ _ hR h1) (hs'.trans hs) s
    refine ⟨y, ?_⟩
    rw [seatIrms_cons, h1]
    exact hy

/-- A file that suits the schema and the observations is accepted, up to the observations. -/
theorem hirmFromTxt_ok {parse : F.C ⊕ F.E → String → Res V} {schema : Schema F} {obs : ObsMap String} {relations : FMap Int (List String)} {irms : FMap Int Clusters}
    (ha : ∀ n spec b sp, schema.find? n = some spec → spec.base? = some b → schema.find? b = some sp → sp.doms.length ≤ spec.doms.length)
    (hd : ∀ n spec, schema.find? n = some spec → spec.doms ≠ []) (hb : BasesEarlier schema) (hsuit : SuitsHirm schema obs relations irms) {t t₁ : Tape} {enc : Encoding}
    (henc : calculateEncoding schema obs t = .ok (enc, t₁)) (L : FamilyLaws F) :
    ∃ H t₂, Reach L H ∧ H.schema = schema ∧ (∀ n k, ¬ H.stores n k = true) ∧
      hirmFromTxt parse schema obs relations irms t = incorporateObservations (HIRM.host F) parse H enc obs t₂ := by
  obtain ⟨⟨H₁, t₂⟩, h1⟩ := addAside_ok (L := L) ha hd hb schema.entries [] {} t₁ rfl (fun n => rfl) .empty
  have hR₁ := addAside_reach (L := L) ha _ _ _ _ (fun e he => FMap.mem_entries.mp he) (fun n sp h => by cases h) .empty h1
  obtain ⟨a, b⟩ := addAside_start h1
  have hnum := numbers henc
  have hseat : Seating enc irms [] H₁ := ⟨a.known.mono (fun _ _ _ => trivial), a.named, a.empty, fun tb I hI _ => a.known.seats tb I hI, by simp, fun n tb hn => .inl (a.tables n tb hn), by simp⟩
  obtain ⟨⟨H₂, t₃⟩, h2⟩ := seatIrms_ok hnum hsuit relations.entries [] H₁ t₂ rfl hR₁ b hseat
  have hR₂ := seatIrms_reach _ _ _ _ hR₁ h2
  have hm : ∀ e, e ∈ relations.entries → relations.find? e.1 = some e.2 := fun e he => FMap.mem_entries.mp he
  obtain ⟨s, hs⟩ := seatIrms_seating (enc := enc) (irms := irms) relations.entries [] H₁ t₂ _ (fun e he => (hsuit.table e.1 e.2 (hm e (by simpa using he))).1)
    relations.nodupKeys (fun e he e' he' n hn hn' => hsuit.one e.1 e'.1 _ _ n (hm e (by simpa using he)) (hm e' (by simpa using he')) hn hn') hseat h2
  rw [List.nil_append] at s
  dsimp only at s hs hR₂
  have hno : H₂.irms.contains (-1) = false := by
    rw [FMap.contains_false]
    cases hI : H₂.irms.find? (-1) with
    | none => rfl
    | some I =>
      obtain ⟨n, hn⟩ := hR₂.good.skel.consistent.nonempty (-1) I hI
      have hT := (hR₂.good.skel.place (-1) I hI n).mp hn
      have hk : schema.contains n = true := by rw [← b, ← hs]; exact tableOf_known hR₂.good.skel hT
      obtain ⟨tb, l, k1, k2⟩ := (hsuit.each n).mp hk
      have := s.listed tb l (FMap.mem_entries.mpr k1) n k2
      rw [hT] at this
      cases this
      have := (hsuit.table _ _ k1).1
      omega
  refine ⟨H₂, t₃, hR₂, hs.trans b, s.empty, ?_⟩
  simp only [hirmFromTxt, bind, Except.bind, henc, h1, h2, assertR, hno]
  rfl

end UtilIO
end
end Verif
