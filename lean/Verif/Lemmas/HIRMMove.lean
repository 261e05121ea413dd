import Verif.Lemmas.HIRMGood
/-! Helper lemmas: in a good state a relation can be moved to any table. -/
namespace Verif
open Spec
noncomputable section
variable {V : Type} {F : Family V} {L : FamilyLaws F}

namespace HIRM
open IRM

/-! ### copying a relation into an IRM -/

/-- the observation can be incorporated into the relation -/
structure Fits (L : FamilyLaws F) (env : Env V) (q : Rel F) (k : Items) (v : V) : Prop where
  length : k.length = q.doms.length
  supp : q.Supports L (baseOf env q) k v
  base : q.HasBase (baseOf env q) k

theorem Fits.shape {env : Env V} {q q' : Rel F} {k : Items} {v : V} (h : Fits L env q k v) (hs : q.SameShape q') : Fits L env q' k v := by
  have hb : baseOf env q' = baseOf env q := by rw [baseOf, baseOf, hs.base]
  refine ⟨by rw [hs.doms]; exact h.length, ?_, ?_⟩
  · rw [hb]
    have := h.supp
    have hk := hs.kind
    cases q with
    | clean c x =>
      cases q' with
      | clean c' x' => cases hk; exact this
      | noisy e p x' => cases hk
    | noisy e p x =>
      cases q' with
      | clean c' x' => cases hk
      | noisy e' p' x' => cases hk; exact this
  · rw [hb]
    intro p hp
    exact h.base p (by rw [← hs.base]; exact hp)

theorem fill_ok {ar : Ptr → Option Nat} {env : Env V} {r : String} {id : Nat} : ∀ (l : List (Items × V)) (q : Rel F) (I : IRM F) (t : Tape),
    IRM.Inv L ar I → I.rels.find? r = some (id, q) → (∀ p, q.base? = some p → ∀ b', baseOf env q = some b' → ar p = some b'.arity) →
    (l.map Prod.fst).Nodup → (∀ e ∈ l, q.data.find? e.1 = none ∧ Fits L env q e.1 e.2) →
    ∃ σ' q' t', fill env r l I t = .ok ({ I with doms := σ', rels := I.rels.set r (id, q') }, t') ∧
      IRM.Inv L ar { I with doms := σ', rels := I.rels.set r (id, q') } ∧ q.SameShape q' ∧
      Grows (fun d i => ∃ e ∈ l, Uses q.doms d i e.1) I.doms σ' ∧
      (∀ p b', q.base? = some p → baseOf env q = some b' →
        (∀ e ∈ l, ∃ bv, b'.data.find? (e.1.take b'.arity) = some bv ∧ q'.pairs.find? e.1 = some (bv, e.2)) ∧
        ∀ k, k ∉ l.map Prod.fst → q'.pairs.find? k = q.pairs.find? k) := by
  intro l
  induction l with
  | nil =>
    intro q I t h hr _ _ _
    refine ⟨I.doms, q, t, by rw [FMap.set_of_find hr]; rfl, by rw [FMap.set_of_find hr]; exact h, .refl q, ?_, fun p b' _ _ => ⟨by simp, by simp⟩⟩
    exact (Grows.refl I.doms).congr (by simp)
  | cons e l ih =>
    obtain ⟨k, v⟩ := e
    intro q I t h hr hb hnd hl
    rw [List.map_cons, List.nodup_cons] at hnd
    obtain ⟨hk, hf⟩ := hl (k, v) (by simp)
    obtain ⟨σ1, q1, t1, h1, h2, h3, h4, h5, h6⟩ := IRM.incorporate_ok' h hr hb hf.supp hf.length hk hf.base t
    have hb1 : baseOf env q1 = baseOf env q := by rw [baseOf, baseOf, h3.base]
    obtain ⟨σ2, q2, t2, a1, a2, a3, a4, a5⟩ := ih q1 _ t1 h2 (by dsimp only; rw [FMap.find?_set_self]) (by
      rw [hb1, h3.base]; exact hb) hnd.2 (by
      intro e he
      obtain ⟨h7, h8⟩ := hl e (by simp [he])
      refine ⟨?_, h8.shape h3⟩
      rw [h4, FMap.find?_set_ne _ (fun hh => hnd.1 (List.mem_map.mpr ⟨e, he, hh⟩))]
      exact h7)
    dsimp only at a1 a2 a4
    rw [FMap.set_set] at a1 a2
    refine ⟨σ2, q2, t2, ?_, a2, h3.trans a3, ?_, ?_⟩
    · simp only [fill, h1, bind, Except.bind]; exact a1
    · refine (h5.trans a4).congr ?_
      intro d i
      rw [h3.doms]
      simp
    · intro p b' hp hb'
      obtain ⟨c1, c2⟩ := a5 p b' (by rw [h3.base]; exact hp) (by rw [hb1]; exact hb')
      obtain ⟨b'', bv, d1, d2⟩ := hf.base p hp
      rw [hb'] at d1; cases d1
      have d3 := h6 p hp b' hb' bv d2
      refine ⟨fun e he => ?_, fun k' hk' => ?_⟩
      · rcases List.mem_cons.mp he with rfl | he
        · refine ⟨bv, d2, ?_⟩
          rw [c2 k hnd.1, d3, FMap.find?_set_self]
        · exact c1 e he
      · simp only [List.map_cons, List.mem_cons, not_or] at hk'
        rw [c2 k' hk'.2, d3, FMap.find?_set_ne _ hk'.1]

/-- `I'` is `I` with relation object `q` added under the name `r` -/
structure Put (L : FamilyLaws F) (ar : Ptr → Option Nat) (H : HIRM F) (r : String) (spec : RelSpec F) (obs : FMap Items V) (p : Ptr)
    (I I' : IRM F) (id : Nat) (q : Rel F) : Prop where
  inv : IRM.Inv L ar I'
  fresh : I.rels.find? r = none
  rels : I'.rels = I.rels.set r (id, q)
  schema : I'.schema = I.schema.set r spec
  matched : spec.Matches q
  base : ∀ p', q.base? = some p' → p' = p
  data : q.data = obs
  linked : ∀ btb bid b, H.relOf p.name = some (btb, bid, b) → (∃ b', spec.base? = some b') → Linked q b
  seat : ∀ d i z, seatOf I.doms d i = some z → seatOf I'.doms d i = some z
  mem : ∀ d i, (∃ z, seatOf I'.doms d i = some z) ↔ (∃ z, seatOf I.doms d i = some z) ∨ ∃ k, obs.contains k = true ∧ Uses spec.doms d i k

theorem putRelation_ok {H : HIRM F} {ar : Ptr → Option Nat} {I : IRM F} (h : IRM.Inv L ar I) {r : String} (hr : I.rels.find? r = none)
    {spec : RelSpec F} (hd : spec.doms ≠ []) {p : Ptr} (hp : H.BasePtr spec p)
    (har : ∀ b, spec.base? = some b → ∀ btb bid q, H.relOf b = some (btb, bid, q) → ar p = some q.doms.length ∧ q.doms.length ≤ spec.doms.length)
    {data : FMap Items V}
    (hfit : ∀ q : Rel F, spec.Matches q → (∀ p', q.base? = some p' → p' = p) → ∀ k v, data.find? k = some v → Fits L H.env q k v) (t : Tape) :
    ∃ I' q t', H.putRelation I r spec data t = .ok (I', t') ∧ Put L ar H r spec data p I I' H.next q := by
  have hadd : ∃ I1 q1, addObj H.next I r p spec = .ok I1 ∧ Added H.next r spec q1 I I1 ∧ (∀ p', q1.base? = some p' → p' = p) ∧
      IRM.Inv L ar I1 := by
    cases spec with
    | clean c ds o =>
      obtain ⟨I1, q1, h1, h2, _, h4⟩ := addClean_ok h hr H.next c hd o
      refine ⟨I1, q1, h1, h2, ?_, h2.inv h (h4 ar) (fun _ _ _ _ _ _ => rfl)⟩
      intro p' hp'
      have := h2.matched.base
      rw [hp'] at this; cases this
    | noisy e ds b o =>
      obtain ⟨btb, bid, rb, h0, hpe⟩ := hp b rfl
      obtain ⟨I1, q1, h1, h2, h3, _, h4⟩ := addWithBase_ok h hr H.next e hd b o (p := p) (by rw [hpe])
      obtain ⟨h5, h6⟩ := har b rfl btb bid rb h0
      refine ⟨I1, q1, h1, h2, ?_, h2.inv h (h4 ar _ h5 h6) (fun _ _ _ _ _ _ => rfl)⟩
      intro p' hp'
      rw [h3] at hp'; exact (Option.some.inj hp').symm
  obtain ⟨I1, q1, h1, h2, h3, h4⟩ := hadd
  have hx : I1.rels.find? r = some (H.next, q1) := by rw [h2.rels, FMap.find?_set_self]
  have hbase : ∀ p', q1.base? = some p' → ∃ b btb bid rb, spec.base? = some b ∧ H.relOf b = some (btb, bid, rb) ∧ p'.name = b ∧
      baseOf H.env q1 = some rb.view := by
    intro p' hp'
    have := h3 p' hp'
    subst this
    have hm := h2.matched.base
    rw [hp'] at hm
    obtain ⟨btb, bid, rb, h0, hpe⟩ := hp _ hm.symm
    refine ⟨_, btb, bid, rb, hm.symm, h0, rfl, ?_⟩
    rw [baseOf, hp']
    simp only [Option.bind_some]
    rw [hpe]
    exact env_relOf h0
  obtain ⟨σ', q', t', a1, a2, a3, a4, a5⟩ := fill_ok (env := H.env) (shuffle data.entries t).1 q1 I1 (shuffle data.entries t).2 h4 hx (by
    intro p' hp' b' hb'
    obtain ⟨b, btb, bid, rb, c1, c2, c3, c4⟩ := hbase p' hp'
    rw [hb'] at c4; cases c4
    rw [h3 p' hp']
    exact (har b c1 btb bid rb c2).1)
    (((shuffle_perm data.entries t).map _).nodup_iff.mpr (FMap.nodupKeys data)) (by
    intro e he
    have hm := FMap.mem_entries.mp ((shuffle_perm data.entries t).mem_iff.mp he)
    exact ⟨by rw [h2.data]; rfl, hfit q1 h2.matched h3 e.1 e.2 hm⟩)
  have heq : H.putRelation I r spec data t = .ok ({ I1 with doms := σ', rels := I1.rels.set r (H.next, q') }, t') := by
    simp only [putRelation, addRelationToIrm_eq hp, h1, bind, Except.bind, a1]
  have hW := putRelation_with heq
  have hdata : q'.data = data := by
    have := hW.data r
    rw [if_pos rfl, IRM.dataOf] at this
    dsimp only at this
    rw [FMap.find?_set_self] at this
    exact Option.some.inj this
  refine ⟨_, q', t', heq, ⟨a2, hr, ?_, hW.schema, h2.matched.shape a3, ?_, hdata, ?_, ?_, ?_⟩⟩
  · dsimp only; rw [h2.rels, FMap.set_set]
  · intro p' hp'; exact h3 p' (by rw [← a3.base]; exact hp')
  · intro btb bid b hb hsp k v hk
    obtain ⟨bn, hbn⟩ := hsp
    have hm := h2.matched.base
    rw [hbn] at hm
    obtain ⟨p', hp', hn⟩ := Option.map_eq_some_iff.mp hm
    obtain ⟨b0, btb0, bid0, rb, c1, c2, c3, c4⟩ := hbase p' hp'
    have hpp := h3 p' hp'
    subst hpp
    rw [c3, c2] at hb; cases hb
    rw [hdata] at hk
    obtain ⟨bv, d1, d2⟩ := (a5 p' _ hp' c4).1 (k, v) ((shuffle_perm data.entries t).mem_iff.mpr (FMap.mem_entries.mpr hk))
    exact ⟨bv, d1, d2⟩
  · intro d i z hz
    exact a4.seat d i z (by rw [h2.seat]; exact hz)
  · intro d i
    dsimp only
    rw [a4.mem]
    simp only [h2.seat]
    refine or_congr_right ?_
    constructor
    · rintro ⟨_, e, he, hu⟩
      refine ⟨e.1, FMap.contains_iff.mpr ⟨e.2, FMap.mem_entries.mp ((shuffle_perm data.entries t).mem_iff.mp he)⟩, ?_⟩
      rw [← h2.rdoms]; exact hu
    · rintro ⟨k, hk, hu⟩
      obtain ⟨v, hv⟩ := FMap.contains_iff.mp hk
      rw [← h2.rdoms] at hu
      exact ⟨h2.contains d (List.of_mem_zip hu).1, (k, v), (shuffle_perm data.entries t).mem_iff.mpr (FMap.mem_entries.mpr hv), hu⟩

theorem Put.congr {ar : Ptr → Option Nat} {H K : HIRM F} {r : String} {spec : RelSpec F} {obs : FMap Items V} {p : Ptr} {I I' : IRM F} {id : Nat} {q : Rel F}
    (h : Put L ar H r spec obs p I I' id q) (hk : K.relOf p.name = H.relOf p.name) : Put L ar K r spec obs p I I' id q :=
  ⟨h.inv, h.fresh, h.rels, h.schema, h.matched, h.base, h.data, fun btb bid b hb => h.linked btb bid b (by rw [← hk]; exact hb), h.seat, h.mem⟩

theorem Put.size {ar : Ptr → Option Nat} {H : HIRM F} {r : String} {spec : RelSpec F} {obs : FMap Items V} {p : Ptr} {I I' : IRM F} {id : Nat} {q : Rel F}
    (h : Put L ar H r spec obs p I I' id q) : I'.rels.size = I.rels.size + 1 := by
  rw [h.rels, size_set_new _ (FMap.contains_false.mpr h.fresh)]

/-- the observations of a relation fit into a copy of it -/
theorem Good.fits {H K : HIRM F} (h : Good L H) {r : String} {tb : Int} {rid : Nat} {rel : Rel F} (hr : H.relOf r = some (tb, rid, rel))
    {spec : RelSpec F} (hs : H.schema.find? r = some spec) {p : Ptr} (hp : H.BasePtr spec p)
    (hK : ∀ b, spec.base? = some b → K.relOf b = H.relOf b) {q : Rel F} (hq : spec.Matches q) (hqp : ∀ p', q.base? = some p' → p' = p)
    {k : Items} {v : V} (hk : rel.data.find? k = some v) : Fits L K.env q k v := by
  obtain ⟨spec', hs', hm⟩ := h.matched hr
  rw [hs] at hs'; cases hs'
  obtain ⟨_, I, hI, hx⟩ := relOf_some.mp hr
  have hinv := (h.inv tb I hI).rels r rid rel hx
  have hlen := hinv.length (FMap.contains_iff.mpr ⟨v, hk⟩)
  refine ⟨by rw [hlen, hm.doms, hq.doms], ?_, ?_⟩
  · have hkind : q.kind = rel.kind := hq.kind.trans hm.kind.symm
    cases q with
    | clean c x =>
      cases rel with
      | noisy e p' y => cases hkind
      | clean c' y =>
        cases hkind
        exact (CleanRel.Inv.seated hinv k v hk).1
    | noisy e p1 x =>
      cases rel with
      | clean c y => cases hkind
      | noisy e' p2 y =>
        cases hkind
        intro b' hb' bv hbv
        obtain ⟨_, btb, bid, b, h1, h2, h3⟩ := h.ptr r tb rid _ p2 hr rfl
        have hn1 := hq.base
        have hn2 := hm.base
        have e1 : p1 = p := hqp p1 rfl
        subst e1
        obtain ⟨btb', bid', b1, c1, c2⟩ := hp p1.name hn1.symm
        have hnn : p2.name = p1.name := by
          rw [← hn1] at hn2
          exact Option.some.inj hn2
        rw [hnn, c1] at h1; cases h1
        have hKb := hK p1.name hn1.symm
        rw [c1] at hKb
        have : baseOf K.env (.noisy e p1 x : Rel F) = some b.view := by
          rw [baseOf]
          simp only [Rel.base?, Option.bind_some]
          rw [c2]
          exact env_relOf hKb
        rw [this] at hb'; cases hb'
        obtain ⟨bv', d1, d2⟩ := h3 k v hk
        have d3 : b.data.find? (k.take b.doms.length) = some bv := hbv
        rw [d1] at d3; cases d3
        exact (hinv.1.seated k (bv, v) d2).1
  · intro p1 hp1
    have e1 := hqp p1 hp1
    subst e1
    have hn1 := hq.base
    rw [hp1] at hn1
    obtain ⟨btb', bid', b1, c1, c2⟩ := hp p1.name hn1.symm
    have hKb := hK p1.name hn1.symm
    rw [c1] at hKb
    have hbo : baseOf K.env q = some b1.view := by
      rw [baseOf, hp1]
      simp only [Option.bind_some]
      rw [c2]
      exact env_relOf hKb
    have hn2 := hm.base
    rw [← hn1] at hn2
    obtain ⟨p2, hp2, hn2⟩ := Option.map_eq_some_iff.mp hn2
    obtain ⟨_, btb, bid, b, h1, h2, h3⟩ := h.ptr r tb rid _ p2 hr hp2
    rw [hn2, c1] at h1; cases h1
    obtain ⟨bv', d1, _⟩ := h3 k v hk
    exact ⟨b1.view, bv', hbo, d1⟩

/-- the base pointer that a new object of relation `r` gets -/
theorem Good.basePtr {H : HIRM F} (h : Good L H) {r : String} {tb : Int} {rid : Nat} {rel : Rel F} (hr : H.relOf r = some (tb, rid, rel))
    {spec : RelSpec F} (hs : H.schema.find? r = some spec) :
    ∃ p, H.BasePtr spec p ∧ (∀ b, spec.base? = some b → b ≠ r ∧ ∀ btb bid q, H.relOf b = some (btb, bid, q) →
      arS H.schema p = some q.doms.length ∧ q.doms.length ≤ spec.doms.length) ∧ (∀ p', rel.base? = some p' → p' = p) := by
  obtain ⟨spec', hs', hm⟩ := h.matched hr
  rw [hs] at hs'; cases hs'
  obtain ⟨_, I, hI, hx⟩ := relOf_some.mp hr
  have hinv := (h.inv tb I hI).rels r rid rel hx
  cases rel with
  | clean c y =>
    have hn := hm.base
    exact ⟨⟨none, "", 0⟩, fun b hb => by rw [hb] at hn; (cases hn), fun b hb => by rw [hb] at hn; (cases hn), fun p' hp' => by cases hp'⟩
  | noisy e p y =>
    have hn := hm.base
    obtain ⟨hne, btb, bid, b, h1, h2, h3⟩ := h.ptr r tb rid _ p hr rfl
    have hn' : spec.base? = some p.name := hn.symm
    refine ⟨p, fun b' hb' => ?_, fun b' hb' => ?_, fun p' hp' => by cases hp'; rfl⟩
    · rw [hn'] at hb'; cases hb'
      exact ⟨btb, bid, b, h1, h2⟩
    · rw [hn'] at hb'; cases hb'
      refine ⟨hne, fun btb' bid' q hq => ?_⟩
      rw [h1] at hq; cases hq
      have har := h.arity h1 (p := p) rfl
      refine ⟨har, ?_⟩
      obtain ⟨_, n, h4, h5⟩ := hinv
      rw [har] at h4; cases h4
      rw [← hm.doms]
      exact h5.arity

/-! ### the scoring loop -/

/-- what a move needs to know about the relation -/
structure Ready (L : FamilyLaws F) (H : HIRM F) (r : String) (cur : Int) (rid : Nat) (rel : Rel F) (spec : RelSpec F) (p : Ptr) : Prop where
  good : Good L H
  obj : H.relOf r = some (cur, rid, rel)
  find : H.schema.find? r = some spec
  ptr : H.BasePtr spec p
  arity : ∀ b, spec.base? = some b → b ≠ r ∧ ∀ btb bid q, H.relOf b = some (btb, bid, q) →
      arS H.schema p = some q.doms.length ∧ q.doms.length ≤ spec.doms.length
  own : ∀ p', rel.base? = some p' → p' = p

theorem Good.ready {H : HIRM F} (h : Good L H) {r : String} (hr : H.schema.contains r = true) :
    ∃ cur rid rel spec p, Ready L H r cur rid rel spec p := by
  obtain ⟨tb, hT⟩ := h.skel.table_some hr
  obtain ⟨I, hI, hx⟩ := h.skel.irm hT
  obtain ⟨x, hx⟩ := FMap.contains_iff.mp hx
  have hrel : H.relOf r = some (tb, x.1, x.2) := h.skel.obj hI hx
  obtain ⟨spec, hs⟩ := FMap.contains_iff.mp hr
  obtain ⟨p, h1, h2, h3⟩ := h.basePtr hrel hs
  exact ⟨tb, x.1, x.2, spec, p, h, hrel, hs, h1, h2, h3⟩

theorem Ready.put {H : HIRM F} {r : String} {cur : Int} {rid : Nat} {rel : Rel F} {spec : RelSpec F} {p : Ptr} (h : Ready L H r cur rid rel spec p)
    {K : HIRM F} (hrel : ∀ n, n ≠ r → K.relOf n = H.relOf n) {I : IRM F} (hI : IRM.Inv L (arS H.schema) I) (hr : I.rels.find? r = none) (t : Tape) :
    ∃ I' q t', K.putRelation I r spec rel.data t = .ok (I', t') ∧ Put L (arS H.schema) H r spec rel.data p I I' K.next q := by
  obtain ⟨spec', hs', hm⟩ := h.good.matched h.obj
  have hsp := h.find
  rw [hs'] at hsp; cases hsp
  obtain ⟨_, J, hJ, hx⟩ := relOf_some.mp h.obj
  have hne := ((h.good.inv cur J hJ).rels r rid rel hx).ne
  have hb : ∀ b, spec.base? = some b → K.relOf b = H.relOf b := fun b hb => hrel b (h.arity b hb).1
  obtain ⟨I', q, t', h1, h2⟩ := putRelation_ok (H := K) hI hr (by rw [← hm.doms]; exact hne) (p := p) (by
    intro b hb'
    obtain ⟨btb, bid, q, c1, c2⟩ := h.ptr b hb'
    exact ⟨btb, bid, q, (hb b hb').trans c1, c2⟩) (by
    intro b hb' btb bid q hq
    rw [hb b hb'] at hq
    exact (h.arity b hb').2 btb bid q hq) (data := rel.data) (by
    intro q hq hqp k v hk
    exact h.good.fits h.obj h.find h.ptr hb hq hqp hk) t
  refine ⟨I', q, t', h1, h2.inv, h2.fresh, h2.rels, h2.schema, h2.matched, h2.base, h2.data, ?_, h2.seat, h2.mem⟩
  intro btb bid b hpb hsb
  obtain ⟨b', hb'⟩ := hsb
  refine h2.linked btb bid b ?_ ⟨b', hb'⟩
  obtain ⟨btb1, bid1, q1, c1, c2⟩ := h.ptr b' hb'
  have : p.name = b' := by rw [c2]
  rw [this] at hpb ⊢
  rw [hb b' hb']
  exact hpb

/-- what the scoring loop leaves behind -/
structure Copied (L : FamilyLaws F) (H : HIRM F) (r : String) (cur : Int) (rel : Rel F) (spec : RelSpec F) (p : Ptr) (ks : List Int) (K K' : HIRM F)
    (aux : Option (Int × IRM F)) : Prop where
  schema : K'.schema = K.schema
  relToCode : K'.relToCode = K.relToCode
  codeToRel : K'.codeToRel = K.codeToRel
  baseToNoisy : K'.baseToNoisy = K.baseToNoisy
  crp : K'.crp = K.crp
  none_irm : ∀ tb, K.irms.find? tb = none → K'.irms.find? tb = none
  touched : ∀ tb I, K.irms.find? tb = some I → tb ∈ ks → tb ≠ cur → ∃ I' id q, K'.irms.find? tb = some I' ∧ Put L (arS H.schema) H r spec rel.data p I I' id q
  kept : ∀ tb I, K.irms.find? tb = some I → tb ∉ ks ∨ tb = cur → K'.irms.find? tb = some I
  aux_some : ∀ tb, tb ∈ ks → K.irms.find? tb = none → ∃ I id q, aux = some (tb, I) ∧ Put L (arS H.schema) H r spec rel.data p {} I id q

theorem scoreTables_ok {H : HIRM F} {r : String} {cur : Int} {rid : Nat} {rel : Rel F} {spec : RelSpec F} {p : Ptr} (h : Ready L H r cur rid rel spec p) :
    ∀ (l : List (Int × ℝ)) (K : HIRM F) (aux : Option (Int × IRM F)) (t : Tape), (l.map Prod.fst).Nodup →
      (∀ n, n ≠ r → K.relOf n = H.relOf n) → K.relOf r = H.relOf r →
      (∀ tb ∈ l.map Prod.fst, ∀ I, K.irms.find? tb = some I → IRM.Inv L (arS H.schema) I ∧ (tb ≠ cur → I.rels.find? r = none)) →
      (∀ tb ∈ l.map Prod.fst, tb = cur → K.irms.contains tb = true) →
      (∀ tb ∈ l.map Prod.fst, K.irms.find? tb = none → aux = none ∧ ∀ tb' ∈ l.map Prod.fst, tb' ≠ tb → K.irms.contains tb' = true) →
      ∃ lps K' aux' t', scoreTables r cur spec rel.data l K aux t = .ok (lps, K', aux', t') ∧ lps.map Prod.fst = l.map Prod.fst ∧
        Copied L H r cur rel spec p (l.map Prod.fst) K K' aux' ∧ (∀ x, aux = some x → aux' = some x) ∧
        ((∀ tb ∈ l.map Prod.fst, K.irms.contains tb = true) → aux' = aux) := by
  intro l
  induction l with
  | nil =>
    intro K aux t _ _ _ _ _ _
    exact ⟨[], K, aux, t, rfl, rfl, ⟨rfl, rfl, rfl, rfl, rfl, fun _ h => h, fun _ _ _ hh => (by cases hh), fun _ _ h _ => h, fun _ hh => (by cases hh)⟩,
      fun _ h => h, fun _ => rfl⟩
  | cons e l ih =>
    obtain ⟨tb, w⟩ := e
    intro K aux t hnd hrel hrr hinv hcur hnone
    rw [List.map_cons, List.nodup_cons] at hnd
    by_cases htc : tb = cur
    · -- the current table
      subst htc
      obtain ⟨I, hI⟩ := FMap.contains_iff.mp (hcur tb (by simp) rfl)
      have hx : ∃ x, I.rels.find? r = some x := by
        have := h.obj
        rw [← hrr] at this
        obtain ⟨_, J, hJ, hx⟩ := relOf_some.mp this
        rw [hI] at hJ; cases hJ
        exact ⟨_, hx⟩
      obtain ⟨x, hx⟩ := hx
      have hset : K.irms.set tb I = K.irms := FMap.set_of_find hI
      obtain ⟨lps, K', aux', t', a1, a2, a3, a4, a5⟩ := ih K aux t hnd.2 hrel hrr (fun u hu => hinv u (by simp [hu])) (fun u hu => hcur u (by simp [hu]))
        (fun u hu hn => ⟨(hnone u (by simp [hu]) hn).1, fun u' hu' => (hnone u (by simp [hu]) hn).2 u' (by simp [hu'])⟩)
      refine ⟨(tb, Real.log w + x.2.logpScore) :: lps, K', aux', t', ?_, by simp [a2], ?_, a4, fun hh => a5 (fun u hu => hh u (by simp [hu]))⟩
      · have hc : K.irms.contains tb = true := FMap.contains_iff.mpr ⟨I, hI⟩
        have hK : ({ K with irms := K.irms.set tb I } : HIRM F) = K := by rw [hset]
        simp only [scoreTables, hI, bind, Except.bind, ne_eq, not_true, if_false, FMap.atKey_of_find hx, hc, if_true, hK, a1]
      · exact ⟨a3.schema, a3.relToCode, a3.codeToRel, a3.baseToNoisy, a3.crp, a3.none_irm,
          fun u J hJ hu hne => a3.touched u J hJ ((List.mem_cons.mp hu).resolve_left hne) hne,
          fun u J hJ hu => a3.kept u J hJ (by
            rcases hu with hu | hu
            · exact .inl (fun hh => hu (by simp [hh]))
            · exact .inr hu),
          fun u hu hn => by
            rcases List.mem_cons.mp hu with hu | hu
            · dsimp only at hu; rw [hu, hI] at hn; cases hn
            · exact a3.aux_some u hu hn⟩
    · cases hI : K.irms.find? tb with
      | some I =>
        obtain ⟨h1, h2⟩ := hinv tb (by simp) I hI
        obtain ⟨I', q, t1, b1, b2⟩ := h.put hrel h1 (h2 htc) t
        have hc : K.irms.contains tb = true := FMap.contains_iff.mpr ⟨I, hI⟩
        have hx : I'.rels.find? r = some (K.next, q) := by rw [b2.rels, FMap.find?_set_self]
        -- the relations seen are the same
        have hrel' : ∀ n, HIRM.relOf { K with next := K.next + 1, irms := K.irms.set tb I' } n = K.relOf n := by
          intro n
          have e1 : HIRM.relOf { K with next := K.next + 1, irms := K.irms.set tb I' } n = HIRM.relOf { K with irms := K.irms.set tb I' } n := rfl
          rw [e1, relOf_setIrm hI]
          split
          · rename_i hT
            have hne : n ≠ r := by
              rintro rfl
              have := h.obj
              rw [← hrr] at this
              rw [(relOf_some.mp this).1] at hT
              exact htc (Option.some.inj hT).symm
            rw [b2.rels, FMap.find?_set_ne _ hne]
            unfold HIRM.relOf
            rw [hT]
            simp only [Option.bind_eq_bind, Option.bind_some, hI]
            cases I.rels.find? n <;> rfl
          · rfl
        have hsame : ∀ u, u ∈ l.map Prod.fst → (K.irms.set tb I').find? u = K.irms.find? u := fun u hu =>
          FMap.find?_set_ne _ (fun hh => hnd.1 (by dsimp only; rw [← hh]; exact hu)) _
        have hsamec : ∀ u, u ∈ l.map Prod.fst → (K.irms.set tb I').contains u = K.irms.contains u := fun u hu => by
          unfold FMap.contains; rw [hsame u hu]
        obtain ⟨lps, K', aux', t', a1, a2, a3, a4, a5⟩ := ih { K with next := K.next + 1, irms := K.irms.set tb I' } aux t1 hnd.2
          (fun n hn => (hrel' n).trans (hrel n hn)) ((hrel' r).trans hrr)
          (fun u hu J hJ => hinv u (by simp [hu]) J (by dsimp only at hJ; rw [hsame u hu] at hJ; exact hJ))
          (fun u hu hh => by dsimp only; rw [hsamec u hu]; exact hcur u (by simp [hu]) hh)
          (fun u hu hn => by
            dsimp only at hn
            rw [hsame u hu] at hn
            obtain ⟨c1, c2⟩ := hnone u (by simp [hu]) hn
            exact ⟨c1, fun u' hu' hne => by dsimp only; rw [hsamec u' hu']; exact c2 u' (by simp [hu']) hne⟩)
        refine ⟨(tb, Real.log w + q.logpScore) :: lps, K', aux', t', ?_, by simp [a2], ?_, a4, fun hh => a5 (fun u hu => by
          dsimp only; rw [hsamec u hu]; exact hh u (by simp [hu]))⟩
        · simp only [scoreTables, hI, bind, Except.bind, ne_eq, htc, not_false_eq_true, if_true, b1, FMap.atKey_of_find hx, hc]
          rw [a1]
        · refine ⟨a3.schema, a3.relToCode, a3.codeToRel, a3.baseToNoisy, a3.crp, ?_, ?_, ?_, ?_⟩
          · intro u hu
            refine a3.none_irm u ?_
            dsimp only
            rw [FMap.find?_set_ne _ (fun hh => by rw [hh, hI] at hu; cases hu)]
            exact hu
          · intro u J hJ hu hne
            by_cases hut : u = tb
            · subst hut
              rw [hI] at hJ; cases hJ
              refine ⟨I', K.next, q, ?_, b2⟩
              exact a3.kept u I' (by dsimp only; rw [FMap.find?_set_self]) (.inl hnd.1)
            · exact a3.touched u J (by dsimp only; rw [FMap.find?_set_ne _ hut]; exact hJ) ((List.mem_cons.mp hu).resolve_left hut) hne
          · intro u J hJ hu
            have hut : u ≠ tb := by
              rintro rfl
              rcases hu with hu | hu
              · exact hu (by simp)
              · exact htc hu
            refine a3.kept u J (by dsimp only; rw [FMap.find?_set_ne _ hut]; exact hJ) ?_
            rcases hu with hu | hu
            · exact .inl (fun hh => hu (by simp [hh]))
            · exact .inr hu
          · intro u hu hn
            rcases List.mem_cons.mp hu with hu | hu
            · dsimp only at hu; rw [hu, hI] at hn; cases hn
            · exact a3.aux_some u hu (by dsimp only; rw [hsame u hu]; exact hn)
      | none =>
        obtain ⟨c1, c2⟩ := hnone tb (by simp) hI
        subst c1
        obtain ⟨I', q, t1, b1, b2⟩ := h.put hrel (inv_empty (L := L) (ar := arS H.schema)) rfl t
        have hc : K.irms.contains tb = false := FMap.contains_false.mpr hI
        have hx : I'.rels.find? r = some (K.next, q) := by rw [b2.rels, FMap.find?_set_self]
        have hall : ∀ u ∈ l.map Prod.fst, K.irms.contains u = true := fun u hu => c2 u (by simp [hu]) (fun hh => hnd.1 (hh ▸ hu))
        obtain ⟨lps, K', aux', t', a1, a2, a3, a4, a5⟩ := ih { K with next := K.next + 1 } (some (tb, I')) t1 hnd.2
          hrel hrr (fun u hu => hinv u (by simp [hu])) (fun u hu => hcur u (by simp [hu]))
          (fun u hu hn => by
            have := hall u hu
            rw [FMap.contains_false.mpr hn] at this; cases this)
        have e := a4 _ rfl
        refine ⟨(tb, Real.log w + q.logpScore) :: lps, K', aux', t', ?_, by simp [a2], ?_, fun x hx => by (cases hx), fun hh => ?_⟩
        · simp only [scoreTables, hI, bind, Except.bind, ne_eq, htc, not_false_eq_true, if_true, b1, FMap.atKey_of_find hx, hc, Option.isNone, assertR,
            Bool.false_eq_true, if_false]
          rw [a1]
        · refine ⟨a3.schema, a3.relToCode, a3.codeToRel, a3.baseToNoisy, a3.crp, a3.none_irm, ?_, ?_, ?_⟩
          · intro u J hJ hu hne
            rcases List.mem_cons.mp hu with hu | hu
            · dsimp only at hu; rw [hu, hI] at hJ; cases hJ
            · exact a3.touched u J hJ hu hne
          · intro u J hJ hu
            refine a3.kept u J hJ ?_
            rcases hu with hu | hu
            · exact .inl (fun hh => hu (by simp [hh]))
            · exact .inr hu
          · intro u hu hn
            rcases List.mem_cons.mp hu with hu | hu
            · dsimp only at hu; subst hu
              exact ⟨I', K.next, q, e, b2⟩
            · have := hall u hu
              rw [FMap.contains_false.mpr hn] at this; cases this
        · have := hh tb (by simp)
          rw [hc] at this; cases this

end HIRM
end
end Verif
