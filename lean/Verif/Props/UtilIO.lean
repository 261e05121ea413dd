import Verif.Lemmas.UtilIO
import Verif.Props.HIRMMoves
/-!
C32: entity encodings.  C49: the check of the domains of noisy relations.  C55: merging observations.
-/
namespace Verif
variable {V : Type}
namespace UtilIO

theorem initSchema_facts {F : Family V} (schema : Schema F) :
    GoodEnc (initSchema schema.entries {}) ∧ (∀ d x, ¬ Has (initSchema schema.entries {}) d x) ∧
    (∀ d, Known (initSchema schema.entries {}) d ↔ IsDomain schema d) ∧
    ∀ d, (∃ m, (initSchema schema.entries {}).rev.find? d = some m) → Known (initSchema schema.entries {}) d := by
  obtain ⟨h1, h2, h3, h4⟩ := initSchema_spec schema.entries {} (fun d m h => by cases h) (by rintro d x ⟨m, c, h, _⟩; cases h)
  refine ⟨h1, h2, fun d => ?_, h4 (by rintro d ⟨m, h⟩; cases h)⟩
  rw [h3]
  constructor
  · rintro (⟨m, h⟩ | ⟨r, spec, h, hd⟩)
    · cases h
    · exact ⟨r, spec, FMap.mem_entries.mp h, hd⟩
  · rintro ⟨r, spec, h, hd⟩
    exact .inr ⟨r, spec, FMap.mem_entries.mpr h, hd⟩

theorem calculate_inv {F : Family V} {schema : Schema F} {obs : ObsMap String} {t t' : Tape} {e : Encoding}
    (h : calculateEncoding schema obs t = .ok (e, t')) : Fits schema obs ∧
    ∃ s : EncState, s.toEncoding = e ∧ EStep (initSchema schema.entries {}) s (fun d x => Occurs schema obs d x) := by
  obtain ⟨g1, g2, g3, g4⟩ := initSchema_facts schema
  unfold calculateEncoding at h
  obtain ⟨s, h1, h2⟩ := bind_ok.mp h
  have hperm := shuffle_perm obs.entries t
  have hmem : ∀ r o, (r, o) ∈ (shuffle obs.entries t).1 ↔ obs.find? r = some o := fun r o => hperm.mem_iff.trans FMap.mem_entries
  have hfit := encRels_fits _ _ _ g1 (fun d hd => (g3 d).mpr hd) h1
  obtain ⟨s', h3, h4⟩ := encRels_ok _ _ g1 (fun d hd => (g3 d).mpr hd) hfit
  rw [h1] at h3
  cases h3
  cases h2
  refine ⟨fun r l items v hr hm => hfit r l items v ((hmem r l).mpr hr) hm, s, rfl, h4.good, h4.rev, h4.known, fun d x => ?_⟩
  rw [h4.has]
  constructor
  · rintro (h | ⟨r, o, h5, spec, items, v, i, h6, h7, h8, h9⟩)
    · exact .inl h
    · exact .inr ⟨r, spec, o, items, v, i, h6, (hmem r o).mp h5, h7, h8, h9⟩
  · rintro (h | ⟨r, spec, o, items, v, i, h6, h5, h7, h8, h9⟩)
    · exact .inl h
    · exact .inr ⟨r, o, (hmem r o).mpr h5, spec, items, v, i, h6, h7, h8, h9⟩

/-- C32: an encoding is calculated for exactly the observations that fit the schema, whatever the order in which they are visited. -/
theorem C32_calculated {F : Family V} (schema : Schema F) (obs : ObsMap String) (t : Tape) :
    (∃ e t', calculateEncoding schema obs t = .ok (e, t')) ↔ Fits schema obs := by
  constructor
  · rintro ⟨e, t', h⟩; exact (calculate_inv h).1
  · intro h
    obtain ⟨g1, g2, g3, g4⟩ := initSchema_facts schema
    have hperm := shuffle_perm obs.entries t
    obtain ⟨s, h1, _⟩ := encRels_ok (shuffle obs.entries t).1 _ g1 (fun d hd => (g3 d).mpr hd)
      (fun r o items v hr hm => h r o items v (FMap.mem_entries.mp (hperm.mem_iff.mp hr)) hm)
    refine ⟨s.toEncoding, (shuffle obs.entries t).2, ?_⟩
    unfold calculateEncoding
    simp only [bind, Except.bind, h1]

/-- C32: in each domain, codes and entities correspond one to one; the codes are 0, …, n - 1; the entities that have codes are those that occur in
the observations. -/
theorem C32_bijection {F : Family V} {schema : Schema F} {obs : ObsMap String} {t t' : Tape} {e : Encoding}
    (h : calculateEncoding schema obs t = .ok (e, t')) (d : String) :
    (∀ x c, Encoding.code e d x = some c ↔ Encoding.entity e d c = some x) ∧
    (∃ n : Nat, ∀ c, (∃ x, Encoding.entity e d c = some x) ↔ 0 ≤ c ∧ c < n) ∧
    (∀ x, (∃ c, Encoding.code e d x = some c) ↔ Occurs schema obs d x) ∧
    ((∃ m, e.fwd.find? d = some m) ↔ IsDomain schema d) ∧ ((∃ m, e.rev.find? d = some m) ↔ IsDomain schema d) := by
  obtain ⟨g1, g2, g3, g4⟩ := initSchema_facts schema
  obtain ⟨_, s, rfl, hs⟩ := calculate_inv h
  have hk : (∃ m, s.fwd.find? d = some m) ↔ IsDomain schema d := (hs.known d).trans (g3 d)
  have hocc : ∀ x, (∃ c, Encoding.code s.toEncoding d x = some c) ↔ Occurs schema obs d x := by
    intro x
    have := hs.has d x
    rw [iff_false_intro (g2 d x), false_or] at this
    rw [← this]
    unfold Has Encoding.code
    simp only [Option.bind_eq_some_iff]
    constructor
    · rintro ⟨c, m, h1, h2⟩; exact ⟨m, c, h1, h2⟩
    · rintro ⟨m, c, h1, h2⟩; exact ⟨c, m, h1, h2⟩
  have hr : (∃ m, s.rev.find? d = some m) ↔ ∃ m, s.fwd.find? d = some m := by
    constructor
    · exact hs.rev g4 d
    · rintro ⟨m, hm⟩
      obtain ⟨m', n, h1, _⟩ := hs.good d m hm
      exact ⟨m', h1⟩
  refine ⟨fun x c => ?_, ?_, hocc, hk, hr.trans hk⟩
  · unfold Encoding.code Encoding.entity
    cases hm : s.fwd.find? d with
    | none =>
      have : s.rev.find? d = none := by
        cases hm' : s.rev.find? d with
        | none => rfl
        | some m' => obtain ⟨m, h⟩ := hr.mp ⟨m', hm'⟩; rw [hm] at h; cases h
      rw [this]
      simp
    | some m =>
      obtain ⟨m', n, h1, _, h3⟩ := hs.good d m hm
      rw [h1]
      exact h3.inverse x c
  · unfold Encoding.entity
    cases hm : s.fwd.find? d with
    | none =>
      have : s.rev.find? d = none := by
        cases hm' : s.rev.find? d with
        | none => rfl
        | some m' => obtain ⟨m, h⟩ := hr.mp ⟨m', hm'⟩; rw [hm] at h; cases h
      rw [this]
      exact ⟨0, fun c => by simp⟩
    | some m =>
      obtain ⟨m', n, h1, _, h3⟩ := hs.good d m hm
      rw [h1]
      exact ⟨n, h3.codes⟩

/-- C32: the observations from which the encoding was calculated can be encoded; each relation keeps its observations, in order and with their values;
and the codes decode to the entities. -/
theorem C32_round_trip {F : Family V} {schema : Schema F} {obs : ObsMap String} {t t' : Tape} {e : Encoding}
    (h : calculateEncoding schema obs t = .ok (e, t')) (hr : ∀ r, obs.contains r = true → schema.contains r = true) (t2 : Tape) :
    ∃ m t3, encodeObservations schema obs e t2 = .ok (m, t3) ∧
      (∀ r, m.contains r = true ↔ ∃ l, obs.find? r = some l ∧ l ≠ []) ∧
      ∀ r spec, schema.find? r = some spec →
        List.Forall₂ (fun o c => Decodes e spec.doms o.1 c.1 ∧ o.2 = c.2) ((obs.find? r).getD []) ((m.find? r).getD []) := by
  have hfit := (calculate_inv h).1
  have hperm := shuffle_perm obs.entries t2
  have hmem : ∀ r o, (r, o) ∈ (shuffle obs.entries t2).1 ↔ obs.find? r = some o := fun r o => hperm.mem_iff.trans FMap.mem_entries
  have hnd : ((shuffle obs.entries t2).1.map Prod.fst).Nodup := (hperm.map Prod.fst).nodup_iff.mpr obs.nodupKeys
  have hcode : ∀ (r : String) (spec : RelSpec F) (l : List (List String × String)), schema.find? r = some spec → obs.find? r = some l → ∀ o ∈ l,
      ∃ cs, codesOf e.fwd spec.doms o.1 0 = .ok cs := by
    intro r spec l hs hl o ho
    obtain ⟨spec', hs', hlen⟩ := hfit r l o.1 o.2 hl ho
    rw [hs] at hs'
    cases hs'
    have hex : ∀ i : Fin o.1.length, ∃ c, Encoding.code e (spec.doms[i.1]'(by omega)) o.1[i.1] = some c := by
      intro i
      exact ((C32_bijection h _).2.2.1 _).mpr ⟨r, spec, l, o.1, o.2, i.1, hs, hl, ho, List.getElem?_eq_getElem i.2, List.getElem?_eq_getElem (by omega)⟩
    refine ⟨List.ofFn (fun i => (hex i).choose), (codesOf_ok _ _ _).mpr ⟨by simp, fun i x c hx hc => ?_⟩⟩
    obtain ⟨hi, rfl⟩ := List.getElem?_eq_some_iff.mp hx
    refine ⟨spec.doms[i]'(by omega), by rw [Nat.zero_add]; exact List.getElem?_eq_getElem (by omega), ?_⟩
    rw [List.getElem?_ofFn, dif_pos hi] at hc
    cases hc
    exact (hex ⟨i, hi⟩).choose_spec
  obtain ⟨m, hm⟩ := encodeRels_ex (schema := schema) (fwd := e.fwd) (shuffle obs.entries t2).1 ∅ (fun r o ho => by
    have ho := (hmem r o).mp ho
    obtain ⟨spec, hs⟩ := FMap.contains_iff.mp (hr r (FMap.contains_iff.mpr ⟨o, ho⟩))
    exact ⟨spec, hs, hcode r spec o hs ho⟩)
  obtain ⟨h1, h2⟩ := encodeRels_ok _ _ _ hnd (fun r o _ => rfl) hm
  have hnone : ∀ r, obs.find? r = none → m.find? r = none := by
    intro r hr'
    rw [h1 r]
    · rfl
    · intro hmm
      obtain ⟨⟨r', o⟩, ho, rfl⟩ := List.mem_map.mp hmm
      rw [(hmem r' o).mp ho] at hr'
      cases hr'
  refine ⟨m, (shuffle obs.entries t2).2, by unfold encodeObservations; simp only [bind, Except.bind, hm], fun r => ?_, fun r spec hs => ?_⟩
  · cases ho : obs.find? r with
    | none => rw [FMap.contains_iff, hnone r ho]; simp
    | some l =>
      obtain ⟨spec, cs, _, h4, h5⟩ := h2 r l ((hmem r l).mpr ho)
      rw [FMap.contains_iff, h5]
      have : cs = [] ↔ l = [] := by
        constructor
        · rintro rfl; cases h4; rfl
        · rintro rfl; cases h4; rfl
      by_cases hcs : cs = []
      · simp [hcs, this.mp hcs]
      · simp [hcs]
        exact fun e => hcs (this.mpr e)
  · cases ho : obs.find? r with
    | none => rw [hnone r ho]; exact .nil
    | some l =>
      obtain ⟨spec', cs, h3, h4, h5⟩ := h2 r l ((hmem r l).mpr ho)
      rw [hs] at h3
      cases h3
      have h6 : (m.find? r).getD [] = cs := by
        rw [h5]
        split
        · rename_i hc; exact hc.symm
        · rfl
      rw [h6]
      refine h4.imp (fun o c hoc => ⟨?_, hoc.2⟩)
      obtain ⟨h7, h8⟩ := (codesOf_ok _ _ _).mp hoc.1
      refine ⟨h7, fun i x c hx hc => ?_⟩
      obtain ⟨d, h9, h10⟩ := h8 i x c hx hc
      exact ⟨d, by simpa using h9, h10, ((C32_bijection h d).1 x c).mp h10⟩

/-- C32: nothing else can be encoded: with any encoding, an entity without a code or without a domain stops the program. -/
theorem C32_only_known {F : Family V} {schema : Schema F} {obs : ObsMap String} {t t' : Tape} {e : Encoding} {m : ObsMap Int}
    (h : encodeObservations schema obs e t = .ok (m, t')) {r : String} {l : List (List String × String)} (hl : obs.find? r = some l) :
    ∃ spec, schema.find? r = some spec ∧ ∀ o ∈ l, ∀ (i : Nat) (x : String), o.1[i]? = some x → ∃ d c, spec.doms[i]? = some d ∧ Encoding.code e d x = some c := by
  have hperm := shuffle_perm obs.entries t
  have hnd : ((shuffle obs.entries t).1.map Prod.fst).Nodup := (hperm.map Prod.fst).nodup_iff.mpr obs.nodupKeys
  unfold encodeObservations at h
  obtain ⟨m', h1, h2⟩ := bind_ok.mp h
  obtain ⟨_, h3⟩ := encodeRels_ok _ _ _ hnd (fun r o _ => rfl) h1
  obtain ⟨spec, cs, h4, h5, _⟩ := h3 r l (hperm.mem_iff.mpr (FMap.mem_entries.mpr hl))
  refine ⟨spec, h4, fun o ho i x hx => ?_⟩
  obtain ⟨j, hj, rfl⟩ := List.getElem_of_mem ho
  have hj' : j < cs.length := h5.length_eq ▸ hj
  have h6 := h5.get hj hj'
  obtain ⟨h7, h8⟩ := (codesOf_ok _ _ _).mp h6.1
  have hi : i < cs[j].1.length := by
    rw [show (cs[j].1).length = (l[j].1).length from h7]
    exact (List.getElem?_eq_some_iff.mp hx).1
  obtain ⟨d, h9, h10⟩ := h8 i x cs[j].1[i] hx (List.getElem?_eq_getElem hi)
  exact ⟨d, _, by simpa using h9, h10⟩

/-! ### C49 -/

theorem checkDomains_ok {doms : List String} : ∀ (bs : List String) (i : Nat), checkDomains doms bs i = .ok () ↔ bs <+: doms.drop i := by
  intro bs
  induction bs with
  | nil => intro i; simp [checkDomains]
  | cons b bs ih =>
    intro i
    rw [checkDomains]
    rcases Nat.lt_or_ge i doms.length with hlt | hge
    · rw [idxR_ok.mpr (List.getElem?_eq_getElem hlt), List.drop_eq_getElem_cons hlt, List.cons_prefix_cons, ← ih (i + 1)]
      simp only [bind, Except.bind, assertR]
      by_cases hb : b = doms[i]
      · simp [hb]
      · simp [hb]
    · rw [idxR, List.getElem?_eq_none hge, List.drop_eq_nil_of_le hge]
      simp [bind, Except.bind]

theorem checkDomains_ub {doms : List String} : ∀ (bs : List String) (i : Nat), i ≤ doms.length →
    (checkDomains doms bs i = .error .ub ↔ doms.drop i <+: bs ∧ doms.drop i ≠ bs) := by
  intro bs
  induction bs with
  | nil => intro i _; simp [checkDomains]
  | cons b bs ih =>
    intro i hi
    rw [checkDomains]
    rcases Nat.lt_or_ge i doms.length with hlt | hge
    · rw [idxR_ok.mpr (List.getElem?_eq_getElem hlt), List.drop_eq_getElem_cons hlt, List.cons_prefix_cons]
      simp only [bind, Except.bind, assertR]
      by_cases hb : b = doms[i]
      · subst hb
        have : (doms[i] :: doms.drop (i + 1) ≠ doms[i] :: bs) ↔ doms.drop (i + 1) ≠ bs := by
          rw [Ne, List.cons.injEq]; simp
        rw [this, beq_self_eq_true, if_pos rfl, and_iff_right rfl]
        exact ih (i + 1) (by omega)
      · simp [hb]
        intro h
        exact absurd h.symm hb
    · rw [idxR, List.getElem?_eq_none hge, List.drop_eq_nil_of_le hge]
      simp [bind, Except.bind]

theorem checkDomains_error {doms : List String} : ∀ (bs : List String) (i : Nat) (e : Err), checkDomains doms bs i = .error e → e = .ub ∨ e = .assert := by
  intro bs
  induction bs with
  | nil => intro i e h; cases h
  | cons b bs ih =>
    intro i e h
    rw [checkDomains] at h
    rcases Nat.lt_or_ge i doms.length with hlt | hge
    · rw [idxR_ok.mpr (List.getElem?_eq_getElem hlt)] at h
      simp only [bind, Except.bind, assertR] at h
      by_cases hb : b = doms[i]
      · simp [hb] at h; exact ih _ _ h
      · simp [hb] at h; exact .inr h.symm
    · rw [idxR, List.getElem?_eq_none hge] at h
      cases h; exact .inl rfl

/-- C49: the check passes exactly when the domains of each noisy relation start with those of its base, which must be in the schema. -/
theorem C49_accepts {F : Family V} (schema : Schema F) : verifyDomains schema = .ok () ↔
    ∀ n e doms base o, schema.find? n = some (.noisy e doms base o) → ∃ b, schema.find? base = some b ∧ b.doms <+: doms := by
  have key : ∀ l : List (String × RelSpec F), verifyRels schema l = .ok () ↔
      ∀ n e doms base o, (n, .noisy e doms base o) ∈ l → ∃ b, schema.find? base = some b ∧ b.doms <+: doms := by
    intro l
    induction l with
    | nil => simp [verifyRels]
    | cons x l ih =>
      obtain ⟨n, spec⟩ := x
      cases spec with
      | clean c doms o =>
        rw [verifyRels, ih]
        constructor
        · intro h n' e d b o' hm
          rcases List.mem_cons.mp hm with hm | hm
          · cases hm
          · exact h _ _ _ _ _ hm
        · intro h n' e d b o' hm
          exact h _ _ _ _ _ (List.mem_cons_of_mem _ hm)
      | noisy e doms base o =>
        rw [verifyRels, bind_ok]
        constructor
        · rintro ⟨b, h1, h2⟩ n' e' d' b' o' hm
          obtain ⟨u, h3, h4⟩ := bind_ok.mp h2
          rcases List.mem_cons.mp hm with hm | hm
          · cases hm
            exact ⟨b, FMap.atKey_ok.mp h1, by simpa using (checkDomains_ok _ 0).mp h3⟩
          · exact ih.mp h4 _ _ _ _ _ hm
        · intro h
          obtain ⟨b, h1, h2⟩ := h n e doms base o (by simp)
          refine ⟨b, FMap.atKey_of_find h1, bind_ok.mpr ⟨(), (checkDomains_ok _ 0).mpr (by simpa using h2), ?_⟩⟩
          exact ih.mpr (fun n' e' d' b' o' hm => h _ _ _ _ _ (List.mem_cons_of_mem _ hm))
  rw [verifyDomains, key]
  constructor
  · intro h n e d b o hm; exact h n e d b o (FMap.mem_entries.mpr hm)
  · intro h n e d b o hm; exact h n e d b o (FMap.mem_entries.mp hm)

/-- C49: if every noisy relation has at least as many domains as its base, all other schemas are refused: by the assertion, or because the base is missing. -/
theorem C49_refuses_partial {F : Family V} (schema : Schema F)
    (hl : ∀ n e doms base o b, schema.find? n = some (.noisy e doms base o) → schema.find? base = some b → b.doms.length ≤ doms.length)
    (h : verifyDomains schema ≠ .ok ()) : verifyDomains schema = .error .assert ∨ verifyDomains schema = .error .outOfRange := by
  have key : ∀ l : List (String × RelSpec F), (∀ n s, (n, s) ∈ l → schema.find? n = some s) →
      verifyRels schema l = .ok () ∨ verifyRels schema l = .error .assert ∨ verifyRels schema l = .error .outOfRange := by
    intro l
    induction l with
    | nil => intro _; exact .inl rfl
    | cons x l ih =>
      obtain ⟨n, spec⟩ := x
      intro hm
      have ih := ih (fun n s hs => hm n s (by simp [hs]))
      cases spec with
      | clean c doms o => rw [verifyRels]; exact ih
      | noisy e doms base o =>
        rw [verifyRels]
        cases hb : schema.find? base with
        | none => right; right; rw [FMap.atKey, hb]; rfl
        | some b =>
          rw [FMap.atKey_of_find hb]
          simp only [bind, Except.bind]
          cases hc : checkDomains doms b.doms 0 with
          | ok u => exact ih
          | error er =>
            right
            left
            rcases checkDomains_error _ _ _ hc with rfl | rfl
            · have := (checkDomains_ub _ 0 (by omega)).mp hc
              have hlen := hl n e doms base o b (hm _ _ (by simp)) hb
              rw [List.drop_zero] at this
              exact absurd (this.1.eq_of_length_le hlen) this.2
            · rfl
  rcases key schema.entries (fun n s hs => FMap.mem_entries.mp hs) with h' | h'
  · exact absurd h' h
  · exact h'

/-- C49 is false: a noisy relation with fewer domains than its base is not refused but undefined behaviour (if the ones that it has agree). -/
theorem C49_short_ub {F : Family V} (c : F.C) (e : F.E) (b n : String) (hbn : Key.lt b n = true) (ds ds' : List String) (hds : ds' ≠ []) :
    verifyDomains (((∅ : Schema F).set b (.clean c (ds ++ ds') false)).set n (.noisy e ds b false)) = .error .ub := by
  have hne : b ≠ n := Key.ne_of_lt hbn
  have hent : (((∅ : Schema F).set b (.clean c (ds ++ ds') false)).set n (.noisy e ds b false)).entries =
      [(b, .clean c (ds ++ ds') false), (n, .noisy e ds b false)] := by
    show FMap.lset n _ (FMap.lset b _ []) = _
    simp only [FMap.lset]
    rw [if_neg (by rw [Key.asymm hbn]; simp), if_neg hne]
  unfold verifyDomains
  rw [hent, verifyRels, verifyRels]
  have hb : (((∅ : Schema F).set b (.clean c (ds ++ ds') false)).set n (.noisy e ds b false)).find? b = some (.clean c (ds ++ ds') false) := by
    rw [FMap.find?_set_ne _ hne, FMap.find?_set_self]
  rw [FMap.atKey_of_find hb]
  simp only [bind, Except.bind]
  rw [(checkDomains_ub (RelSpec.clean (F := F) c (ds ++ ds') false).doms 0 (by omega)).mpr]
  simp [RelSpec.doms, hds]

/-! ### C55 -/

theorem copyObs_find : ∀ (l : List (String × List (List String × String))) (m : ObsMap String), (l.map Prod.fst).Nodup → ∀ r,
    (copyObs l m).find? r = ((l.find? (fun x => x.1 == r)).map Prod.snd).or (m.find? r) := by
  intro l
  induction l with
  | nil => intro m _ r; rfl
  | cons x l ih =>
    obtain ⟨k, o⟩ := x
    intro m hnd r
    simp only [List.map_cons, List.nodup_cons] at hnd
    rw [copyObs, ih _ hnd.2]
    by_cases h : k = r
    · subst h
      have : l.find? (fun x => x.1 == k) = none := by
        rw [List.find?_eq_none]
        rintro ⟨k', o'⟩ hm hk
        have hk : k' = k := by simpa using hk
        exact hnd.1 (by rw [← hk]; exact List.mem_map.mpr ⟨_, hm, rfl⟩)
      rw [this, List.find?_cons_of_pos (by simp), FMap.find?_set_self]
      rfl
    · rw [List.find?_cons_of_neg (by simpa using h), FMap.find?_set_ne _ (fun e => h e.symm)]

theorem appendObs_find : ∀ (l : List (String × List (List String × String))) (m : ObsMap String), (l.map Prod.fst).Nodup → ∀ r,
    (appendObs l m).find? r = match l.find? (fun x => x.1 == r) with
      | none => m.find? r
      | some x => some ((m.find? r).getD [] ++ x.2) := by
  intro l
  induction l with
  | nil => intro m _ r; rfl
  | cons x l ih =>
    obtain ⟨k, o⟩ := x
    intro m hnd r
    simp only [List.map_cons, List.nodup_cons] at hnd
    rw [appendObs, ih _ hnd.2]
    by_cases h : k = r
    · subst h
      have : l.find? (fun x => x.1 == k) = none := by
        rw [List.find?_eq_none]
        rintro ⟨k', o'⟩ hm hk
        have hk : k' = k := by simpa using hk
        exact hnd.1 (by rw [← hk]; exact List.mem_map.mpr ⟨_, hm, rfl⟩)
      rw [this, List.find?_cons_of_pos (by simp)]
      simp
    · rw [List.find?_cons_of_neg (by simpa using h), FMap.find?_set_ne _ (fun e => h e.symm)]

theorem find_entries {m : ObsMap String} {l : List (String × List (List String × String))} (hl : l.Perm m.entries) (r : String) :
    (l.find? (fun x => x.1 == r)).map Prod.snd = m.find? r := by
  have hmem : ∀ o, (r, o) ∈ l ↔ m.find? r = some o := fun o => hl.mem_iff.trans FMap.mem_entries
  cases hf : l.find? (fun x => x.1 == r) with
  | none =>
    cases hm : m.find? r with
    | none => rfl
    | some o => exact absurd (by simp) (List.find?_eq_none.mp hf (r, o) ((hmem o).mpr hm))
  | some x =>
    obtain ⟨k, o⟩ := x
    have hk : k = r := by simpa using List.find?_some hf
    subst hk
    rw [(hmem o).mp (List.mem_of_find?_eq_some hf)]
    rfl

/-- C55: the merged observations of each relation are those of the first argument followed by those of the second, and there are no others. -/
theorem C55_union (obs1 obs2 : ObsMap String) (t : Tape) (r : String) :
    (mergeObservations obs1 obs2 t).1.find? r = match obs1.find? r, obs2.find? r with
      | none, none => none
      | some a, none => some a
      | none, some b => some b
      | some a, some b => some (a ++ b) := by
  unfold mergeObservations
  have h1 := shuffle_perm obs1.entries t
  have h2 := shuffle_perm obs2.entries (shuffle obs1.entries t).2
  have n1 : ((shuffle obs1.entries t).1.map Prod.fst).Nodup := (h1.map Prod.fst).nodup_iff.mpr obs1.nodupKeys
  have n2 : ((shuffle obs2.entries (shuffle obs1.entries t).2).1.map Prod.fst).Nodup := (h2.map Prod.fst).nodup_iff.mpr obs2.nodupKeys
  show (appendObs (shuffle obs2.entries (shuffle obs1.entries t).2).1 (copyObs (shuffle obs1.entries t).1 ∅)).find? r = _
  have e1 := copyObs_find _ ∅ n1 r
  rw [find_entries h1, FMap.find?_empty, Option.or_none] at e1
  have e2 := find_entries h2 r
  rw [appendObs_find _ _ n2, e1, ← e2]
  cases obs1.find? r <;> cases (shuffle obs2.entries (shuffle obs1.entries t).2).1.find? (fun x => x.1 == r) <;> rfl

/-! ### Concrete cases -/

open Latent (bools)

/-- `A` is a noisy relation over `D` and `E` with base `B` -/
def uSchema : Schema bools :=
  ((((∅ : Schema bools).set "A" (.noisy () ["D", "E"] "B" false)).set "B" (.clean () ["D"] false)).set "C" (.clean () ["E", "D"] false))

def uObs : ObsMap String :=
  ((∅ : ObsMap String).set "A" [(["x", "y"], "1"), (["z", "y"], "0")]).set "C" [(["x", "x"], "1")]

example : ∃ e t', calculateEncoding uSchema uObs [] = .ok (e, t') ∧ Encoding.code e "D" "x" = some 0 ∧ Encoding.code e "D" "z" = some 1 ∧
    Encoding.code e "E" "y" = some 0 ∧ Encoding.code e "E" "x" = some 1 ∧ Encoding.entity e "E" 1 = some "x" :=
  ⟨_, _, rfl, rfl, rfl, rfl, rfl, rfl⟩
example : Fits uSchema uObs := (C32_calculated uSchema uObs []).mp ⟨_, _, rfl⟩
example : ∀ r, uObs.contains r = true → uSchema.contains r = true := by
  intro r h
  obtain ⟨o, ho⟩ := FMap.contains_iff.mp h
  have := FMap.mem_entries.mpr ho
  change (r, o) ∈ [_, _] at this
  rcases List.mem_cons.mp this with h | h
  · cases h; rfl
  · rcases List.mem_cons.mp h with h | h
    · cases h; rfl
    · cases h
/-- the schema of the example passes the check; with one domain fewer for the noisy relation it is undefined behaviour -/
example : verifyDomains uSchema = .ok () := rfl
example : verifyDomains (uSchema.set "A" (.noisy () ["E", "D"] "B" false)) = .error .assert := rfl
example : verifyDomains (uSchema.set "A" (.noisy () ["E", "D"] "Q" false)) = .error .outOfRange := rfl
example : Key.lt "B" "N" = true ∧ (["E"] : List String) ≠ [] := ⟨rfl, by simp⟩
example : (mergeObservations uObs uObs [1, 0, 1]).1.find? "C" = some [(["x", "x"], "1"), (["x", "x"], "1")] := by
  rw [C55_union]; rfl

end UtilIO
end Verif
