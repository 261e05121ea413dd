import Verif.Spec.UtilIO
namespace Verif
variable {V : Type}
namespace UtilIO

theorem atR_ok {α} {l : List α} {i : Nat} {a : α} : atR l i = .ok a ↔ l[i]? = some a := by
  unfold atR
  cases l[i]? <;> simp

theorem idxR_ok {α} {l : List α} {i : Nat} {a : α} : idxR l i = .ok a ↔ l[i]? = some a := by
  unfold idxR
  cases l[i]? <;> simp

/-- the maps of a domain -/
structure Paired (m : FMap String Int) (m' : FMap Int String) (n : Nat) : Prop where
  inverse : ∀ x c, m.find? x = some c ↔ m'.find? c = some x
  codes : ∀ c, (∃ x, m'.find? c = some x) ↔ 0 ≤ c ∧ c < n

theorem Paired.empty : Paired ∅ ∅ 0 := ⟨by simp, fun c => by simp⟩

theorem Paired.add {m : FMap String Int} {m' : FMap Int String} {n : Nat} (h : Paired m m' n) {x : String} (hx : m.find? x = none) :
    Paired (m.set x n) (m'.set (n : Int) x) (n + 1) := by
  have hn : m'.find? (n : Int) = none := by
    cases hf : m'.find? (n : Int) with
    | none => rfl
    | some y => have := (h.codes n).mp ⟨y, hf⟩; omega
  refine ⟨fun y c => ?_, fun c => ?_⟩
  · rw [FMap.find?_set, FMap.find?_set]
    by_cases h1 : y = x
    · subst h1
      rw [if_pos rfl]
      by_cases h2 : c = n
      · subst h2; simp
      · rw [if_neg h2]
        constructor
        · intro e; cases e; exact absurd rfl h2
        · intro e; rw [(h.inverse y c).mpr e] at hx; cases hx
    · rw [if_neg h1]
      by_cases h2 : c = n
      · subst h2
        rw [if_pos rfl]
        constructor
        · intro e; rw [(h.inverse y n).mp e] at hn; cases hn
        · intro e; cases e; exact absurd rfl h1
      · rw [if_neg h2]; exact h.inverse y c
  · simp only [FMap.find?_set]
    by_cases h2 : c = n
    · subst h2; simp
    · simp only [if_neg h2]
      rw [h.codes c]
      omega

/-- a consistent state of the encoding -/
def GoodEnc (e : EncState) : Prop := ∀ d m, e.fwd.find? d = some m → ∃ m' n, e.rev.find? d = some m' ∧ e.counter.find? d = some ((n : Nat) : Int) ∧ Paired m m' n

/-- the domains that have maps -/
def Known (e : EncState) (d : String) : Prop := ∃ m, e.fwd.find? d = some m

/-- the entities that have codes -/
def Has (e : EncState) (d x : String) : Prop := ∃ m c, e.fwd.find? d = some m ∧ m.find? x = some c

/-- what a part of the loop does -/
structure EStep (e e' : EncState) (N : String → String → Prop) : Prop where
  good : GoodEnc e'
  rev : (∀ d, (∃ m, e.rev.find? d = some m) → ∃ m, e.fwd.find? d = some m) → ∀ d, (∃ m, e'.rev.find? d = some m) → ∃ m, e'.fwd.find? d = some m
  known : ∀ d, Known e' d ↔ Known e d
  has : ∀ d x, Has e' d x ↔ Has e d x ∨ N d x

theorem EStep.refl {e : EncState} (h : GoodEnc e) {N : String → String → Prop} (hN : ∀ d x, ¬ N d x) : EStep e e N :=
  ⟨h, id, fun _ => Iff.rfl, fun d x => by simp [hN d x]⟩

theorem EStep.trans {e e' e'' : EncState} {N N' M : String → String → Prop} (h : EStep e e' N) (h' : EStep e' e'' N')
    (hM : ∀ d x, M d x ↔ N d x ∨ N' d x) : EStep e e'' M :=
  ⟨h'.good, fun hr => h'.rev (h.rev hr), fun d => (h'.known d).trans (h.known d), fun d x => by rw [h'.has, h.has, hM, or_assoc]⟩

theorem encItem_ok {e : EncState} (h : GoodEnc e) {d : String} (hd : Known e d) (x : String) :
    ∃ e', encItem d x e = .ok e' ∧ EStep e e' (fun d' x' => d' = d ∧ x' = x) := by
  obtain ⟨m, hm⟩ := hd
  obtain ⟨m', n, h1, h2, h3⟩ := h d m hm
  unfold encItem
  rw [FMap.atKey_of_find hm]
  simp only [bind, Except.bind]
  by_cases hx : m.contains x = true
  · rw [if_pos hx]
    refine ⟨e, rfl, h, id, fun _ => Iff.rfl, fun d' x' => ⟨.inl, ?_⟩⟩
    rintro (h | ⟨rfl, rfl⟩)
    · exact h
    · obtain ⟨c, hc⟩ := FMap.contains_iff.mp hx
      exact ⟨m, c, hm, hc⟩
  · rw [if_neg hx, h1, h2]
    have hx : m.find? x = none := FMap.contains_false.mp (Bool.eq_false_iff.mpr hx)
    refine ⟨_, rfl, ?_, ?_, ?_, ?_⟩
    · intro d' k hk
      simp only at hk ⊢
      rw [FMap.find?_set] at hk
      rw [FMap.find?_set, FMap.find?_set]
      by_cases hd' : d' = d
      · subst hd'
        rw [if_pos rfl] at hk
        cases hk
        rw [if_pos rfl, if_pos rfl]
        exact ⟨_, n + 1, rfl, by simp, h3.add hx⟩
      · rw [if_neg hd'] at hk ⊢
        rw [if_neg hd']
        exact h d' k hk
    · intro hr d' hk
      simp only [FMap.find?_set] at hk ⊢
      by_cases hd' : d' = d
      · simp [hd']
      · simp only [if_neg hd'] at hk ⊢
        exact hr d' hk
    · intro d'
      unfold Known
      simp only [FMap.find?_set]
      by_cases hd' : d' = d
      · subst hd'; simp [hm]
      · simp [hd']
    · intro d' x'
      unfold Has
      simp only [FMap.find?_set]
      by_cases hd' : d' = d
      · subst hd'
        simp only [if_true, Option.some.injEq, exists_and_left, true_and, hm, exists_eq_left']
        rw [FMap.find?_set]
        by_cases hx' : x' = x <;> simp [hx']
      · simp [hd']

theorem encItems_ok {doms : List String} : ∀ (items : List String) (k : Nat) (e : EncState), GoodEnc e → (∀ d ∈ doms, Known e d) →
    k + items.length ≤ doms.length →
    ∃ e', encItems doms items k e = .ok e' ∧ EStep e e' (fun d x => ∃ i, items[i]? = some x ∧ doms[k + i]? = some d) := by
  intro items
  induction items with
  | nil => intro k e h _ _; exact ⟨e, rfl, .refl h (by simp)⟩
  | cons x items ih =>
    intro k e h hd hl
    simp only [List.length_cons] at hl
    have hk : doms[k]? = some doms[k] := List.getElem?_eq_getElem (by omega)
    obtain ⟨e1, h1, h2⟩ := encItem_ok h (hd _ (List.mem_of_getElem? hk)) x
    obtain ⟨e2, h3, h4⟩ := ih (k + 1) e1 h2.good (fun d hd' => (h2.known d).mpr (hd d hd')) (by omega)
    refine ⟨e2, ?_, h2.trans h4 ?_⟩
    · rw [encItems, atR_ok.mpr hk]
      simp only [bind, Except.bind, h1, h3]
    · intro d y
      constructor
      · rintro ⟨i, hi, hdi⟩
        cases i with
        | zero =>
          left
          simp only [List.getElem?_cons_zero, Option.some.injEq, Nat.add_zero] at hi hdi
          rw [hk] at hdi
          cases hdi
          exact ⟨rfl, hi.symm⟩
        | succ i => exact .inr ⟨i, by simpa using hi, by rw [← hdi]; congr 1; omega⟩
      · rintro (⟨rfl, rfl⟩ | ⟨i, hi, hdi⟩)
        · exact ⟨0, rfl, hk⟩
        · exact ⟨i + 1, by simpa using hi, by rw [← hdi]; congr 1; omega⟩

theorem encItems_fails {doms : List String} : ∀ (items : List String) (k : Nat) (e : EncState), GoodEnc e → (∀ d ∈ doms, Known e d) →
    doms.length < k + items.length → k ≤ doms.length → encItems doms items k e = .error .outOfRange := by
  intro items
  induction items with
  | nil => intro k e _ _ h h'; simp at h; omega
  | cons x items ih =>
    intro k e h hd hl hk'
    simp only [List.length_cons] at hl
    rw [encItems]
    rcases Nat.lt_or_ge k doms.length with hlt | hge
    · have hk : doms[k]? = some doms[k] := List.getElem?_eq_getElem hlt
      obtain ⟨e1, h1, h2⟩ := encItem_ok h (hd _ (List.mem_of_getElem? hk)) x
      rw [atR_ok.mpr hk]
      simp only [bind, Except.bind, h1]
      exact ih (k + 1) e1 h2.good (fun d hd' => (h2.known d).mpr (hd d hd')) (by omega) (by omega)
    · rw [atR, List.getElem?_eq_none hge]
      rfl

theorem initDomains_spec : ∀ (ds : List String) (e : EncState), GoodEnc e → (∀ d x, ¬ Has e d x) → 
    GoodEnc (initDomains ds e) ∧ (∀ d x, ¬ Has (initDomains ds e) d x) ∧ (∀ d, Known (initDomains ds e) d ↔ Known e d ∨ d ∈ ds) ∧
    ((∀ d, (∃ m, e.rev.find? d = some m) → Known e d) → ∀ d, (∃ m, (initDomains ds e).rev.find? d = some m) → Known (initDomains ds e) d) := by
  intro ds
  induction ds with
  | nil => intro e h h'; exact ⟨h, h', by simp [initDomains], id⟩
  | cons d ds ih =>
    intro e h h'
    have h1 : GoodEnc { fwd := e.fwd.set d ∅, rev := e.rev.set d ∅, counter := e.counter.set d 0 } := by
      intro d' k hk
      simp only at hk ⊢
      rw [FMap.find?_set] at hk
      rw [FMap.find?_set, FMap.find?_set]
      by_cases hd : d' = d
      · subst hd
        rw [if_pos rfl] at hk
        cases hk
        rw [if_pos rfl, if_pos rfl]
        exact ⟨∅, 0, rfl, rfl, .empty⟩
      · rw [if_neg hd] at hk ⊢
        rw [if_neg hd]
        exact h d' k hk
    have h2 : ∀ d' x, ¬ Has { fwd := e.fwd.set d ∅, rev := e.rev.set d ∅, counter := e.counter.set d 0 } d' x := by
      rintro d' x ⟨m, c, hm, hc⟩
      simp only [FMap.find?_set] at hm
      by_cases hd : d' = d
      · rw [if_pos hd] at hm; cases hm; simp at hc
      · rw [if_neg hd] at hm; exact h' d' x ⟨m, c, hm, hc⟩
    obtain ⟨h3, h4, h5, h6⟩ := ih _ h1 h2
    refine ⟨h3, h4, fun d' => ?_, fun hr => h6 ?_⟩
    · rw [initDomains, h5]
      unfold Known
      simp only [FMap.find?_set, List.mem_cons]
      by_cases hd : d' = d <;> simp [hd]
    · intro d' hk
      unfold Known
      simp only [FMap.find?_set] at hk ⊢
      by_cases hd : d' = d
      · simp [hd]
      · simp only [if_neg hd] at hk ⊢
        exact hr d' hk

theorem initSchema_spec {F : Family V} : ∀ (l : List (String × RelSpec F)) (e : EncState), GoodEnc e → (∀ d x, ¬ Has e d x) →
    GoodEnc (initSchema l e) ∧ (∀ d x, ¬ Has (initSchema l e) d x) ∧ (∀ d, Known (initSchema l e) d ↔ Known e d ∨ ∃ r spec, (r, spec) ∈ l ∧ d ∈ spec.doms) ∧
    ((∀ d, (∃ m, e.rev.find? d = some m) → Known e d) → ∀ d, (∃ m, (initSchema l e).rev.find? d = some m) → Known (initSchema l e) d) := by
  intro l
  induction l with
  | nil => intro e h h'; exact ⟨h, h', by simp [initSchema], id⟩
  | cons x l ih =>
    obtain ⟨r, spec⟩ := x
    intro e h h'
    obtain ⟨h1, h2, h3, h4⟩ := initDomains_spec spec.doms e h h'
    obtain ⟨h5, h6, h7, h8⟩ := ih _ h1 h2
    refine ⟨h5, h6, fun d => ?_, fun hr => h8 (h4 hr)⟩
    rw [initSchema, h7, h3]
    constructor
    · rintro ((h | h) | ⟨r', s', h, hd⟩)
      · exact .inl h
      · exact .inr ⟨r, spec, by simp, h⟩
      · exact .inr ⟨r', s', by simp [h], hd⟩
    · rintro (h | ⟨r', s', h, hd⟩)
      · exact .inl (.inl h)
      · rcases List.mem_cons.mp h with h | h
        · cases h; exact .inl (.inr hd)
        · exact .inr ⟨r', s', h, hd⟩

/-- the entities in the observations of a relation -/
def InObs {F : Family V} (schema : Schema F) (r : String) (obs : List (List String × String)) (d x : String) : Prop :=
  ∃ (spec : RelSpec F) (items : List String) (v : String) (i : Nat), schema.find? r = some spec ∧ (items, v) ∈ obs ∧ items[i]? = some x ∧ spec.doms[i]? = some d

theorem encRel_ok {F : Family V} {schema : Schema F} {r : String} : ∀ (obs : List (List String × String)) (e : EncState), GoodEnc e →
    (∀ d, IsDomain schema d → Known e d) → (∀ items v, (items, v) ∈ obs → ∃ spec, schema.find? r = some spec ∧ items.length ≤ spec.doms.length) →
    ∃ e', encRel schema r obs e = .ok e' ∧ EStep e e' (InObs schema r obs) := by
  intro obs
  induction obs with
  | nil => intro e h _ _; exact ⟨e, rfl, .refl h (by rintro d x ⟨_, _, _, _, _, h, _⟩; cases h)⟩
  | cons o obs ih =>
    obtain ⟨items, v⟩ := o
    intro e h hd hf
    obtain ⟨spec, hs, hl⟩ := hf items v (by simp)
    obtain ⟨e1, h1, h2⟩ := encItems_ok items 0 e h (fun d hd' => hd d ⟨r, spec, hs, hd'⟩) (by omega)
    obtain ⟨e2, h3, h4⟩ := ih e1 h2.good (fun d hd' => (h2.known d).mpr (hd d hd')) (fun i w hi => hf i w (by simp [hi]))
    refine ⟨e2, ?_, h2.trans h4 ?_⟩
    · rw [encRel, FMap.atKey_of_find hs]
      simp only [bind, Except.bind, h1, h3]
    · intro d x
      constructor
      · rintro ⟨spec', items', v', i, h5, h6, h7, h8⟩
        rw [hs] at h5
        cases h5
        rcases List.mem_cons.mp h6 with h6 | h6
        · cases h6; exact .inl ⟨i, h7, by simpa using h8⟩
        · exact .inr ⟨spec, items', v', i, hs, h6, h7, h8⟩
      · rintro (⟨i, h7, h8⟩ | ⟨spec', items', v', i, h5, h6, h7, h8⟩)
        · exact ⟨spec, items, v, i, hs, by simp, h7, by simpa using h8⟩
        · exact ⟨spec', items', v', i, h5, by simp [h6], h7, h8⟩

theorem encRels_ok {F : Family V} {schema : Schema F} : ∀ (l : List (String × List (List String × String))) (e : EncState), GoodEnc e →
    (∀ d, IsDomain schema d → Known e d) →
    (∀ r obs items v, (r, obs) ∈ l → (items, v) ∈ obs → ∃ spec, schema.find? r = some spec ∧ items.length ≤ spec.doms.length) →
    ∃ e', encRels schema l e = .ok e' ∧ EStep e e' (fun d x => ∃ r obs, (r, obs) ∈ l ∧ InObs schema r obs d x) := by
  intro l
  induction l with
  | nil => intro e h _ _; exact ⟨e, rfl, .refl h (by simp)⟩
  | cons o l ih =>
    obtain ⟨r, obs⟩ := o
    intro e h hd hf
    obtain ⟨e1, h1, h2⟩ := encRel_ok (r := r) obs e h hd (fun i v hi => hf r obs i v (by simp) hi)
    obtain ⟨e2, h3, h4⟩ := ih e1 h2.good (fun d hd' => (h2.known d).mpr (hd d hd')) (fun r' o' i v h' hi => hf r' o' i v (by simp [h']) hi)
    refine ⟨e2, ?_, h2.trans h4 ?_⟩
    · rw [encRels]
      simp only [bind, Except.bind, h1, h3]
    · intro d x
      constructor
      · rintro ⟨r', o', h5, h6⟩
        rcases List.mem_cons.mp h5 with h5 | h5
        · cases h5; exact .inl h6
        · exact .inr ⟨r', o', h5, h6⟩
      · rintro (h6 | ⟨r', o', h5, h6⟩)
        · exact ⟨r, obs, by simp, h6⟩
        · exact ⟨r', o', by simp [h5], h6⟩

/-- only observations that fit are encoded -/
theorem encRel_fits {F : Family V} {schema : Schema F} {r : String} : ∀ (obs : List (List String × String)) (e e' : EncState), GoodEnc e →
    (∀ d, IsDomain schema d → Known e d) → encRel schema r obs e = .ok e' →
    ∀ items v, (items, v) ∈ obs → ∃ spec, schema.find? r = some spec ∧ items.length ≤ spec.doms.length := by
  intro obs
  induction obs with
  | nil => intro e e' _ _ _ items v h; cases h
  | cons o obs ih =>
    obtain ⟨items, v⟩ := o
    intro e e' h hd hr items' v' hm
    obtain ⟨spec, hs, hr⟩ := bind_ok.mp hr
    obtain ⟨e1, h1, hr⟩ := bind_ok.mp hr
    have hs := FMap.atKey_ok.mp hs
    have hdoms : ∀ d ∈ spec.doms, Known e d := fun d hd' => hd d ⟨r, spec, hs, hd'⟩
    have hl : items.length ≤ spec.doms.length := by
      apply Nat.le_of_not_lt
      intro hlt
      rw [encItems_fails items 0 e h hdoms (by omega) (by omega)] at h1
      cases h1
    rcases List.mem_cons.mp hm with hm | hm
    · cases hm; exact ⟨spec, hs, hl⟩
    · obtain ⟨e1', h1', h2⟩ := encItems_ok items 0 e h hdoms (by omega)
      rw [h1] at h1'
      cases h1'
      exact ih e1 e' h2.good (fun d hd' => (h2.known d).mpr (hd d hd')) hr items' v' hm

theorem encRels_fits {F : Family V} {schema : Schema F} : ∀ (l : List (String × List (List String × String))) (e e' : EncState), GoodEnc e →
    (∀ d, IsDomain schema d → Known e d) → encRels schema l e = .ok e' →
    ∀ r obs items v, (r, obs) ∈ l → (items, v) ∈ obs → ∃ spec, schema.find? r = some spec ∧ items.length ≤ spec.doms.length := by
  intro l
  induction l with
  | nil => intro e e' _ _ _ r obs items v h; cases h
  | cons o l ih =>
    obtain ⟨r, obs⟩ := o
    intro e e' h hd hr r' obs' items v hm hi
    obtain ⟨e1, h1, hr⟩ := bind_ok.mp hr
    have hfit := encRel_fits obs e e1 h hd h1
    rcases List.mem_cons.mp hm with hm | hm
    · cases hm; exact hfit items v hi
    · obtain ⟨e1', h1', h2⟩ := encRel_ok (r := r) obs e h hd hfit
      rw [h1] at h1'
      cases h1'
      exact ih e1 e' h2.good (fun d hd' => (h2.known d).mpr (hd d hd')) hr r' obs' items v hm hi

theorem codesOf_ok {fwd : FMap String (FMap String Int)} {doms : List String} : ∀ (items : List String) (k : Nat) (cs : Items),
    codesOf fwd doms items k = .ok cs ↔ cs.length = items.length ∧
      ∀ (i : Nat) (x : String) (c : Int), items[i]? = some x → cs[i]? = some c → ∃ d, doms[k + i]? = some d ∧ (fwd.find? d).bind (·.find? x) = some c := by
  intro items
  induction items with
  | nil =>
    intro k cs
    constructor
    · intro h; cases h; simp
    · rintro ⟨h, _⟩
      rw [List.length_eq_zero_iff.mp h]
      rfl
  | cons x items ih =>
    intro k cs
    rw [codesOf]
    constructor
    · intro h
      obtain ⟨d, h1, h⟩ := bind_ok.mp h
      obtain ⟨m, h2, h⟩ := bind_ok.mp h
      obtain ⟨c, h3, h⟩ := bind_ok.mp h
      obtain ⟨cs', h4, h⟩ := bind_ok.mp h
      cases h
      obtain ⟨h5, h6⟩ := (ih _ _).mp h4
      refine ⟨by simp [h5], fun i y c' hy hc => ?_⟩
      cases i with
      | zero =>
        cases hy
        cases hc
        exact ⟨d, idxR_ok.mp h1, by rw [FMap.atKey_ok.mp h2]; exact FMap.atKey_ok.mp h3⟩
      | succ i =>
        obtain ⟨d', h7, h8⟩ := h6 i y c' (by simpa using hy) (by simpa using hc)
        exact ⟨d', by rw [← h7]; congr 1; omega, h8⟩
    · rintro ⟨h1, h2⟩
      cases cs with
      | nil => simp at h1
      | cons c cs =>
        obtain ⟨d, h3, h4⟩ := h2 0 x c rfl rfl
        obtain ⟨m, hm, hc⟩ := Option.bind_eq_some_iff.mp h4
        have h5 := (ih (k + 1) cs).mpr ⟨by simpa using h1, fun i y c' hy hc => by
          obtain ⟨d', h7, h8⟩ := h2 (i + 1) y c' (by simpa using hy) (by simpa using hc)
          exact ⟨d', by rw [← h7]; congr 1; omega, h8⟩⟩
        rw [idxR_ok.mpr (by simpa using h3)]
        simp only [bind, Except.bind, FMap.atKey_of_find hm, FMap.atKey_of_find hc, h5]

/-- an observation and its encoding -/
def EncObs (fwd : FMap String (FMap String Int)) (doms : List String) (o : List String × String) (c : Items × String) : Prop :=
  codesOf fwd doms o.1 0 = .ok c.1 ∧ o.2 = c.2

theorem encodeRel_ok {fwd : FMap String (FMap String Int)} {r : String} {doms : List String} : ∀ (obs : List (List String × String)) (m m' : ObsMap Int),
    encodeRel fwd r doms obs m = .ok m' ↔
      ∃ l, List.Forall₂ (EncObs fwd doms) obs l ∧ m' = if l = [] then m else m.set r ((m.find? r).getD [] ++ l) := by
  intro obs
  induction obs with
  | nil =>
    intro m m'
    constructor
    · intro h; cases h; exact ⟨[], .nil, by simp⟩
    · rintro ⟨l, h, rfl⟩; cases h; rfl
  | cons o obs ih =>
    obtain ⟨items, v⟩ := o
    intro m m'
    rw [encodeRel]
    constructor
    · intro h
      obtain ⟨cs, h1, h⟩ := bind_ok.mp h
      obtain ⟨l, h2, rfl⟩ := (ih _ _).mp h
      refine ⟨(cs, v) :: l, .cons ⟨h1, rfl⟩ h2, ?_⟩
      rw [if_neg (List.cons_ne_nil (cs, v) l)]
      split
      · rename_i hl; subst hl; rfl
      · rw [FMap.set_set, FMap.find?_set_self]
        simp
    · rintro ⟨l, h, rfl⟩
      cases h with
      | cons h1 h2 =>
        rename_i c l
        obtain ⟨cs, v'⟩ := c
        obtain ⟨h1, h3⟩ := h1
        simp only at h1 h3
        subst h3
        rw [bind_ok]
        refine ⟨cs, h1, (ih _ _).mpr ⟨l, h2, ?_⟩⟩
        rw [if_neg (List.cons_ne_nil (cs, v) l)]
        split
        · rename_i hl; subst hl; rfl
        · rw [FMap.set_set, FMap.find?_set_self]
          simp

theorem encodeRels_ok {F : Family V} {schema : Schema F} {fwd : FMap String (FMap String Int)} :
    ∀ (l : List (String × List (List String × String))) (m m' : ObsMap Int), (l.map Prod.fst).Nodup → (∀ r obs, (r, obs) ∈ l → m.find? r = none) →
      encodeRels schema fwd l m = .ok m' →
      (∀ r, r ∉ l.map Prod.fst → m'.find? r = m.find? r) ∧
      ∀ r obs, (r, obs) ∈ l → ∃ spec cs, schema.find? r = some spec ∧ List.Forall₂ (EncObs fwd spec.doms) obs cs ∧ m'.find? r = if cs = [] then none else some cs := by
  intro l
  induction l with
  | nil => intro m m' _ _ h; cases h; simp
  | cons o l ih =>
    obtain ⟨r, obs⟩ := o
    intro m m' hnd hm h
    simp only [List.map_cons, List.nodup_cons] at hnd
    obtain ⟨spec, h1, h⟩ := bind_ok.mp h
    obtain ⟨m1, h2, h⟩ := bind_ok.mp h
    obtain ⟨cs, h3, rfl⟩ := (encodeRel_ok _ _ _).mp h2
    have hr := hm r obs (by simp)
    have hset : ∀ r', (if cs = [] then m else m.set r ((m.find? r).getD [] ++ cs)).find? r' = if r' = r then (if cs = [] then none else some cs) else m.find? r' := by
      intro r'
      by_cases hcs : cs = []
      · rw [if_pos hcs, if_pos hcs]
        by_cases h' : r' = r
        · rw [if_pos h', h', hr]
        · rw [if_neg h']
      · rw [if_neg hcs, if_neg hcs, FMap.find?_set, hr]
        rfl
    obtain ⟨h4, h5⟩ := ih _ _ hnd.2 (fun r' obs' h' => by
      rw [hset]
      have hne : r' ≠ r := fun e => hnd.1 (by rw [← e]; exact List.mem_map.mpr ⟨_, h', rfl⟩)
      rw [if_neg hne]
      exact hm r' obs' (by simp [h'])) h
    refine ⟨fun r' hr' => ?_, fun r' obs' h' => ?_⟩
    · simp only [List.map_cons, List.mem_cons, not_or] at hr'
      rw [h4 r' hr'.2, hset, if_neg hr'.1]
    · rcases List.mem_cons.mp h' with h' | h'
      · cases h'
        exact ⟨spec, cs, FMap.atKey_ok.mp h1, h3, by rw [h4 r hnd.1, hset, if_pos rfl]⟩
      · exact h5 r' obs' h'

theorem encodeRels_ex {F : Family V} {schema : Schema F} {fwd : FMap String (FMap String Int)} :
    ∀ (l : List (String × List (List String × String))) (m : ObsMap Int),
      (∀ r obs, (r, obs) ∈ l → ∃ spec, schema.find? r = some spec ∧ ∀ o ∈ obs, ∃ cs, codesOf fwd spec.doms o.1 0 = .ok cs) →
      ∃ m', encodeRels schema fwd l m = .ok m' := by
  intro l
  induction l with
  | nil => intro m _; exact ⟨m, rfl⟩
  | cons o l ih =>
    obtain ⟨r, obs⟩ := o
    intro m h
    obtain ⟨spec, h1, h2⟩ := h r obs (by simp)
    obtain ⟨cs, hcs⟩ : ∃ cs, List.Forall₂ (EncObs fwd spec.doms) obs cs := by
      clear h
      induction obs with
      | nil => exact ⟨[], .nil⟩
      | cons o obs ih =>
        obtain ⟨c, hc⟩ := h2 o (by simp)
        obtain ⟨cs, hcs⟩ := ih (fun o ho => h2 o (by simp [ho]))
        exact ⟨(c, o.2) :: cs, .cons ⟨hc, rfl⟩ hcs⟩
    obtain ⟨m', h3⟩ := ih (if cs = [] then m else m.set r ((m.find? r).getD [] ++ cs)) (fun r' o' h' => h r' o' (by simp [h']))
    refine ⟨m', ?_⟩
    rw [encodeRels, FMap.atKey_of_find h1]
    have h4 := (encodeRel_ok (r := r) obs m _).mpr ⟨cs, hcs, rfl⟩
    simp only [bind, Except.bind, h4, h3]

end UtilIO
end Verif
