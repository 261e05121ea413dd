import Verif.Lemmas.HirmMain
import Verif.Lemmas.IncorporateAll
import Verif.Spec.HirmMain
/-!
Runs of the program `hirm` with proper files.
-/
namespace Verif
noncomputable section
variable {V : Type} {F : Family V}

namespace UtilIO
open Text

/-! ### The schema -/

theorem schemaLines_doms {mkC : List Char → FMap String String → Res F.C} {mkE : List Char → FMap String String → Res F.E} :
    ∀ (ls : List (List Char)) (S S' : Schema F), (∀ n spec, S.find? n = some spec → spec.doms ≠ []) → schemaLines mkC mkE ls S = .ok S' →
      ∀ n spec, S'.find? n = some spec → spec.doms ≠ [] := by
  intro ls
  induction ls with
  | nil => intro S S' h hc; cases hc; exact h
  | cons line ls ih =>
    intro S S' h hc
    unfold schemaLines at hc
    split at hc
    · cases hc
    · exact ih _ _ h hc
    · obtain ⟨d, h1, hc⟩ := bind_ok.mp hc
      obtain ⟨S1, h2, hc⟩ := bind_ok.mp hc
      refine ih _ _ (fun n spec hn => ?_) hc
      have : ∀ sp : RelSpec F, sp.doms ≠ [] → (S.set d.name sp).find? n = some spec → spec.doms ≠ [] := by
        intro sp hsp hn
        rw [FMap.find?_set] at hn
        split at hn
        · cases hn; exact hsp
        · exact h n spec hn
      unfold addDecl at h2
      split at h2
      all_goals
        obtain ⟨_, h3, h2⟩ := bind_ok.mp h2
        obtain ⟨c, _, h2⟩ := bind_ok.mp h2
        cases h2
        have h3 := assertR_ok.mp h3
        refine this _ (fun he => ?_) hn
        have he : d.doms = [] := he
        rw [he] at h3
        simp at h3

theorem loadSchema_doms {mkC : List Char → FMap String String → Res F.C} {mkE : List Char → FMap String String → Res F.E} {text : List Char} {S : Schema F}
    (h : loadSchema mkC mkE text = .ok S) : ∀ n spec, S.find? n = some spec → spec.doms ≠ [] := by
  obtain ⟨S1, h1, h⟩ := bind_ok.mp h
  obtain ⟨_, h2, h⟩ := bind_ok.mp h
  cases h
  exact schemaLines_doms _ _ _ (fun n spec hn => by cases hn) h1

theorem Marked.refl (S : Schema F) : Marked S S := fun _ => .inl rfl

theorem Marked.trans {S S' S'' : Schema F} (h : Marked S S') (h' : Marked S' S'') : Marked S S'' := by
  intro n
  rcases h n with h | h <;> rcases h' n with h' | h' <;> rw [h', h]
  · exact .inl rfl
  · exact .inr rfl
  · exact .inr rfl
  · right
    rw [Option.map_map]
    congr 1
    funext s
    exact observe_observe s

theorem observe_kind (s : RelSpec F) : s.observe.kind = s.kind := by cases s <;> rfl

/-- what is kept by marks -/
structure Same (s s' : RelSpec F) : Prop where
  doms : s'.doms = s.doms
  base : s'.base? = s.base?
  kind : s'.kind = s.kind

theorem Same.refl (s : RelSpec F) : Same s s := ⟨rfl, rfl, rfl⟩
theorem Same.observe (s : RelSpec F) : Same s s.observe := ⟨observe_doms s, observe_base s, observe_kind s⟩
theorem Same.symm {s s' : RelSpec F} (h : Same s s') : Same s' s := ⟨h.doms.symm, h.base.symm, h.kind.symm⟩

theorem Same.clean {s s' : RelSpec F} (h : Same s s') {c : F.C} {ds : List String} {o : Bool} (he : s' = .clean c ds o) : ∃ o', s = .clean c ds o' := by
  subst he
  cases s with
  | clean c' ds' o' => exact ⟨o', by rw [Sum.inl.inj h.kind, show ds = ds' from h.doms]⟩
  | noisy e ds' b o' => cases h.kind

theorem Same.noisy {s s' : RelSpec F} (h : Same s s') {e : F.E} {ds : List String} {b : String} {o : Bool} (he : s' = .noisy e ds b o) : ∃ o', s = .noisy e ds b o' := by
  subst he
  cases s with
  | clean c' ds' o' => cases h.kind
  | noisy e' ds' b' o' => exact ⟨o', by rw [Sum.inr.inj h.kind, show ds = ds' from h.doms, Option.some.inj h.base]⟩

theorem Marked.to {S S' : Schema F} (h : Marked S S') {n : String} {s : RelSpec F} (hs : S.find? n = some s) : ∃ s', S'.find? n = some s' ∧ Same s s' := by
  rcases h n with h | h
  · exact ⟨s, h.trans hs, .refl s⟩
  · exact ⟨s.observe, by rw [h, hs]; rfl, .observe s⟩

theorem Marked.of {S S' : Schema F} (h : Marked S S') {n : String} {s' : RelSpec F} (hs : S'.find? n = some s') : ∃ s, S.find? n = some s ∧ Same s s' := by
  cases hn : S.find? n with
  | none =>
    rcases h n with h | h
    · rw [h, hn] at hs; cases hs
    · rw [h, hn] at hs; cases hs
  | some s =>
    obtain ⟨q, h1, h2⟩ := h.to hn
    rw [hs] at h1; cases h1
    exact ⟨s, rfl, h2⟩

theorem Marked.leaf {S S' : Schema F} (h : Marked S S') {r : String} (hl : HIRM.Leaf S r) : HIRM.Leaf S' r := by
  intro n spec hn
  obtain ⟨s, h1, h2⟩ := h.of hn
  rw [h2.base]
  exact hl n s h1

theorem Marked.leaf' {S S' : Schema F} (h : Marked S S') {r : String} (hl : HIRM.Leaf S' r) : HIRM.Leaf S r := by
  intro n spec hn
  obtain ⟨s, h1, h2⟩ := h.to hn
  rw [← h2.base]
  exact hl n s h1

theorem Marked.grounded {S S' : Schema F} (h : Marked S S') {n : String} (hg : Grounded S n) : Grounded S' n := by
  induction hg with
  | clean hs hb =>
    obtain ⟨s, h1, h2⟩ := h.to hs
    exact .clean h1 (h2.base.trans hb)
  | noisy hs hb _ ih =>
    obtain ⟨s, h1, h2⟩ := h.to hs
    exact .noisy h1 (h2.base.trans hb) ih

section
variable {w : World}

theorem Same.obsType {s s' : RelSpec (priors w)} (h : Same s s') : s'.obsType = s.obsType := by
  cases hs : s' with
  | clean c ds o => obtain ⟨o', rfl⟩ := h.clean hs; rfl
  | noisy e ds b o => obtain ⟨o', rfl⟩ := h.noisy hs; rfl

theorem Same.takes {s s' : RelSpec (priors w)} (h : Same s s') (v : Value) : s'.Takes v ↔ s.Takes v := by
  cases hs : s' with
  | clean c ds o => obtain ⟨o', rfl⟩ := h.clean hs; exact Iff.rfl
  | noisy e ds b o => obtain ⟨o', rfl⟩ := h.noisy hs; exact Iff.rfl

theorem Marked.sound {S S' : Schema (priors w)} (h : Marked S S') (hs : Sound S) : Sound S' where
  arity n spec b sp h1 h2 h3 := by
    obtain ⟨s, a1, a2⟩ := h.of h1
    obtain ⟨q, b1, b2⟩ := h.of h3
    rw [a2.doms, b2.doms]
    exact hs.arity n s b q a1 (a2.base ▸ h2) b1
  takes n e doms b o sp h1 h2 v hv := by
    obtain ⟨s, a1, a2⟩ := h.of h1
    obtain ⟨o', rfl⟩ := a2.noisy rfl
    obtain ⟨q, b1, b2⟩ := h.of h2
    exact hs.takes n e doms b o' q a1 b1 v ((b2.takes v).mp hv)
  bases n c doms o m spec h1 h2 h3 := by
    obtain ⟨s, a1, a2⟩ := h.of h1
    obtain ⟨o', rfl⟩ := a2.clean rfl
    obtain ⟨q, b1, b2⟩ := h.of h2
    exact hs.bases n c doms o' m q a1 b1 (b2.base ▸ h3)

theorem Marked.undoing {S S' : Schema (priors w)} (h : Marked S S') (hs : Undoing S) : Undoing S' := by
  intro n e doms b o h1
  obtain ⟨s, a1, a2⟩ := h.of h1
  obtain ⟨o', rfl⟩ := a2.noisy rfl
  exact hs n e doms b o' a1

theorem Marked.sampleable {S S' : Schema (priors w)} (h : Marked S S') (hs : Sampleable S) : Sampleable S' where
  toSound := h.sound hs.toSound
  all n c doms o h1 := by
    obtain ⟨s, a1, a2⟩ := h.of h1
    obtain ⟨o', rfl⟩ := a2.clean rfl
    exact hs.all n c doms o' a1

end

/-! ### The observations -/

theorem mem_rowsOf {rows : List Row} {r : String} {o : List String × String} : o ∈ rowsOf rows r ↔ ∃ x ∈ rows, x.rel = r ∧ o = (x.items, x.value) := by
  unfold rowsOf
  simp only [List.mem_map, List.mem_filter, beq_iff_eq]
  constructor
  · rintro ⟨x, ⟨h1, h2⟩, rfl⟩; exact ⟨x, h1, h2, rfl⟩
  · rintro ⟨x, h1, h2, rfl⟩; exact ⟨x, ⟨h1, h2⟩, rfl⟩

theorem OfRows.find {rows : List Row} {obs : ObsMap String} (h : OfRows rows obs) {r : String} {l : List (List String × String)} (hl : obs.find? r = some l) :
    l = rowsOf rows r ∧ l ≠ [] := by
  rw [h r] at hl
  split at hl
  · cases hl
  · rename_i hne; cases hl; exact ⟨rfl, hne⟩

theorem OfRows.row {rows : List Row} {obs : ObsMap String} (h : OfRows rows obs) {x : Row} (hx : x ∈ rows) :
    obs.find? x.rel = some (rowsOf rows x.rel) ∧ (x.items, x.value) ∈ rowsOf rows x.rel := by
  have hm : (x.items, x.value) ∈ rowsOf rows x.rel := mem_rowsOf.mpr ⟨x, hx, rfl, rfl⟩
  refine ⟨?_, hm⟩
  rw [h x.rel, if_neg (List.ne_nil_of_mem hm)]

theorem loadObservations_rows {S : Schema F} {text : List Char} {rows : List Row} (hf : FileText text rows)
    (hr : ∀ x ∈ rows, S.contains x.rel = true ∧ x.items ≠ []) (t : Tape) :
    ∃ obs S' t', loadObservations S text t = .ok ((obs, S'), t') ∧ OfRows rows obs ∧ Marked S S' ∧
      ∀ x ∈ rows, ∀ spec, S'.find? x.rel = some spec → spec.observed = true := by
  obtain ⟨S', _, h1⟩ := markAll_ok (rows.map Row.rel) S (fun r hr' => by
    obtain ⟨x, hx, rfl⟩ := List.mem_map.mp hr'
    exact (hr x hx).1)
  have h2 : ∀ r, (rows.foldl addRow ∅ : ObsMap String).find? r = if rowsOf rows r = [] then none else some (rowsOf rows r) :=
    fun r => (foldl_addRow rows ∅ r).trans (by rw [FMap.find?_empty]; simp)
  have hm : ∀ r, r ∈ rows.map Row.rel ↔ rowsOf rows r ≠ [] := by
    intro r
    constructor
    · intro h
      obtain ⟨x, hx, rfl⟩ := List.mem_map.mp h
      exact List.ne_nil_of_mem (mem_rowsOf.mpr ⟨x, hx, rfl, rfl⟩)
    · intro h
      obtain ⟨o, ho⟩ := List.exists_mem_of_ne_nil _ h
      obtain ⟨x, hx, rfl, _⟩ := mem_rowsOf.mp ho
      exact List.mem_map_of_mem hx
  have h3 : ∀ r, S'.find? r = (S.find? r).map (fun s => if rowsOf rows r = [] then s else s.observe) := by
    intro r
    rw [h1 r]
    congr 1
    funext s
    by_cases h : rowsOf rows r = []
    · rw [if_pos h, if_neg (fun hh => (hm r).mp hh h)]
    · rw [if_neg h, if_pos ((hm r).mpr h)]
  obtain ⟨t', h4⟩ := (C35_load S text t (rows.foldl addRow ∅) S').mpr ⟨rows, hf, hr, h2, h3⟩
  refine ⟨_, S', t', h4, h2, fun n => ?_, fun x hx spec hs => ?_⟩
  · rw [h3 n]
    by_cases h : rowsOf rows n = []
    · simp only [if_pos h]; left; simp
    · simp only [if_neg h]; right; trivial
  · rw [h3] at hs
    simp only [if_neg ((hm x.rel).mp (List.mem_map_of_mem hx))] at hs
    cases hq : S.find? x.rel with
    | none => rw [hq] at hs; cases hs
    | some q =>
      rw [hq] at hs
      cases hs
      cases q <;> rfl

/-! ### Codes -/

theorem codes_ex {enc : Encoding} : ∀ {doms items : List String}, items.length = doms.length →
    (∀ (i : Nat) (x d : String), items[i]? = some x → doms[i]? = some d → ∃ c, Encoding.code enc d x = some c) → ∃ k, Codes enc doms items k ∧ k.length = doms.length := by
  intro doms items hl h
  refine ⟨List.zipWith (fun d x => (Encoding.code enc d x).getD 0) doms items, ⟨by simp [hl], fun i x c hx hc => ?_⟩, by simp [hl]⟩
  obtain ⟨d, x', h1, h2, h3⟩ := List.getElem?_zipWith_eq_some.mp hc
  rw [hx] at h2; cases h2
  obtain ⟨c', hc'⟩ := h i x d hx h1
  refine ⟨d, h1, ?_⟩
  rw [hc'] at h3 ⊢
  rw [← h3]; rfl

theorem Codes.inj {enc : Encoding} (hb : ∀ d x y c, Encoding.code enc d x = some c → Encoding.code enc d y = some c → x = y) {doms items items' : List String} {k : Items}
    (h : Codes enc doms items k) (h' : Codes enc doms items' k) : items = items' := by
  apply List.ext_getElem?
  intro i
  by_cases hi : i < k.length
  · have h1 : i < items.length := by rw [← h.1]; exact hi
    have h2 : i < items'.length := by rw [← h'.1]; exact hi
    obtain ⟨d, a1, a2⟩ := h.2 i _ _ (List.getElem?_eq_getElem h1) (List.getElem?_eq_getElem hi)
    obtain ⟨d', b1, b2⟩ := h'.2 i _ _ (List.getElem?_eq_getElem h2) (List.getElem?_eq_getElem hi)
    rw [a1] at b1; cases b1
    rw [List.getElem?_eq_getElem h1, List.getElem?_eq_getElem h2, hb d _ _ _ a2 b2]
  · rw [List.getElem?_eq_none (by rw [← h.1]; omega), List.getElem?_eq_none (by rw [← h'.1]; omega)]

/-! ### The arguments of `logp` -/

theorem logpOne_ok {parse : F.C ⊕ F.E → String → Res V} {r : String} {kind : F.C ⊕ F.E} : ∀ (l : List (Items × String)), (∀ o ∈ l, ∃ v, parse kind o.2 = .ok v) →
    ∃ qs, logpOne parse r kind l = .ok qs ∧ List.Forall₂ (fun o q => q.1 = r ∧ q.2.1 = o.1 ∧ parse kind o.2 = .ok q.2.2) l qs := by
  intro l
  induction l with
  | nil => intro _; exact ⟨[], rfl, .nil⟩
  | cons o l ih =>
    intro h
    obtain ⟨v, hv⟩ := h o (by simp)
    obtain ⟨qs, h1, h2⟩ := ih (fun o' ho' => h o' (by simp [ho']))
    refine ⟨(r, o.1, v) :: qs, ?_, .cons ⟨rfl, rfl, hv⟩ h2⟩
    exact bind_ok.mpr ⟨v, hv, bind_ok.mpr ⟨qs, h1, rfl⟩⟩

/-- the value that a query asks for is that of an observation -/
def Asks (schema : Schema F) (parse : F.C ⊕ F.E → String → Res V) (enc : Encoding) (o : String × List String × String) (q : String × Items × V) : Prop :=
  q.1 = o.1 ∧ ∃ spec, schema.find? o.1 = some spec ∧ Codes enc spec.doms o.2.1 q.2.1 ∧ parse spec.kind o.2.2 = .ok q.2.2

variable {M : Type}

theorem logpArgs_ok {X : Host F M} {value : M → String → Items → Option V} {L : FamilyLaws F} {R : M → Prop} (hX : Hosted X value L R) {m : M} (hm : R m)
    {parse : F.C ⊕ F.E → String → Res V} {enc : Encoding} {obs : ObsMap String}
    (hobs : ∀ r l, obs.find? r = some l → ∃ spec, (X.schema m).find? r = some spec ∧ ∀ o ∈ l, ∃ k v, Codes enc spec.doms o.1 k ∧ parse spec.kind o.2 = .ok v)
    (t : Tape) :
    ∃ qs t', logpArgs X parse m enc obs t = .ok (qs, t') ∧
      (∀ q ∈ qs, ∃ l o, obs.find? q.1 = some l ∧ o ∈ l ∧ Asks (X.schema m) parse enc (q.1, o) q) ∧
      (∀ r l o, obs.find? r = some l → o ∈ l → ∃ q ∈ qs, Asks (X.schema m) parse enc (r, o) q) ∧
      ((∀ r l spec, obs.find? r = some l → (X.schema m).find? r = some spec →
        l.Pairwise (fun o o' => ∀ k k', Codes enc spec.doms o.1 k → Codes enc spec.doms o'.1 k' → k ≠ k')) →
        (qs.map (fun q => (q.1, q.2.1))).Nodup) := by
  obtain ⟨e, he⟩ := encodeRels_ex (schema := X.schema m) (fwd := enc.fwd) (shuffle obs.entries t).1 ∅ (fun r l hrl => by
    obtain ⟨spec, h1, h2⟩ := hobs r l (FMap.mem_entries.mp ((shuffle_perm _ _).mem_iff.mp hrl))
    refine ⟨spec, h1, fun o ho => ?_⟩
    obtain ⟨k, v, h3, _⟩ := h2 o ho
    refine ⟨k, (codesOf_ok _ _ _).mpr ⟨h3.1, fun i x c hx hc => ?_⟩⟩
    obtain ⟨d, h4, h5⟩ := h3.2 i x c hx hc
    exact ⟨d, by simpa using h4, h5⟩)
  have h1 : encodeObservations (X.schema m) obs enc t = .ok (e, (shuffle obs.entries t).2) := by
    unfold encodeObservations
    simp only [bind, Except.bind, he]
  generalize (shuffle obs.entries t).2 = t1 at h1
  obtain ⟨he1, he2⟩ := encode_facts h1
  have hback : ∀ r cs, e.find? r = some cs → ∃ spec l, (X.schema m).find? r = some spec ∧ obs.find? r = some l ∧ List.Forall₂ (EncObs enc.fwd spec.doms) l cs := by
    intro r cs hr
    cases ho : obs.find? r with
    | none => rw [he2 r ho] at hr; cases hr
    | some l =>
      obtain ⟨spec, cs', g1, g2, g3⟩ := he1 r l ho
      rw [hr] at g3
      split at g3
      · cases g3
      · cases g3; exact ⟨spec, l, g1, rfl, g2⟩
  have key : ∀ es : List (String × List (Items × String)), (∀ x ∈ es, e.find? x.1 = some x.2) → (es.map Prod.fst).Nodup →
      ∃ qs, logpObs X parse m es = .ok qs ∧
        (∀ q ∈ qs, ∃ cs ∈ es, q.1 = cs.1) ∧
        (∀ q ∈ qs, ∃ l o, obs.find? q.1 = some l ∧ o ∈ l ∧ Asks (X.schema m) parse enc (q.1, o) q) ∧
        (∀ r cs l o, (r, cs) ∈ es → obs.find? r = some l → o ∈ l → ∃ q ∈ qs, Asks (X.schema m) parse enc (r, o) q) ∧
        ((∀ r l spec, obs.find? r = some l → (X.schema m).find? r = some spec →
          l.Pairwise (fun o o' => ∀ k k', Codes enc spec.doms o.1 k → Codes enc spec.doms o'.1 k' → k ≠ k')) →
          (qs.map (fun q => (q.1, q.2.1))).Nodup) := by
    intro es
    induction es with
    | nil => intro _ _; exact ⟨[], rfl, by simp, by simp, by simp, by simp⟩
    | cons x es ih =>
      obtain ⟨r, cs⟩ := x
      intro hx hnd
      simp only [List.map_cons, List.nodup_cons] at hnd
      obtain ⟨qs, a1, a0, a2, a3, a4⟩ := ih (fun y hy => hx y (by simp [hy])) hnd.2
      obtain ⟨spec, l, g1, g2, g3⟩ := hback r cs (hx (r, cs) (by simp))
      obtain ⟨rel, b1, b2, _⟩ := hX.get hm g1
      obtain ⟨spec', c1, c2⟩ := hobs r l g2
      rw [g1] at c1; cases c1
      obtain ⟨here, d1, d2⟩ := logpOne_ok (parse := parse) (r := r) (kind := rel.tag) cs (fun c hc => by
        obtain ⟨o, ho, hoc⟩ := forall₂_mem_right g3 hc
        obtain ⟨k, v, _, hv⟩ := c2 o ho
        exact ⟨v, by rw [b2, ← hoc.2]; exact hv⟩)
      have hin : ∀ q ∈ here, ∃ o ∈ l, Asks (X.schema m) parse enc (q.1, o) q := by
        intro q hq
        obtain ⟨c, hc, e1, e2, e3⟩ := forall₂_mem_right d2 hq
        obtain ⟨o, ho, hoc⟩ := forall₂_mem_right g3 hc
        exact ⟨o, ho, rfl, spec, by rw [e1]; exact g1, by rw [e2]; exact encObs_codes hoc, by rw [hoc.2, ← b2]; exact e3⟩
      have hrel : ∀ q ∈ here, q.1 = r := fun q hq => by
        obtain ⟨c, hc, e1, _⟩ := forall₂_mem_right d2 hq
        exact e1
      refine ⟨here ++ qs, bind_ok.mpr ⟨rel, b1, bind_ok.mpr ⟨here, d1, bind_ok.mpr ⟨qs, a1, rfl⟩⟩⟩, fun q hq => ?_, fun q hq => ?_, fun r' cs' l' o hr' hl' ho => ?_, fun hp => ?_⟩
      · rcases List.mem_append.mp hq with hq | hq
        · exact ⟨(r, cs), by simp, hrel q hq⟩
        · obtain ⟨y, h1, h2⟩ := a0 q hq
          exact ⟨y, by simp [h1], h2⟩
      · rcases List.mem_append.mp hq with hq | hq
        · obtain ⟨o, ho, h⟩ := hin q hq
          exact ⟨l, o, by rw [hrel q hq]; exact g2, ho, h⟩
        · exact a2 q hq
      · rcases List.mem_cons.mp hr' with hr' | hr'
        · cases hr'
          rw [g2] at hl'; cases hl'
          obtain ⟨c, hc, hoc⟩ := forall₂_mem_left g3 ho
          obtain ⟨q, hq, e1, e2, e3⟩ := forall₂_mem_left d2 hc
          refine ⟨q, by simp [hq], e1, spec, g1, by rw [e2]; exact encObs_codes hoc, ?_⟩
          show parse spec.kind o.2 = _
          rw [hoc.2, ← b2]; exact e3
        · obtain ⟨q, hq, h⟩ := a3 r' cs' l' o hr' hl' ho
          exact ⟨q, by simp [hq], h⟩
      · rw [List.map_append, List.nodup_append]
        refine ⟨?_, a4 hp, ?_⟩
        · rw [List.nodup_iff_pairwise_ne, List.pairwise_map]
          have hpw : cs.Pairwise (fun c c' => c.1 ≠ c'.1) :=
            forall₂_pairwise g3.flip (hp r l spec g2 g1) (fun a a' b b' p q hb => hb _ _ (encObs_codes p) (encObs_codes q))
          exact forall₂_pairwise d2.flip hpw (fun a a' b b' p q hne he => hne (by rw [← p.2.1, ← q.2.1]; exact (Prod.mk.inj he).2))
        · intro y hy z hz hyz
          obtain ⟨q, hq, rfl⟩ := List.mem_map.mp hy
          obtain ⟨q', hq', rfl⟩ := List.mem_map.mp hz
          obtain ⟨cs', h1, h2⟩ := a0 q' hq'
          refine hnd.1 (List.mem_map.mpr ⟨cs', h1, ?_⟩)
          rw [← h2, ← (Prod.mk.inj hyz).1]
          exact hrel q hq
  obtain ⟨qs, a1, _, a2, a3, a4⟩ := key (shuffle e.entries t1).1 (fun x hx => FMap.mem_entries.mp ((shuffle_perm _ _).mem_iff.mp hx))
    (((shuffle_perm e.entries t1).map Prod.fst).nodup_iff.mpr e.nodupKeys)
  refine ⟨qs, (shuffle e.entries t1).2, ?_, a2, fun r l o hl ho => ?_, a4⟩
  · unfold logpArgs
    simp only [bind, Except.bind, h1, a1]
  · obtain ⟨spec, cs, g1, g2, g3⟩ := he1 r l hl
    have hne : cs ≠ [] := by
      rintro rfl
      cases g2; cases ho
    rw [if_neg hne] at g3
    exact a3 r cs l o ((shuffle_perm _ _).mem_iff.mpr (FMap.mem_entries.mpr g3)) hl ho

end UtilIO
end
end Verif
