import Verif.Lemmas.HirmRun
import Verif.Props.Priors
import Verif.Props.Incorporate
/-!
Runs of the program `hirm` with proper files: what is read, and what is written.
-/
namespace Verif
noncomputable section
variable {V : Type} {F : Family V}

namespace HIRM

theorem Good.value_length {L : FamilyLaws F} {H : HIRM F} (h : Good L H) {r : String} {k : Items} {v : V} (hv : H.value r k = some v) :
    ∃ spec, H.schema.find? r = some spec ∧ k.length = spec.doms.length := by
  obtain ⟨data, h1, h2⟩ := Option.bind_eq_some_iff.mp hv
  obtain ⟨⟨tb, id, rel⟩, h3, h4⟩ := Option.map_eq_some_iff.mp h1
  obtain ⟨spec, h5, h6⟩ := h.matched h3
  obtain ⟨_, I, hI, hx⟩ := relOf_some.mp h3
  refine ⟨spec, h5, ?_⟩
  rw [← h6.doms]
  exact ((h.inv tb I hI).rels r id rel hx).length (FMap.contains_iff.mpr ⟨v, by rw [← h4] at h2; exact h2⟩)

theorem sampleLoop_obs {r : String} {doms : List String} {n : Nat} : ∀ (fuel num : Nat) (s : Sampling F) (t : Tape) (s' : Sampling F) (t' : Tape),
    sampleLoop r doms n fuel num s t = .ok (some (s', t')) → ∀ q, s'.obs.contains q = true → s.obs.contains q = true ∨ q = r := by
  intro fuel
  induction fuel with
  | zero =>
    intro num s t s' t' h q hq
    unfold sampleLoop at h
    split at h
    · cases h
    · cases h; exact .inl hq
  | succ fuel ih =>
    intro num s t s' t' h q hq
    unfold sampleLoop at h
    split at h
    · obtain ⟨⟨es, cs, crps, t1⟩, _, h⟩ := bind_ok.mp h
      obtain ⟨⟨tb, rel⟩, _, h⟩ := bind_ok.mp h
      dsimp only at h
      split at h
      · obtain ⟨crps', _, h⟩ := bind_ok.mp h
        exact ih _ _ _ _ _ h q hq
      · obtain ⟨⟨v, H, t2⟩, _, h⟩ := bind_ok.mp h
        rcases ih _ _ _ _ _ h q hq with hq | hq
        · rw [FMap.contains_iff_mem, FMap.keys_set_mem] at hq
          rcases hq with hq | hq
          · exact .inr hq
          · exact .inl (FMap.contains_iff_mem.mpr hq)
        · exact .inr hq
    · cases h; exact .inl hq

theorem sampleLeaves_obs {n fuel : Nat} : ∀ (l : List (String × RelSpec F)) (s : Sampling F) (t : Tape) (s' : Sampling F) (t' : Tape),
    sampleLeaves n fuel l s t = .ok (some (s', t')) → ∀ q, s'.obs.contains q = true → s.obs.contains q = true ∨ q ∈ l.map Prod.fst := by
  intro l
  induction l with
  | nil => intro s t s' t' h q hq; cases h; exact .inl hq
  | cons e l ih =>
    obtain ⟨r, spec⟩ := e
    intro s t s' t' h q hq
    unfold sampleLeaves at h
    split at h
    · rcases ih _ _ _ _ h q hq with h | h
      · exact .inl h
      · exact .inr (by simp [h])
    · obtain ⟨o, h1, h⟩ := bind_ok.mp h
      cases o with
      | none => cases h
      | some x =>
        obtain ⟨s1, t1⟩ := x
        rcases ih _ _ _ _ h q hq with h | h
        · rcases sampleLoop_obs _ _ _ _ _ _ h1 q h with h | h
          · exact .inl h
          · exact .inr (by simp [h])
        · exact .inr (by simp [h])

theorem sampleAndIncorporate_obs {H : HIRM F} {n fuel : Nat} {t t' : Tape} {s : Sampling F} (h : H.sampleAndIncorporate n fuel t = .ok (some (s, t'))) {q : String}
    (hq : s.obs.contains q = true) : H.schema.contains q = true := by
  obtain ⟨crps, _, h⟩ := bind_ok.mp h
  rcases sampleLeaves_obs _ _ _ _ _ h q hq with h | h
  · cases h
  · exact FMap.contains_iff_mem.mpr h

end HIRM

namespace HirmMain
open UtilIO

theorem printed_find (print : V → String) (obs : FMap String (List (Items × V))) (r : String) :
    (printed print obs).find? r = (obs.find? r).map (fun l => l.map (fun o => (o.1, print o.2))) := by
  have key : ∀ (l : List (String × List (Items × String))) (m : ObsMap Int), (l.map Prod.fst).Nodup → ∀ r,
      (l.foldl (fun m e => m.set e.1 e.2) m).find? r = match l.find? (fun e => e.1 == r) with | some e => some e.2 | none => m.find? r := by
    intro l
    induction l with
    | nil => intro m _ r; rfl
    | cons e l ih =>
      intro m hnd r
      simp only [List.map_cons, List.nodup_cons] at hnd
      rw [List.foldl_cons, ih _ hnd.2, List.find?_cons]
      by_cases he : e.1 = r
      · subst he
        have : l.find? (fun e' => e'.1 == e.1) = none := by
          rw [List.find?_eq_none]
          intro x hx hb
          exact hnd.1 (List.mem_map.mpr ⟨x, hx, by simpa using hb⟩)
        rw [this]
        simp [FMap.find?_set_self]
      · have hb : (e.1 == r) = false := by simpa using he
        rw [hb]
        dsimp only
        cases l.find? (fun e' => e'.1 == r) with
        | some x => rfl
        | none => exact FMap.find?_set_ne _ (fun h => he h.symm) _
  unfold printed
  rw [key _ _ (by rw [List.map_map]; exact obs.nodupKeys), List.find?_map]
  cases ho : obs.find? r with
  | none =>
    have : obs.entries.find? ((fun e => e.1 == r) ∘ fun e => (e.1, e.2.map (fun o => (o.1, print o.2)))) = none := by
      rw [List.find?_eq_none]
      intro x hx hb
      have hx := FMap.mem_entries.mp hx
      have : x.1 = r := by simpa using hb
      rw [this, ho] at hx
      cases hx
    rw [this]
    rfl
  | some l =>
    cases hf : obs.entries.find? ((fun e => e.1 == r) ∘ fun e => (e.1, e.2.map (fun o => (o.1, print o.2)))) with
    | none =>
      rw [List.find?_eq_none] at hf
      exact absurd (by simp) (hf (r, l) (FMap.mem_entries.mpr ho))
    | some x =>
      have h1 := FMap.mem_entries.mp (List.mem_of_find?_eq_some hf)
      have h2 : x.1 = r := by simpa using List.find?_some hf
      rw [h2, ho] at h1
      cases h1
      rfl

variable {w : World} {a : Args} {S : Schema (priors w)} {rows held : List Row}

/-- what has been read -/
structure Got (S : Schema (priors w)) (rows held : List Row) (i : Inputs (priors w)) : Prop where
  marked : Marked S i.schema
  obs : OfRows rows i.observations
  heldout : OfRows held i.heldout
  enc : ∃ merged t t', calculateEncoding i.schema merged t = .ok (i.encoding, t') ∧ ∀ x ∈ rows ++ held, ∃ l, merged.find? x.rel = some l ∧ (x.items, x.value) ∈ l

theorem States.row {x : Row} {v : Value} (h : States w S x v) (hd : ∀ n spec, S.find? n = some spec → spec.doms ≠ []) : S.contains x.rel = true ∧ x.items ≠ [] := by
  obtain ⟨spec, h1, h2, _⟩ := h
  refine ⟨FMap.contains_iff.mpr ⟨spec, h1⟩, fun he => hd _ spec h1 ?_⟩
  rw [he] at h2
  exact List.eq_nil_of_length_eq_zero h2.symm

theorem Proper.read (h : Proper w a S rows held) (t : Tape) : ∃ i t', readInputs (reader w) a t = .ok (i, t') ∧ Got S rows held i ∧
    ∀ x ∈ rows ++ held, ∀ spec, i.schema.find? x.rel = some spec → spec.observed = true := by
  have hd := loadSchema_doms h.schema
  obtain ⟨obs, S1, t1, h1, h2, h3, h4⟩ := loadObservations_rows h.obs (fun x hx => by
    obtain ⟨v, hv⟩ := (h.each x hx).2
    exact hv.row hd) t
  have hmk : ∀ {S2 : Schema (priors w)} {merged : ObsMap String}, Marked S S2 → (∀ r l, merged.find? r = some l → ∀ o ∈ l, ∃ x ∈ rows ++ held, x.rel = r ∧ o = (x.items, x.value)) →
      ∀ t, ∃ e t', calculateEncoding S2 merged t = .ok (e, t') := by
    intro S2 merged hm hx t
    refine (C32_calculated S2 merged t).mpr (fun r l items v hl ho => ?_)
    obtain ⟨x, hx, rfl, he⟩ := hx r l hl _ ho
    have : ∃ v, States w S x v := by
      rcases List.mem_append.mp hx with hx | hx
      · exact (h.each x hx).2
      · exact (h.heldEach x hx).1
    obtain ⟨v', spec, g1, g2, _⟩ := this
    obtain ⟨sp, g3, g4⟩ := hm.to g1
    exact ⟨sp, g3, by rw [g4.doms, ← g2, (Prod.mk.inj he).1]⟩
  have hh := h.heldout
  cases ha : a.heldout with
  | none =>
    rw [ha] at hh
    have hh : held = [] := hh
    subst hh
    obtain ⟨e, t2, h5⟩ := hmk (merged := obs) h3 (fun r l hl o ho => by
      obtain ⟨rfl, _⟩ := h2.find hl
      obtain ⟨x, hx, g⟩ := mem_rowsOf.mp ho
      exact ⟨x, by simp [hx], g⟩) t1
    refine ⟨{ schema := S1, observations := obs, heldout := ∅, encoding := e }, t2, ?_, ⟨h3, h2, fun r => rfl, obs, t1, t2, h5, fun x hx => ?_⟩, fun x hx => h4 x (by simpa using hx)⟩
    · refine bind_ok.mpr ⟨S, h.schema, bind_ok.mpr ⟨_, h1, bind_ok.mpr ⟨((S1, ∅, obs), t1), ?_, bind_ok.mpr ⟨_, h5, rfl⟩⟩⟩⟩
      rw [ha]; rfl
    · exact ⟨_, h2.row (by simpa using hx)⟩
  | some text =>
    rw [ha] at hh
    obtain ⟨ho, S2, t2, g1, g2, g3, g4⟩ := loadObservations_rows (S := S1) hh (fun x hx => by
      obtain ⟨v, hv⟩ := (h.heldEach x hx).1
      obtain ⟨k1, k2⟩ := hv.row hd
      obtain ⟨sp, k3⟩ := FMap.contains_iff.mp k1
      obtain ⟨sp', k4, _⟩ := h3.to k3
      exact ⟨FMap.contains_iff.mpr ⟨_, k4⟩, k2⟩) t1
    have hun := C55_union obs ho t2
    obtain ⟨e, t3, h5⟩ := hmk (merged := (mergeObservations obs ho t2).1) (h3.trans g3) (fun r l hl o hol => by
      rw [hun r] at hl
      have : o ∈ (obs.find? r).getD [] ∨ o ∈ (ho.find? r).getD [] := by
        cases h6 : obs.find? r with
        | none =>
          cases h7 : ho.find? r with
          | none => rw [h6, h7] at hl; cases hl
          | some b => rw [h6, h7] at hl; cases hl; exact .inr hol
        | some b' =>
          cases h7 : ho.find? r with
          | none => rw [h6, h7] at hl; cases hl; exact .inl hol
          | some b => rw [h6, h7] at hl; cases hl; exact (List.mem_append.mp hol)
      rcases this with hm | hm
      · cases h6 : obs.find? r with
        | none => rw [h6] at hm; cases hm
        | some b =>
          rw [h6] at hm
          obtain ⟨rfl, _⟩ := h2.find h6
          obtain ⟨x, hx, g⟩ := mem_rowsOf.mp hm
          exact ⟨x, by simp [hx], g⟩
      · cases h6 : ho.find? r with
        | none => rw [h6] at hm; cases hm
        | some b =>
          rw [h6] at hm
          obtain ⟨rfl, _⟩ := g2.find h6
          obtain ⟨x, hx, g⟩ := mem_rowsOf.mp hm
          exact ⟨x, by simp [hx], g⟩) (mergeObservations obs ho t2).2
    refine ⟨{ schema := S2, observations := obs, heldout := ho, encoding := e }, t3, ?_, ⟨h3.trans g3, h2, g2, _, _, t3, h5, fun x hx => ?_⟩, fun x hx spec hs => ?_⟩
    · refine bind_ok.mpr ⟨S, h.schema, bind_ok.mpr ⟨_, h1, bind_ok.mpr ⟨((S2, ho, (mergeObservations obs ho t2).1), (mergeObservations obs ho t2).2), ?_, bind_ok.mpr ⟨_, h5, rfl⟩⟩⟩⟩
      rw [ha]
      exact bind_ok.mpr ⟨_, g1, rfl⟩
    rotate_left
    · rcases List.mem_append.mp hx with hx | hx
      · rcases g3 x.rel with g | g
        · exact h4 x hx spec (g ▸ hs)
        · have hs : S2.find? x.rel = some spec := hs
          rw [g] at hs
          obtain ⟨q, _, rfl⟩ := Option.map_eq_some_iff.mp hs
          cases q <;> rfl
      · exact g4 x hx spec hs
    · rw [hun x.rel]
      rcases List.mem_append.mp hx with hx | hx
      · obtain ⟨k1, k2⟩ := h2.row hx
        rw [k1]
        cases ho.find? x.rel with
        | none => exact ⟨_, rfl, k2⟩
        | some b => exact ⟨_, rfl, List.mem_append.mpr (.inl k2)⟩
      · obtain ⟨k1, k2⟩ := g2.row hx
        rw [k1]
        cases obs.find? x.rel with
        | none => exact ⟨_, rfl, k2⟩
        | some b => exact ⟨_, rfl, List.mem_append.mpr (.inr k2)⟩

/-- the entities of the rows have codes -/
theorem Got.codes {i : Inputs (priors w)} (h : Got S rows held i) {x : Row} (hx : x ∈ rows ++ held) {spec : RelSpec (priors w)} (hs : i.schema.find? x.rel = some spec)
    (hl : x.items.length = spec.doms.length) : ∃ k, Codes i.encoding spec.doms x.items k ∧ k.length = spec.doms.length := by
  obtain ⟨merged, t, t', h1, h2⟩ := h.enc
  obtain ⟨l, h3, h4⟩ := h2 x hx
  refine codes_ex hl (fun j y d hy hd => ?_)
  exact ((C32_bijection h1 d).2.2.1 y).mpr ⟨x.rel, spec, l, x.items, x.value, j, hs, h3, h4, hy, hd⟩

theorem Got.inj {i : Inputs (priors w)} (h : Got S rows held i) (d x y : String) (c : Int) (hx : Encoding.code i.encoding d x = some c)
    (hy : Encoding.code i.encoding d y = some c) : x = y := by
  obtain ⟨merged, t, t', h1, _⟩ := h.enc
  have hb := (C32_bijection h1 d).1
  have h2 := (hb x c).mp hx
  rw [(hb y c).mp hy] at h2
  exact (Option.some.inj h2).symm

theorem Got.apart {i : Inputs (priors w)} (h : Got S rows held i) {l : List Row} (hd : Distinct l) (r : String) (doms : List String) :
    (rowsOf l r).Pairwise (fun o o' => ∀ k k', Codes i.encoding doms o.1 k → Codes i.encoding doms o'.1 k' → k ≠ k') := by
  unfold rowsOf
  rw [List.pairwise_map]
  refine (hd.filter _).imp_of_mem (fun {x y} hx hy hxy k k' hk hk' he => ?_)
  subst he
  have e1 : x.rel = r := by simpa using (List.mem_filter.mp hx).2
  have e2 : y.rel = r := by simpa using (List.mem_filter.mp hy).2
  exact hxy (e1.trans e2.symm) (hk.inj h.inj hk')

end HirmMain
end
end Verif
