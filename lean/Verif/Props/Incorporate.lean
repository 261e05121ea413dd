import Verif.Lemmas.IncorporateHosts
import Verif.Props.Sampling
/-!
`incorporate_observations`: C33.
-/
namespace Verif
open Spec UtilIO
noncomputable section
variable {V : Type} {F : Family V} {L : FamilyLaws F}

namespace HIRM

/-- C33: if `incorporate_observations` returns, then, in whatever orders it visits the relations and items, it has stored every
observation of every relation exactly once, it has kept what was stored before, and what else it has stored are values of relations
without observations, at tuples that a noisy relation needs. -/
theorem C33_returned (S : Samples L) {H : HIRM F} (h : Reach L H) (hc : Usable L H.schema) {parse : F.C ⊕ F.E → String → Res V}
    {enc : Encoding} {obs : ObsMap String} (hv : Supported (host F) L parse obs H) {t t' : Tape} {H' : HIRM F}
    (hr : incorporateObservations (host F) parse H enc obs t = .ok (H', t')) :
    Reach L H' ∧ Sound L H' ∧ Incorporated (host F) value parse enc obs H H' := by
  obtain ⟨⟨h1, _⟩, h2⟩ := incorporateObservations_ok (hosted S) ⟨h, hc⟩ hv hr
  exact ⟨h1, C61_sound h1, h2⟩

/-- C33: observations of relations that are not bases are incorporated, each exactly once, in whatever orders the relations and items are
visited, if they suit their relations and if every noisy relation that is not a base is observed.  Missing for C33: observations of base
relations, see `C33_order_false` and `C33_shared_base_false`. -/
theorem C33_returns_partial (S : Samples L) {H : HIRM F} (h : Reach L H) (hc : Usable L H.schema) {parse : F.C ⊕ F.E → String → Res V}
    {enc : Encoding} {obs : ObsMap String} (hv : Supported (host F) L parse obs H)
    (hobs : ∀ r l, obs.find? r = some l → ∃ spec, H.schema.find? r = some spec ∧ Suits value parse enc H r spec l)
    (hleaf : ∀ r l, obs.find? r = some l → l ≠ [] → Leaf H.schema r)
    (hall : ∀ n spec b, H.schema.find? n = some spec → spec.base? = some b → Leaf H.schema n → obs.contains n = true) (t : Tape) :
    ∃ H' t', incorporateObservations (host F) parse H enc obs t = .ok (H', t') ∧
      Reach L H' ∧ Sound L H' ∧ Incorporated (host F) value parse enc obs H H' := by
  obtain ⟨⟨H', t'⟩, hr⟩ := incorporateObservations_ex (hosted S) ⟨h, hc⟩ (enc := enc) (obs := obs) (parse := parse) (fun r l hl => by
    obtain ⟨spec, h1, h2⟩ := hobs r l hl
    exact ⟨spec, h1, hleaf r l hl, h2.each, fun o ho v hp => hv r spec l o v h1 hl ho hp, h2.distinct⟩) hall t
  exact ⟨H', t', hr, C33_returned S h hc hv hr⟩

/-- C33 is false: if a relation and its base are both observed, there is an order of the relations for which `incorporate_observations` does
not return (it incorporates the observations of the base twice, and the second time an assertion fails). -/
theorem C33_order_false (S : Samples L) {H : HIRM F} (h : Reach L H) (hc : Usable L H.schema) {parse : F.C ⊕ F.E → String → Res V}
    {enc : Encoding} {obs : ObsMap String} (hv : Supported (host F) L parse obs H) {n b : String} {spec sp : RelSpec F} {l lb : List (List String × String)}
    (hs : H.schema.find? n = some spec) (hb : spec.base? = some b) (hsb : H.schema.find? b = some sp)
    (ho : obs.find? n = some l) (hl : l ≠ []) (hob : obs.find? b = some lb) (hlb : lb ≠ []) :
    ∃ t, ∀ x, incorporateObservations (host F) parse H enc obs t ≠ .ok x :=
  incorporateObservations_order (hosted S) ⟨h, hc⟩ hv hs hb hsb ho hl hob hlb

/-- C33 is false: if a base and two noisy relations of that base are observed, `incorporate_observations` returns for no order. -/
theorem C33_shared_base_false (S : Samples L) {H : HIRM F} (h : Reach L H) (hc : Usable L H.schema) {parse : F.C ⊕ F.E → String → Res V}
    {enc : Encoding} {obs : ObsMap String} (hv : Supported (host F) L parse obs H) {n n' b : String} {spec spec' sp : RelSpec F}
    {l l' lb : List (List String × String)} (hs : H.schema.find? n = some spec) (hb : spec.base? = some b)
    (hs' : H.schema.find? n' = some spec') (hb' : spec'.base? = some b) (hnn : n ≠ n') (hsb : H.schema.find? b = some sp)
    (ho : obs.find? n = some l) (hl : l ≠ []) (ho' : obs.find? n' = some l') (hl' : l' ≠ []) (hob : obs.find? b = some lb) (hlb : lb ≠ []) (t : Tape) :
    ∀ x, incorporateObservations (host F) parse H enc obs t ≠ .ok x :=
  incorporateObservations_shared (hosted S) ⟨h, hc⟩ hv hs hb hs' hb' hnn hsb ho hl ho' hl' hob hlb t

end HIRM

namespace IRM

/-- C33 for an IRM: as `HIRM.C33_returned`. -/
theorem C33_returned {st : Prop} (S : Samples L) {n : Nat} {I : IRM F} (h : Reach L False st n I) (hc : Usable L I.schema) {parse : F.C ⊕ F.E → String → Res V}
    {enc : Encoding} {obs : ObsMap String} (hv : Supported (host F) L parse obs I) {t t' : Tape} {I' : IRM F}
    (hr : incorporateObservations (host F) parse I enc obs t = .ok (I', t')) :
    Reach L False st n I' ∧ Incorporated (host F) value parse enc obs I I' := by
  obtain ⟨⟨h1, _⟩, h2⟩ := incorporateObservations_ok (hosted S n) ⟨h, hc⟩ hv hr
  exact ⟨h1, h2⟩

/-- C33 for an IRM: as `HIRM.C33_returns_partial`, with the same part missing. -/
theorem C33_returns_partial {st : Prop} (S : Samples L) {n : Nat} {I : IRM F} (h : Reach L False st n I) (hc : Usable L I.schema) {parse : F.C ⊕ F.E → String → Res V}
    {enc : Encoding} {obs : ObsMap String} (hv : Supported (host F) L parse obs I)
    (hobs : ∀ r l, obs.find? r = some l → ∃ spec, I.schema.find? r = some spec ∧ Suits value parse enc I r spec l)
    (hleaf : ∀ r l, obs.find? r = some l → l ≠ [] → HIRM.Leaf I.schema r)
    (hall : ∀ n spec b, I.schema.find? n = some spec → spec.base? = some b → HIRM.Leaf I.schema n → obs.contains n = true) (t : Tape) :
    ∃ I' t', incorporateObservations (host F) parse I enc obs t = .ok (I', t') ∧
      Reach L False st n I' ∧ Incorporated (host F) value parse enc obs I I' := by
  obtain ⟨⟨I', t'⟩, hr⟩ := incorporateObservations_ex (hosted S n) ⟨h, hc⟩ (enc := enc) (obs := obs) (parse := parse) (fun r l hl => by
    obtain ⟨spec, h1, h2⟩ := hobs r l hl
    exact ⟨spec, h1, hleaf r l hl, h2.each, fun o ho v hp => hv r spec l o v h1 hl ho hp, h2.distinct⟩) hall t
  exact ⟨I', t', hr, C33_returned S h hc hv hr⟩

/-- C33 is false for an IRM: as `HIRM.C33_order_false`. -/
theorem C33_order_false {st : Prop} (S : Samples L) {k : Nat} {I : IRM F} (h : Reach L False st k I) (hc : Usable L I.schema) {parse : F.C ⊕ F.E → String → Res V}
    {enc : Encoding} {obs : ObsMap String} (hv : Supported (host F) L parse obs I) {n b : String} {spec sp : RelSpec F} {l lb : List (List String × String)}
    (hs : I.schema.find? n = some spec) (hb : spec.base? = some b) (hsb : I.schema.find? b = some sp)
    (ho : obs.find? n = some l) (hl : l ≠ []) (hob : obs.find? b = some lb) (hlb : lb ≠ []) :
    ∃ t, ∀ x, incorporateObservations (host F) parse I enc obs t ≠ .ok x :=
  incorporateObservations_order (hosted S k) ⟨h, hc⟩ hv hs hb hsb ho hl hob hlb

/-- C33 is false for an IRM: as `HIRM.C33_shared_base_false`. -/
theorem C33_shared_base_false {st : Prop} (S : Samples L) {k : Nat} {I : IRM F} (h : Reach L False st k I) (hc : Usable L I.schema)
    {parse : F.C ⊕ F.E → String → Res V} {enc : Encoding} {obs : ObsMap String} (hv : Supported (host F) L parse obs I) {n n' b : String}
    {spec spec' sp : RelSpec F} {l l' lb : List (List String × String)} (hs : I.schema.find? n = some spec) (hb : spec.base? = some b)
    (hs' : I.schema.find? n' = some spec') (hb' : spec'.base? = some b) (hnn : n ≠ n') (hsb : I.schema.find? b = some sp)
    (ho : obs.find? n = some l) (hl : l ≠ []) (ho' : obs.find? n' = some l') (hl' : l' ≠ []) (hob : obs.find? b = some lb) (hlb : lb ≠ []) (t : Tape) :
    ∀ x, incorporateObservations (host F) parse I enc obs t ≠ .ok x :=
  incorporateObservations_shared (hosted S k) ⟨h, hc⟩ hv hs hb hs' hb' hnn hsb ho hl ho' hl' hob hlb t

end IRM

/-! ### concrete cases -/
namespace HIRM
open Latent (bools boolLaws)

def parse01 : bools.C ⊕ bools.E → String → Res Bool := fun _ s => if s = "1" then .ok true else if s = "0" then .ok false else .error .assert

/-- the entity codes `x` = 3, `w` = 4 in domain `D` and `y` = 5 in domain `E` -/
def incEnc : Encoding := { fwd := ((∅ : FMap String (FMap String Int)).set "D" (((∅ : FMap String Int).set "x" 3).set "w" 4)).set "E" ((∅ : FMap String Int).set "y" 5) }

/-- the observations `A(x, y) = 0`, `A(w, y) = 1` and `C(y) = 1` -/
def incLeaf : ObsMap String := ((∅ : ObsMap String).set "A" [(["x", "y"], "0"), (["w", "y"], "1")]).set "C" [(["y"], "1")]

/-- the observations `A(x, y) = 0` and `B(x) = 1` -/
def incBoth : ObsMap String := ((∅ : ObsMap String).set "A" [(["x", "y"], "0")]).set "B" [(["x"], "1")]

theorem supported_bools {obs : ObsMap String} {H : HIRM bools} : Supported (host bools) boolLaws parse01 obs H := by
  intro r spec l o v _ _ _ _
  cases spec with
  | clean c _ _ => exact trivial
  | noisy e _ b _ => intro sp bv _ _; exact NoisyRel.any _

/-- C33_returned: `A` is visited before its base `B`, and the call returns -/
example : ∃ H' t', incorporateObservations (host bools) parse01 mv1 incEnc incBoth [] = .ok (H', t') ∧ H'.value "B" [3] = some true ∧
    H'.value "A" [3, 5] = some false := ⟨_, _, rfl, rfl, rfl⟩

/-- C33_order_false: for another order it does not -/
example : ∃ t, ∀ x, incorporateObservations (host bools) parse01 mv1 incEnc incBoth t ≠ .ok x :=
  C33_order_false samples_bools mv1_reach (compatible_bools _).toUsable supported_bools (n := "A") (b := "B") rfl rfl rfl rfl (by simp) rfl (by simp)

/-- C33_returns_partial: for every order, the observations are incorporated and values of `B` at `x` and `w` are sampled -/
example (t : Tape) : ∃ H' t', incorporateObservations (host bools) parse01 mv1 incEnc incLeaf t = .ok (H', t') ∧ H'.value "A" [4, 5] = some true := by
  have hleaf : ∀ r, r ≠ "B" → Leaf mv1.schema r := by
    intro r hr n spec h1 h2
    have h1 : mvSchema.find? n = some spec := h1
    rcases mvSchema_find h1 with ⟨rfl, rfl⟩ | ⟨rfl, rfl⟩ | ⟨rfl, rfl⟩ <;> cases h2
    exact hr rfl
  have hfind : ∀ r l, incLeaf.find? r = some l → (r = "A" ∧ l = [(["x", "y"], "0"), (["w", "y"], "1")]) ∨ (r = "C" ∧ l = [(["y"], "1")]) := by
    intro r l h
    unfold incLeaf at h
    simp only [FMap.find?_set] at h
    split at h
    · cases h; exact .inr ⟨by assumption, rfl⟩
    · split at h
      · cases h; exact .inl ⟨by assumption, rfl⟩
      · cases h
  have code2 : ∀ (a b : String) (c d : Int), Encoding.code incEnc "D" a = some c → Encoding.code incEnc "E" b = some d → Codes incEnc ["D", "E"] [a, b] [c, d] := by
    intro a b c d h1 h2
    refine ⟨rfl, fun i x c' hx hc => ?_⟩
    match i with
    | 0 => cases hx; cases hc; exact ⟨_, rfl, h1⟩
    | 1 => cases hx; cases hc; exact ⟨_, rfl, h2⟩
  have cx := code2 "x" "y" 3 5 rfl rfl
  have cw := code2 "w" "y" 4 5 rfl rfl
  have cy : Codes incEnc ["E"] ["y"] [5] := ⟨rfl, fun i x c' hx hc => by
    match i with
    | 0 => cases hx; cases hc; exact ⟨_, rfl, rfl⟩⟩
  obtain ⟨H', t', h1, _, _, h2⟩ := C33_returns_partial samples_bools mv1_reach (compatible_bools _).toUsable (enc := incEnc) (obs := incLeaf)
    supported_bools (fun r l hl => by
      rcases hfind r l hl with ⟨rfl, rfl⟩ | ⟨rfl, rfl⟩
      · refine ⟨.noisy () ["D", "E"] "B" true, rfl, ⟨fun o ho => ?_, ?_⟩⟩
        · simp only [List.mem_cons, List.not_mem_nil, or_false] at ho
          rcases ho with rfl | rfl
          · exact ⟨[3, 5], false, cx, rfl, rfl, rfl⟩
          · exact ⟨[4, 5], true, cw, rfl, rfl, rfl⟩
        · simp only [List.pairwise_cons, List.mem_singleton, List.not_mem_nil, false_imp_iff, implies_true, and_true, List.Pairwise.nil]
          rintro _ rfl k k' hk hk'
          rw [hk.unique cx, hk'.unique cw]
          decide
      · refine ⟨.clean () ["E"] true, rfl, ⟨fun o ho => ?_, List.pairwise_singleton _ _⟩⟩
        simp only [List.mem_cons, List.not_mem_nil, or_false] at ho
        subst ho
        exact ⟨[5], true, cy, rfl, rfl, rfl⟩)
    (fun r l hl _ => by
      rcases hfind r l hl with ⟨rfl, rfl⟩ | ⟨rfl, rfl⟩
      · exact hleaf _ (by decide)
      · exact hleaf _ (by decide))
    (fun n spec b h1 h2 _ => by
      have h1 : mvSchema.find? n = some spec := h1
      rcases mvSchema_find h1 with ⟨rfl, rfl⟩ | ⟨rfl, rfl⟩ | ⟨rfl, rfl⟩ <;> cases h2
      rfl) t
  refine ⟨H', t', h1, ?_⟩
  obtain ⟨k, v, ⟨spec, rel, g1, g2, g3, g4⟩, _, g5⟩ := h2.each "A" _ rfl (["w", "y"], "1") (by simp)
  have g1 : mvSchema.find? "A" = some spec := g1
  have g1' : mvSchema.find? "A" = some (.noisy () ["D", "E"] "B" true) := rfl
  rw [g1'] at g1
  cases g1
  rw [g2.unique cw] at g5
  cases g4
  exact g5

/-- C33_shared_base_false: the schema has a second relation `Z` with the base `B` -/
def shSchema : Schema bools := mvSchema.set "Z" (.noisy () ["D", "E"] "B" true)
def sh1 : HIRM bools := got (mk' shSchema [0, 1, 0, 0])
theorem sh1_eq : mk' shSchema [0, 1, 0, 0] = .ok (sh1, []) := rfl
theorem sh1_reach : Reach boolLaws sh1 := C61_constructed (fun n spec b sp h1 h2 h3 => by
  unfold shSchema at h1 h3
  rw [FMap.find?_set] at h1 h3
  have hB : b = "B" := by
    split at h1
    · cases h1; cases h2; rfl
    · rcases mvSchema_find h1 with ⟨rfl, rfl⟩ | ⟨rfl, rfl⟩ | ⟨rfl, rfl⟩ <;> cases h2
      rfl
  subst hB
  rw [if_neg (by decide)] at h3
  have hD : spec.doms = ["D", "E"] := by
    split at h1
    · cases h1; rfl
    · rcases mvSchema_find h1 with ⟨rfl, rfl⟩ | ⟨rfl, rfl⟩ | ⟨rfl, rfl⟩ <;> cases h2
      rfl
  rw [hD]
  rcases mvSchema_find h3 with ⟨h, _⟩ | ⟨_, rfl⟩ | ⟨h, _⟩
  · exact absurd h (by decide)
  · decide
  · exact absurd h (by decide)) sh1_eq

example (t : Tape) : ∀ x, incorporateObservations (host bools) parse01 sh1 incEnc (incBoth.set "Z" [(["x", "y"], "0")]) t ≠ .ok x :=
  C33_shared_base_false samples_bools sh1_reach (compatible_bools _).toUsable supported_bools (n := "A") (n' := "Z") (b := "B") rfl rfl rfl rfl (by decide) rfl
    rfl (by simp) rfl (by simp) rfl (by simp) t

/-- the second incorporation of the observation of `B` fails an assertion -/
example : incorporateObservations (host bools) parse01 sh1 incEnc (incBoth.set "Z" [(["x", "y"], "0")]) [] = .error .assert := rfl

end HIRM

namespace IRM
open Latent (bools boolLaws)

theorem supported_irm {obs : ObsMap String} {I : IRM bools} : Supported (host bools) boolLaws HIRM.parse01 obs I := by
  intro r spec l o v _ _ _ _
  cases spec with
  | clean c _ _ => exact trivial
  | noisy e _ b _ => intro sp bv _ _; exact NoisyRel.any _

/-- the observations `S(x, y) = 0` and `R(x) = 1` -/
def incBoth : ObsMap String := ((∅ : ObsMap String).set "S" [(["x", "y"], "0")]).set "R" [(["x"], "1")]

/-- C33_order_false for an IRM; the base `R` is visited first -/
example : ∃ t, ∀ x, incorporateObservations (host bools) HIRM.parse01 ex2 HIRM.incEnc incBoth t ≠ .ok x :=
  C33_order_false HIRM.samples_bools (ex2_reach False) (HIRM.compatible_bools _).toUsable supported_irm (n := "S") (b := "R") rfl rfl rfl rfl (by simp) rfl (by simp)
example : incorporateObservations (host bools) HIRM.parse01 ex2 HIRM.incEnc incBoth [] = .error .assert := rfl

/-- C33_returned: only `S` is observed; a value of `R` is sampled -/
example : ∃ I' t', incorporateObservations (host bools) HIRM.parse01 ex2 HIRM.incEnc ((∅ : ObsMap String).set "S" [(["x", "y"], "0")]) [] = .ok (I', t') ∧
    I'.value "S" [3, 5] = some false ∧ (I'.value "R" [3]).isSome := ⟨_, _, rfl, rfl, rfl⟩

end IRM
end
end Verif
