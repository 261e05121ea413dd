import Verif.Model.HirmMain
import Verif.Lemmas.KnownLoad
import Verif.Lemmas.SchemaFile
import Verif.Lemmas.ObsFile
import Verif.Props.UtilIO
import Verif.Props.ObsFile
import Verif.Props.HIRM
import Mathlib.Data.Fintype.Card
/-!
What the files that `hirm` reads give it.
-/
namespace Verif
noncomputable section
variable {V : Type} {F : Family V}

namespace UtilIO
open Text

/-! ### Names of relations -/

theorem idChar_noSpace {c : Char} (h : idChar c = true) : isSpace c = false := by
  unfold idChar isAlnum isUpper isDigit at h
  unfold isSpace
  have h95 : '_'.toNat = 95 := rfl
  simp only [Bool.or_eq_true, Bool.and_eq_true, decide_eq_true_eq, beq_iff_eq] at h
  simp only [Bool.or_eq_false_iff, Bool.and_eq_false_iff, decide_eq_false_iff_not, beq_eq_false_iff_ne]
  rcases h with ((h | h) | h) | rfl
  · omega
  · omega
  · omega
  · rw [h95]; omega

theorem tokenizeLoop_names : ∀ (fuel : Nat) (cs : List Char) (ts : List Token), tokenizeLoop fuel cs = some ts → ∀ t ∈ ts, t.type = .identifier → Word (String.ofList t.val) := by
  have key : ∀ {ts : List Token} {o : Option (List Token)} {x : Token}, o.map (x :: ·) = some ts → (∀ ts', o = some ts' → ∀ t ∈ ts', t.type = .identifier →
      Word (String.ofList t.val)) → (x.type = .identifier → Word (String.ofList x.val)) → ∀ t ∈ ts, t.type = .identifier → Word (String.ofList t.val) := by
    intro ts o x h h1 h2 t ht
    cases o with
    | none => cases h
    | some l =>
      cases h
      rcases List.mem_cons.mp ht with rfl | ht
      · exact h2
      · exact h1 l rfl t ht
  intro fuel
  induction fuel with
  | zero =>
    intro cs ts h
    cases cs with
    | nil => cases h; intro t ht; cases ht
    | cons => cases h
  | succ fuel ih =>
    intro cs ts h
    cases cs with
    | nil => cases h; intro t ht; cases ht
    | cons c cs =>
      unfold tokenizeLoop at h
      split at h
      · cases h; intro t ht; cases ht
      split at h
      · exact ih _ _ h
      split at h
      · exact key h (fun ts' => ih _ ts') (fun h => by cases h)
      split at h
      · split at h
        · cases h
        · exact key h (fun ts' => ih _ ts') (fun h => by cases h)
      split at h
      · exact key h (fun ts' => ih _ ts') (fun h => by cases h)
      split at h
      · rename_i hc
        refine key h (fun ts' => ih _ ts') (fun _ => ⟨?_, fun x hx => ?_⟩)
        · intro he
          have := congrArg String.toList he
          simp at this
        · rw [String.toList_ofList] at hx
          rcases List.mem_cons.mp hx with rfl | hx
          · exact idChar_noSpace hc
          · exact idChar_noSpace (List.all_eq_true.mp List.all_takeWhile x hx)
      · cases h

theorem Line.named {ts : List Token} {d : Decl} (h : Line ts d) : ∃ r ∈ ts, r.type = .identifier ∧ d.name = String.ofList r.val := by
  cases h with
  | params h => exact ⟨_, by simp, h, rfl⟩
  | plain h => exact ⟨_, by simp, h, rfl⟩

theorem schemaLines_names {mkC : List Char → FMap String String → Res F.C} {mkE : List Char → FMap String String → Res F.E} :
    ∀ (ls : List (List Char)) (S S' : Schema F), (∀ n, S.contains n = true → Word n) → schemaLines mkC mkE ls S = .ok S' → ∀ n, S'.contains n = true → Word n := by
  intro ls
  induction ls with
  | nil => intro S S' h hc; cases hc; exact h
  | cons line ls ih =>
    intro S S' h hc
    unfold schemaLines at hc
    split at hc
    · cases hc
    · exact ih _ _ h hc
    · rename_i ts _ htok
      obtain ⟨d, h1, hc⟩ := bind_ok.mp hc
      obtain ⟨S1, h2, hc⟩ := bind_ok.mp hc
      refine ih _ _ (fun n hn => ?_) hc
      obtain ⟨r, hr, hr', hd⟩ := ((loadDecl_iff _ _).mp h1).named
      have hw : Word d.name := by rw [hd]; exact tokenizeLoop_names _ _ _ htok r hr hr'
      have : ∀ spec : RelSpec F, (S.set d.name spec).contains n = true → Word n := by
        intro spec hn
        rw [FMap.contains_iff_mem, FMap.keys_set_mem] at hn
        rcases hn with rfl | hn
        · exact hw
        · exact h n (FMap.contains_iff_mem.mpr hn)
      unfold addDecl at h2
      split at h2
      · obtain ⟨_, _, h2⟩ := bind_ok.mp h2
        obtain ⟨c, _, h2⟩ := bind_ok.mp h2
        cases h2
        exact this _ hn
      · obtain ⟨_, _, h2⟩ := bind_ok.mp h2
        obtain ⟨c, _, h2⟩ := bind_ok.mp h2
        cases h2
        exact this _ hn

/-- What holds of the schemas that `load_schema` reads: the names of the relations are words, bases are there and the domains of a relation start with those of its base. -/
structure Read (S : Schema F) : Prop where
  words : ∀ n, S.contains n = true → Word n
  bases : ∀ n spec b, S.find? n = some spec → spec.base? = some b → ∃ sp, S.find? b = some sp ∧ sp.doms <+: spec.doms

theorem loadSchema_read {mkC : List Char → FMap String String → Res F.C} {mkE : List Char → FMap String String → Res F.E} {text : List Char} {S : Schema F}
    (h : loadSchema mkC mkE text = .ok S) : Read S := by
  obtain ⟨S1, h1, h⟩ := bind_ok.mp h
  obtain ⟨_, h2, h⟩ := bind_ok.mp h
  cases h
  refine ⟨schemaLines_names _ _ _ (fun n hn => by cases hn) h1, fun n spec b hs hb => ?_⟩
  cases spec with
  | clean c ds o => cases hb
  | noisy e ds base o => cases hb; exact (C49_accepts S).mp h2 n e ds b o hs

/-- The same relations with the same domains and bases. -/
def Alike (S S' : Schema F) : Prop := ∀ n, (S'.find? n).map (fun s => (s.doms, s.base?)) = (S.find? n).map (fun s => (s.doms, s.base?))

theorem Alike.refl (S : Schema F) : Alike S S := fun _ => rfl
theorem Alike.symm {S S' : Schema F} (h : Alike S S') : Alike S' S := fun n => (h n).symm
theorem Alike.trans {S S' S'' : Schema F} (h : Alike S S') (h' : Alike S' S'') : Alike S S'' := fun n => (h' n).trans (h n)

theorem Alike.some {S S' : Schema F} (h : Alike S S') {n : String} {spec : RelSpec F} (hs : S'.find? n = some spec) :
    ∃ sp, S.find? n = some sp ∧ sp.doms = spec.doms ∧ sp.base? = spec.base? := by
  have := h n
  rw [hs] at this
  cases hn : S.find? n with
  | none => rw [hn] at this; cases this
  | some sp =>
    rw [hn] at this
    have := Option.some.inj this
    exact ⟨sp, rfl, (congrArg Prod.fst this).symm, (congrArg Prod.snd this).symm⟩

theorem Alike.read {S S' : Schema F} (h : Alike S S') (hr : Read S) : Read S' := by
  constructor
  · intro n hn
    obtain ⟨spec, hs⟩ := FMap.contains_iff.mp hn
    obtain ⟨sp, h1, _⟩ := h.some hs
    exact hr.words n (FMap.contains_iff.mpr ⟨sp, h1⟩)
  · intro n spec b hs hb
    obtain ⟨sp, h1, h2, h3⟩ := h.some hs
    obtain ⟨q, h4, h5⟩ := hr.bases n sp b h1 (h3.trans hb)
    obtain ⟨q', h6, h7, _⟩ := h.symm.some h4
    exact ⟨q', h6, by rw [h7, ← h2]; exact h5⟩

theorem observe_doms (s : RelSpec F) : s.observe.doms = s.doms := by cases s <;> rfl
theorem observe_base (s : RelSpec F) : s.observe.base? = s.base? := by cases s <;> rfl

theorem loadObservations_alike {S S' : Schema F} {text : List Char} {t t' : Tape} {obs : ObsMap String} (h : loadObservations S text t = .ok ((obs, S'), t')) : Alike S S' := by
  obtain ⟨ws, _, _, _, h4⟩ := (C35_load S text t obs S').mp ⟨t', h⟩
  intro n
  rw [h4 n]
  cases S.find? n with
  | none => rfl
  | some s =>
    show some _ = some _
    split
    · rfl
    · exact congrArg some (Prod.ext (observe_doms s) (observe_base s))

/-- the observations do not depend on the tape -/
theorem loadObservations_obs {S S1 S2 : Schema F} {text : List Char} {t1 t2 u1 u2 : Tape} {obs1 obs2 : ObsMap String} (h1 : loadObservations S text t1 = .ok ((obs1, S1), u1))
    (h2 : loadObservations S text t2 = .ok ((obs2, S2), u2)) : obs1 = obs2 := by
  obtain ⟨o1, a1, h1⟩ := bind_ok.mp h1
  obtain ⟨s1, _, h1⟩ := bind_ok.mp h1
  cases h1
  obtain ⟨o2, a2, h2⟩ := bind_ok.mp h2
  obtain ⟨s2, _, h2⟩ := bind_ok.mp h2
  cases h2
  rw [a1] at a2
  exact Except.ok.inj a2

theorem occurs_alike {S S' : Schema F} (h : Alike S S') {obs obs' : ObsMap String} (ho : ∀ r l, obs.find? r = some l → ∃ l', obs'.find? r = some l' ∧ ∀ o ∈ l, o ∈ l')
    {d x : String} (hx : Occurs S obs d x) : Occurs S' obs' d x := by
  obtain ⟨r, spec, l, items, v, i, h1, h2, h3, h4, h5⟩ := hx
  obtain ⟨sp, g1, g2, _⟩ := h.symm.some h1
  obtain ⟨l', g3, g4⟩ := ho r l h2
  exact ⟨r, sp, l', items, v, i, g1, g3, g4 _ h3, h4, by rw [g2]; exact h5⟩

theorem hasName_code {S : Schema F} {obs : ObsMap String} {e : Encoding} {t t' : Tape} (h : calculateEncoding S obs t = .ok (e, t')) (d x : String) (c : Int)
    (hx : Encoding.code e d x = some c) : HIRM.HasName e d c := ⟨x, ((C32_bijection h d).1 x c).mp hx⟩

/-- An encoding of fewer entities uses fewer codes. -/
theorem hasName_mono {S S' : Schema F} {obs obs' : ObsMap String} {e e' : Encoding} {t1 t2 u1 u2 : Tape} (h : calculateEncoding S obs t1 = .ok (e, u1))
    (h' : calculateEncoding S' obs' t2 = .ok (e', u2)) (hocc : ∀ d x, Occurs S obs d x → Occurs S' obs' d x) (d : String) (c : Int) (hc : HIRM.HasName e d c) :
    HIRM.HasName e' d c := by
  obtain ⟨b1, ⟨n, b2⟩, b3, _⟩ := C32_bijection h d
  obtain ⟨b1', ⟨n', b2'⟩, b3', _⟩ := C32_bijection h' d
  have hname : ∀ k : Fin n, ∃ x, Encoding.entity e d (k : Int) = some x := fun k => (b2 k).mpr ⟨by omega, by omega⟩
  choose f hf using hname
  have hcode : ∀ k : Fin n, ∃ c : Fin n', Encoding.code e' d (f k) = some (c : Int) := by
    intro k
    obtain ⟨c, hc⟩ := (b3' (f k)).mpr (hocc d _ ((b3 (f k)).mp ⟨_, (b1 _ _).mpr (hf k)⟩))
    obtain ⟨g1, g2⟩ := (b2' c).mp ⟨_, (b1' _ _).mp hc⟩
    refine ⟨⟨c.toNat, by omega⟩, ?_⟩
    rw [hc]
    show some c = some ((c.toNat : Nat) : Int)
    rw [Int.toNat_of_nonneg g1]
  choose g hg using hcode
  have hinj : Function.Injective g := by
    intro k k' hk
    have h1 := hg k
    have h2 := hg k'
    rw [hk] at h1
    have h3 := (b1' _ _).mp h1
    have h4 := (b1' _ _).mp h2
    rw [h3] at h4
    have h5 : f k = f k' := Option.some.inj h4
    have h6 := (b1 _ _).mpr (hf k)
    have h7 := (b1 _ _).mpr (hf k')
    rw [h5, h7] at h6
    have := Option.some.inj h6
    exact Fin.ext (by omega)
  have hle : n ≤ n' := by
    have := Fintype.card_le_of_injective g hinj
    simpa using this
  obtain ⟨g1, g2⟩ := (b2 c).mp hc
  exact (b2' c).mpr ⟨g1, by omega⟩

theorem loadClustersHirm_nonneg {text : List Char} {rels : FMap Int (List String)} {irms : FMap Int Clusters} (h : loadClustersHirm text = .ok (rels, irms)) :
    ∀ tb, rels.contains tb = true → 0 ≤ tb := by
  have key : ∀ (ls : List (List Char)) (s s' : HLoad), (∀ tb, s.relations.contains tb = true → 0 ≤ tb) → hirmLines ls s = .ok s' →
      ∀ tb, s'.relations.contains tb = true → 0 ≤ tb := by
    intro ls
    induction ls with
    | nil => intro s s' h hc; cases hc; exact h
    | cons l ls ih =>
      intro s s' h hc
      obtain ⟨s1, h1, hc⟩ := bind_ok.mp hc
      refine ih _ _ ?_ hc
      unfold hirmLine at h1
      split at h1
      · cases h1; exact h
      split at h1
      · unfold relLine at h1
        dsimp only at h1
        split at h1
        · cases h1
        split at h1
        · cases h1
        · cases h1
          intro tb htb
          rw [FMap.contains_iff_mem, FMap.keys_set_mem] at htb
          rcases htb with rfl | htb
          · omega
          · exact h tb (FMap.contains_iff_mem.mpr htb)
      split at h1
      · unfold headLine at h1
        split at h1
        · cases h1
        split at h1
        · cases h1
        split at h1
        · cases h1
        · split at h1
          · cases h1
          · cases h1; exact h
      · unfold domLine at h1
        split at h1
        · cases h1
        split at h1
        · cases h1
        · split at h1
          · obtain ⟨cl, _, h1⟩ := bind_ok.mp h1
            cases h1; exact h
          · cases h1
  obtain ⟨s, h1, h⟩ := bind_ok.mp h
  obtain ⟨_, _, h⟩ := bind_ok.mp h
  obtain ⟨_, _, h⟩ := bind_ok.mp h
  cases h
  exact key _ _ _ (fun tb h => by cases h) h1

end UtilIO

namespace HirmMain
open UtilIO

/-- what the files give -/
structure Given (R : Reader F) (a : Args) (i : Inputs F) : Prop where
  schema : ∃ S, loadSchema R.mkC R.mkE a.schema = .ok S ∧ Alike S i.schema ∧ ∃ S' t t', loadObservations S a.obs t = .ok ((i.observations, S'), t')
  encoding : ∃ merged t t', calculateEncoding i.schema merged t = .ok (i.encoding, t') ∧
    (∀ r l, i.observations.find? r = some l → ∃ l', merged.find? r = some (l ++ l')) ∧ (a.heldout = none → merged = i.observations)

theorem readInputs_given {R : Reader F} {a : Args} {t t' : Tape} {i : Inputs F} (h : readInputs R a t = .ok (i, t')) : Given R a i := by
  obtain ⟨S, h1, h⟩ := bind_ok.mp h
  obtain ⟨⟨⟨obs, S1⟩, t1⟩, h2, h⟩ := bind_ok.mp h
  obtain ⟨⟨⟨S2, ho, merged⟩, t2⟩, h3, h⟩ := bind_ok.mp h
  obtain ⟨⟨enc, t3⟩, h4, h⟩ := bind_ok.mp h
  cases h
  have a1 := loadObservations_alike h2
  unfold readHeldout at h3
  split at h3
  · rename_i e
    cases h3
    exact ⟨⟨S, h1, a1, S1, _, _, h2⟩, obs, _, _, h4, fun r l hl => ⟨[], by rw [List.append_nil]; exact hl⟩, fun _ => rfl⟩
  · rename_i text e
    obtain ⟨⟨⟨ho', S3⟩, t4⟩, h5, h3⟩ := bind_ok.mp h3
    cases h3
    refine ⟨⟨S, h1, a1.trans (loadObservations_alike h5), S1, _, _, h2⟩, (mergeObservations obs ho t4).1, _, _, h4, fun r l hl => ?_,
      fun hn => by rw [e] at hn; cases hn⟩
    have hl : obs.find? r = some l := hl
    rw [C55_union, hl]
    cases ho.find? r with
    | none => exact ⟨[], by rw [List.append_nil]⟩
    | some b => exact ⟨b, rfl⟩

theorem Given.read {R : Reader F} {a : Args} {i : Inputs F} (h : Given R a i) : Read i.schema := by
  obtain ⟨⟨S, h1, h2, _⟩, _⟩ := h
  exact h2.read (loadSchema_read h1)

theorem startHirm_known {R : Reader F} {a : Args} {i : Inputs F} (hg : Given R a i) {t t' : Tape} {H : HIRM F} (h : startHirm R a i t = .ok (H, t')) :
    HIRM.Known (HIRM.HasName i.encoding) H ∧ HIRM.From 0 H ∧ ∀ n, H.schema.contains n = true → Word n := by
  obtain ⟨merged, te, te', henc, hsub, _⟩ := hg.encoding
  unfold startHirm at h
  split at h
  · obtain ⟨⟨H0, t0⟩, h1, h⟩ := bind_ok.mp h
    have hs := (HIRM.C31_hirm_result h1).1
    obtain ⟨a, a', c⟩ := (HIRM.known_mk' h1).observations (hasName_code henc) (fun n spec b sp q1 q2 q3 => by
      rw [hs] at q1 q3
      obtain ⟨sp', r1, r2⟩ := hg.read.bases n spec b q1 q2
      rw [q3] at r1; cases r1; exact r2) h
    refine ⟨a, fun j tb hj => ?_, fun n hn => hg.read.words n (by rw [← hs, ← a']; exact hn)⟩
    rw [c] at hj
    exact HIRM.From.mk' (le_refl _) h1 j tb hj
  · rename_i text _
    obtain ⟨S, g1, g2, S', tg, tg', g3⟩ := hg.schema
    obtain ⟨S1, h1, h⟩ := bind_ok.mp h
    rw [g1] at h1
    cases h1
    obtain ⟨⟨⟨obs, S2⟩, t1⟩, h2, h⟩ := bind_ok.mp h
    obtain ⟨⟨rels, irms⟩, h3, h⟩ := bind_ok.mp h
    have e := loadObservations_obs g3 h2
    subst e
    have al := loadObservations_alike h2
    have hr := al.read (loadSchema_read g1)
    obtain ⟨enc, t2, k1, k2⟩ := hirmFromTxt_known (fun n spec b sp q1 q2 q3 => by
      obtain ⟨sp', r1, r2⟩ := hr.bases n spec b q1 q2
      rw [q3] at r1; cases r1; exact r2) (loadClustersHirm_nonneg h3) h
    obtain ⟨k3, k4, k5⟩ := k2 (hasName_code k1)
    refine ⟨k3.mono (hasName_mono k1 henc (fun d x hx => occurs_alike (al.symm.trans g2) (fun r l hl => ?_) hx)), k4, fun n hn => ?_⟩
    rotate_left
    · obtain ⟨spec, hs⟩ := FMap.contains_iff.mp hn
      exact hr.words n (FMap.contains_iff.mpr ⟨spec, k5 n spec hs⟩)
    obtain ⟨l', hl'⟩ := hsub r l hl
    exact ⟨_, hl', fun o ho => by simp [ho]⟩

end HirmMain
end
end Verif
