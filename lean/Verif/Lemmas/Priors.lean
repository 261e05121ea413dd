import Verif.Spec.Priors
import Verif.Lemmas.DistMore
import Verif.Lemmas.EmissionTotal
import Verif.Lemmas.ClusterFile
import Verif.Lemmas.TextMore
/-! The laws of the distributions and emissions of the repository. -/
namespace Verif
noncomputable section

/-- the values that `get` turns into a supported value -/
def ViaSupp {V W : Type} (get : W → Res V) (supp : V → Prop) (x : W) : Prop := ∃ v, get x = .ok v ∧ supp v

theorem via_unique {V W : Type} {get : W → Res V} {supp : V → Prop} (m : Multiset W) : ∀ {a b : Multiset V},
    Multiset.Rel (fun x v => get x = .ok v ∧ supp v) m a → Multiset.Rel (fun x v => get x = .ok v ∧ supp v) m b → a = b := by
  induction m using Multiset.induction with
  | empty => intro a b ha hb; rw [Multiset.rel_zero_left] at ha hb; rw [ha, hb]
  | cons x m ih =>
    intro a b ha hb
    rw [Multiset.rel_cons_left] at ha hb
    obtain ⟨v, a', hv, ha', rfl⟩ := ha
    obtain ⟨w, b', hw, hb', rfl⟩ := hb
    have : v = w := by have := hv.1.symm.trans hw.1; injection this
    rw [this, ih ha' hb']

/-- A lawful distribution used through another type is lawful. -/
def Lawful.via {V W : Type} {D : DistOps V} {supp : V → Prop} (L : Lawful D supp) (get : W → Res V) :
    Lawful (D.via get) (ViaSupp get supp) where
  H := L.H
  Rep := fun h m s => ∃ m', Multiset.Rel (fun x v => get x = .ok v ∧ supp v) m m' ∧ L.Rep h m' s
  fresh := fun t => by
    obtain ⟨h, hr⟩ := L.fresh t
    exact ⟨h, 0, by simp, hr⟩
  supported := by
    rintro h m s x ⟨m', hm, _⟩ hx
    obtain ⟨v, _, hv⟩ := Multiset.exists_mem_of_rel_of_mem hm hx
    exact ⟨v, hv⟩
  inc := by
    rintro h m s x ⟨m', hm, hr⟩ ⟨v, hv, hs⟩
    obtain ⟨d, h1, h2⟩ := L.inc hr hs
    exact ⟨d, by simp [DistOps.via, hv, h1, Except.bind], v ::ₘ m', Multiset.Rel.cons ⟨hv, hs⟩ hm, h2⟩
  dec := by
    rintro h m s x ⟨m', hm, hr⟩
    rw [Multiset.rel_cons_left] at hm
    obtain ⟨v, m'', hv, hm', rfl⟩ := hm
    obtain ⟨d, h1, h2⟩ := L.dec hr
    exact ⟨d, by simp [DistOps.via, hv.1, h1, Except.bind], m'', hm', h2⟩
  count := by
    rintro h m s ⟨m', hm, hr⟩
    rw [Multiset.card_eq_card_of_rel hm]
    exact L.count hr
  logp := by
    rintro h m s x ⟨m', hm, hr⟩ ⟨v, hv, hs⟩
    obtain ⟨r, d, h1, h2⟩ := L.logp hr hs
    exact ⟨r, d, by simp [DistOps.via, hv, h1, Except.bind], m', hm, h2⟩
  trans := by
    rintro h m s ⟨m', hm, hr⟩ t
    obtain ⟨h', hr'⟩ := L.trans hr t
    exact ⟨h', m', hm, hr'⟩
  theta := by
    rintro h m s ⟨m', hm, hr⟩ t
    obtain ⟨h', hr'⟩ := L.theta hr t
    exact ⟨h', m', hm, hr'⟩

theorem Lawful.Scored.via {V W : Type} {D : DistOps V} {supp : V → Prop} {L : Lawful D supp} (S : L.Scored) (get : W → Res V) :
    (L.via get).Scored := by
  rintro h m s s' ⟨m1, hm1, h1⟩ ⟨m2, hm2, h2⟩
  obtain rfl := via_unique m hm1 hm2
  exact S _ _ _ _ h1 h2

theorem Lawful.Exact.via {V W : Type} {D : DistOps V} {supp : V → Prop} {L : Lawful D supp} (E : L.Exact) (get : W → Res V) :
    (L.via get).Exact := by
  rintro h m s s' ⟨m1, hm1, h1⟩ ⟨m2, hm2, h2⟩
  obtain rfl := via_unique m hm1 hm2
  exact E _ _ _ _ h1 h2

/-- the same laws for an equivalent description of the support -/
def Lawful.cast {V : Type} {D : DistOps V} {supp supp' : V → Prop} (L : Lawful D supp) (h : ∀ x, supp x ↔ supp' x) : Lawful D supp' where
  H := L.H
  Rep := L.Rep
  fresh := L.fresh
  supported := fun hr hx => (h _).mp (L.supported hr hx)
  inc := fun hr hx => L.inc hr ((h _).mpr hx)
  dec := L.dec
  count := L.count
  logp := fun hr hx => L.logp hr ((h _).mpr hx)
  trans := L.trans
  theta := L.theta

theorem Lawful.Scored.cast {V : Type} {D : DistOps V} {supp supp' : V → Prop} {L : Lawful D supp} (S : L.Scored) (h : ∀ x, supp x ↔ supp' x) :
    (L.cast h).Scored := S

/-- the same laws for a part of the support -/
def Lawful.restrict {V : Type} {D : DistOps V} {supp : V → Prop} (L : Lawful D supp) (P : V → Prop) : Lawful D (fun x => supp x ∧ P x) where
  H := L.H
  Rep := fun h m s => L.Rep h m s ∧ ∀ x ∈ m, P x
  fresh := fun t => by
    obtain ⟨h, hr⟩ := L.fresh t
    exact ⟨h, hr, fun x hx => absurd hx (Multiset.notMem_zero x)⟩
  supported := fun hr hx => ⟨L.supported hr.1 hx, hr.2 _ hx⟩
  inc := fun hr hx => by
    obtain ⟨s', h1, h2⟩ := L.inc hr.1 hx.1
    refine ⟨s', h1, h2, fun y hy => ?_⟩
    rcases Multiset.mem_cons.mp hy with rfl | hy
    · exact hx.2
    · exact hr.2 y hy
  dec := fun hr => by
    obtain ⟨s', h1, h2⟩ := L.dec hr.1
    exact ⟨s', h1, h2, fun y hy => hr.2 y (Multiset.mem_cons_of_mem hy)⟩
  count := fun hr => L.count hr.1
  logp := fun hr hx => by
    obtain ⟨v, s', h1, h2⟩ := L.logp hr.1 hx.1
    exact ⟨v, s', h1, h2, hr.2⟩
  trans := fun hr t => by
    obtain ⟨h', h1⟩ := L.trans hr.1 t
    exact ⟨h', h1, hr.2⟩
  theta := fun hr t => by
    obtain ⟨h', h1⟩ := L.theta hr.1 t
    exact ⟨h', h1, hr.2⟩

theorem Lawful.Scored.restrict {V : Type} {D : DistOps V} {supp : V → Prop} {L : Lawful D supp} (S : L.Scored) (P : V → Prop) :
    (L.restrict P).Scored := fun _ _ _ _ h1 h2 => S _ _ _ _ h1.1 h2.1

theorem Lawful.Exact.restrict {V : Type} {D : DistOps V} {supp : V → Prop} {L : Lawful D supp} (E : L.Exact) (P : V → Prop) :
    (L.restrict P).Exact := fun _ _ _ _ h1 h2 => E _ _ _ _ h1.1 h2.1

theorem getChars_text {lo hi : Nat} {n : Int} (v : Value) :
    ViaSupp Value.getChars (Bigram.Accepts n.toNat lo hi) v ↔ ∃ s, v = .str s ∧ TextIn n lo hi s := by
  cases v <;> simp [ViaSupp, Value.getChars, Bigram.Accepts, TextIn]
  intro _
  constructor <;> intro h h' <;> have := h (by omega) <;> omega

/-- the laws of the distributions -/
def Prior.lawful (w : World) : ∀ c : Prior, Lawful (c.ops w).toDistOps (c.Supports w)
  | .bernoulli => (BetaBernoulli.lawful.via Value.getBool).cast (by
      intro x; cases x <;> simp [ViaSupp, Value.getBool, Prior.Supports])
  | .bigram n => ((Bigram.lawful n.toNat 32 126).via Value.getChars).cast getChars_text
  | .categorical k => ((DirichletCategorical.lawful k.toNat).via Value.getInt).cast (by
      intro x; cases x <;> simp [ViaSupp, Value.getInt, Prior.Supports, DirichletCategorical.Supp]
      intro _; omega)
  | .normal => (Normal.lawful.via Value.getReal).cast (by
      intro x; cases x <;> simp [ViaSupp, Value.getReal, Prior.Supports])
  | .skellam => ((Skellam.lawful w.besselI w.initDraws w.accept).via Value.getInt).cast (by
      intro x; cases x <;> simp [ViaSupp, Value.getInt, Prior.Supports])
  | .stringcat strings => ((StringCat.lawful strings).via Value.getStr).cast (by
      intro x; cases x <;> simp [ViaSupp, Value.getStr, Prior.Supports])
  | .stringNat n => ((Bigram.lawful n.toNat 48 57).via Value.getChars).cast getChars_text
  | .stringNormal => (((Normal.lawful.adapt w.readReal).restrict (TextIn 0 32 126)).via Value.getStr).cast (by
      intro x; cases x <;> simp [ViaSupp, Value.getStr, Prior.Supports, AdaptSupp]
      exact and_comm)
  | .stringSkellam => ((((Skellam.lawful w.besselI w.initDraws w.accept).adapt streamInt).restrict (TextIn 0 32 126)).via Value.getStr).cast (by
      intro x; cases x <;> simp [ViaSupp, Value.getStr, Prior.Supports, AdaptSupp]
      rename_i s
      rw [and_comm]
      refine and_congr_right fun _ => ?_
      by_cases h : s.toList.all Text.isSpace
      · simp only [streamInt, h, if_true]; simp at h ⊢; exact h
      · simp only [streamInt, h]
        constructor
        · intro _; simpa using h
        · intro _; simp; split <;> exact ⟨_, rfl⟩)

theorem pairGet_ok {V W : Type} {get : W → Res V} {x : W × W} {y : V × V} : pairGet get x = .ok y ↔ get x.1 = .ok y.1 ∧ get x.2 = .ok y.2 := by
  unfold pairGet
  constructor
  · intro h
    obtain ⟨a, h1, h⟩ := bind_ok.mp h
    obtain ⟨b, h2, h⟩ := bind_ok.mp h
    cases h
    exact ⟨h1, h2⟩
  · rintro ⟨h1, h2⟩
    exact bind_ok.mpr ⟨_, h1, bind_ok.mpr ⟨_, h2, rfl⟩⟩

/-- the laws of the emissions -/
def EmisPrior.laws (w : World) : ∀ e : EmisPrior, Lawful (e.ops w).toDistOps e.Supports
  | .bigram => (BigramString.totals.lawful.via (pairGet Value.getChars)).cast (by
      rintro ⟨a, b⟩; cases a <;> cases b <;> simp [ViaSupp, pairGet_ok, Value.getChars, EmisPrior.Supports, EmisPrior.Takes, Printable])
  | .gaussian => ((GaussianEmission.lawful w.student).via (pairGet Value.getReal)).cast (by
      rintro ⟨a, b⟩; cases a <;> cases b <;> simp [ViaSupp, pairGet_ok, Value.getReal, EmisPrior.Supports, EmisPrior.Takes])
  | .simpleString => (SimpleString.lawful.via (pairGet Value.getChars)).cast (by
      rintro ⟨a, b⟩; cases a <;> cases b <;> simp [ViaSupp, pairGet_ok, Value.getChars, EmisPrior.Supports, EmisPrior.Takes])
  | .sometimesBitflip => ((Sometimes.lawful BitFlip.lawful).via (pairGet Value.getBool)).cast (by
      rintro ⟨a, b⟩; cases a <;> cases b <;> simp [ViaSupp, pairGet_ok, Value.getBool, EmisPrior.Supports, EmisPrior.Takes, Sometimes.Supp, Differ]
      rename_i x y; cases x <;> cases y <;> simp)
  | .sometimesCategorical k => ((Sometimes.totals (CategoricalEmission.totals k.toNat) (fun h => ⟨h.1, h.1⟩)).lawful.via (pairGet Value.getInt)).cast (by
      rintro ⟨a, b⟩; cases a <;> cases b <;>
        simp [ViaSupp, pairGet_ok, Value.getInt, EmisPrior.Supports, EmisPrior.Takes, CategoricalEmission.Supp, DirichletCategorical.Supp]
      omega)
  | .sometimesGaussian => ((Sometimes.lawful (GaussianEmission.lawful w.student)).via (pairGet Value.getReal)).cast (by
      rintro ⟨a, b⟩; cases a <;> cases b <;> simp [ViaSupp, pairGet_ok, Value.getReal, EmisPrior.Supports, EmisPrior.Takes, Sometimes.Supp])

/-- the data determine the scores of the distributions -/
theorem Prior.scored (w : World) : ∀ c : Prior, (Prior.lawful w c).Scored
  | .bernoulli => (BetaBernoulli.scored.via Value.getBool)
  | .bigram _ => ((Bigram.scored _ _ _).via Value.getChars)
  | .categorical _ => ((DirichletCategorical.scored _).via Value.getInt)
  | .normal => (Normal.scored.via Value.getReal)
  | .skellam => ((Skellam.scored w.besselI w.initDraws w.accept).via Value.getInt)
  | .stringcat _ => ((StringCat.scored _).via Value.getStr)
  | .stringNat _ => ((Bigram.scored _ _ _).via Value.getChars)
  | .stringNormal => (((Normal.scored.adapt w.readReal).restrict _).via Value.getStr)
  | .stringSkellam => ((((Skellam.scored w.besselI w.initDraws w.accept).adapt streamInt).restrict _).via Value.getStr)

/-- the data determine the scores of the emissions that undo -/
theorem EmisPrior.scored (w : World) : ∀ e : EmisPrior, e.Undoes → (EmisPrior.laws w e).Scored
  | .bigram, h => h.elim
  | .sometimesCategorical _, h => h.elim
  | .gaussian, _ => ((GaussianEmission.scored w.student).via (pairGet Value.getReal))
  | .simpleString, _ => (SimpleString.scored.via (pairGet Value.getChars))
  | .sometimesBitflip, _ => ((Sometimes.scored BitFlip.scored).via (pairGet Value.getBool))
  | .sometimesGaussian, _ => ((Sometimes.scored (GaussianEmission.scored w.student)).via (pairGet Value.getReal))

/-- the laws of the family -/
def priorLaws (w : World) : FamilyLaws (priors w) where
  suppC := Prior.Supports w
  suppE := EmisPrior.Supports
  dist := fun c => Prior.lawful w c
  emis := fun e => EmisPrior.laws w e

/-- a value in the support has the type of the distribution -/
theorem Prior.Supports.type {w : World} {c : Prior} {v : Value} (h : c.Supports w v) : v.type = c.obsType := by
  cases c <;> first | (obtain ⟨_, rfl⟩ := h; rfl) | (obtain ⟨_, rfl, _⟩ := h; rfl)

theorem Undoing.scores {w : World} {schema : Schema (priors w)} (h : Undoing schema) : (priorLaws w).Scores schema := by
  intro n spec hn
  cases spec with
  | clean c ds o => exact Prior.scored w c
  | noisy e ds b o => exact EmisPrior.scored w e (h n e ds b o hn)

/-- the values of an emission have its type -/
theorem EmisPrior.Takes.type {e : EmisPrior} {v : Value} (h : e.Takes v) : v.type = e.obsType := by
  cases e <;> first | (obtain ⟨_, rfl⟩ := h; rfl) | (obtain ⟨_, rfl, _⟩ := h; rfl)

/-- an undoing emission takes every value of its type -/
theorem EmisPrior.Takes.of_type {e : EmisPrior} (hu : e.Undoes) {v : Value} (h : v.type = e.obsType) : e.Takes v := by
  cases e <;> cases v <;> first | exact hu.elim | exact ⟨_, rfl⟩ | cases h

theorem RelSpec.Takes.type {w : World} {spec : RelSpec (priors w)} {v : Verif.Value} (h : spec.Takes v) : v.type = spec.obsType := by
  cases spec with
  | clean c ds o => exact Prior.Supports.type h
  | noisy e ds base o => exact EmisPrior.Takes.type h

theorem DirichletCategorical.sample_lt {a : ℝ} {k : Nat} {m : Multiset Int} (hk : 0 < k) (t : Tape) :
    ((DirichletCategorical.rep a k m).sample t).1 < k := by
  have hl : (DirichletCategorical.rep a k m).counts.length = k := by simp [DirichletCategorical.rep, DirichletCategorical.of]
  unfold DirichletCategorical.sample
  rw [hl]
  exact draw_lt hk t

theorem StringCat.sample_mem {a : ℝ} {strings : List String} {m : Multiset String} (hne : strings ≠ []) (t : Tape) :
    ∃ s t', (StringCat.rep a strings m).sample t = .ok (s, t') ∧ s ∈ strings := by
  have hlt : ((StringCat.rep a strings m).dc.sample t).1 < strings.length :=
    DirichletCategorical.sample_lt (List.length_pos_iff.mpr hne) t
  refine ⟨strings[((StringCat.rep a strings m).dc.sample t).1], ((StringCat.rep a strings m).dc.sample t).2, ?_, List.getElem_mem _⟩
  have : idxR (StringCat.rep a strings m).strings ((StringCat.rep a strings m).dc.sample t).1 =
      .ok strings[((StringCat.rep a strings m).dc.sample t).1] := by
    have h : (StringCat.rep a strings m).strings = strings := rfl
    simp only [idxR, h, List.getElem?_eq_getElem hlt]
  simp only [StringCat.sample, bind, Except.bind, this]

theorem Bigram.sampleLoop_ends {b : Bigram} {a : ℝ} : ∀ (t : Tape) (f : Nat → Nat → ℝ) (g : Nat → ℝ) (cur : Nat) (acc : List Char),
    cur < b.numChars + 1 → ∃ r, b.sampleLoop (Bigram.rows a (b.numChars + 1) f g) cur acc (t ++ [b.numChars]) = some r := by
  intro t
  induction t with
  | nil =>
    intro f g cur acc hc
    simp only [List.nil_append, Bigram.sampleLoop]
    split
    · exact ⟨_, rfl⟩
    · exact ⟨_, rfl⟩
    · rw [Bigram.sampleNext_rows hc]
      simp [Bigram.sampleHead]
  | cons x t ih =>
    intro f g cur acc hc
    simp only [List.cons_append, Bigram.sampleLoop]
    split
    · exact ⟨_, rfl⟩
    · exact ⟨_, rfl⟩
    · rw [Bigram.sampleNext_rows hc]
      exact ih _ _ _ _ (Nat.mod_lt _ (by omega))

theorem Bigram.sample_ends {b : Bigram} {a : ℝ} {f : Nat → Nat → ℝ} {g : Nat → ℝ} (hb : b.dists = Bigram.rows a (b.numChars + 1) f g)
    (t : Tape) : ∃ r, b.sample (t ++ [b.numChars]) = some r := by
  cases t with
  | nil =>
    simp only [List.nil_append, Bigram.sample, hb]
    rw [Bigram.sampleNext_rows (by omega)]
    simp [Bigram.sampleLoop, Bigram.sampleHead]
  | cons x t =>
    simp only [List.cons_append, Bigram.sample, hb]
    rw [Bigram.sampleNext_rows (by omega)]
    obtain ⟨r, hr⟩ := Bigram.sampleLoop_ends (b := b) (a := a) t (Bigram.addPairs f 1 [(b.numChars, x % (b.numChars + 1))])
      (Bigram.addRow g 1 [(b.numChars, x % (b.numChars + 1))]) (x % (b.numChars + 1)) [] (Nat.mod_lt _ (by omega))
    simp only [hr, Option.map_some]
    exact ⟨_, rfl⟩

/-- without a maximal length a sample leaves the distribution alone -/
theorem Bigram.sample_total {a : ℝ} {n lo hi : Nat} {m : Multiset (List Char)} (hlo : lo ≤ hi) (hhi : hi < 128) (hn : n = 0) (t : Tape) :
    ∃ x, (Bigram.rep a n lo hi m).sample (t ++ [(Bigram.rep a n lo hi m).numChars]) = some (.ok (x, Bigram.rep a n lo hi m)) ∧
      Bigram.Accepts n lo hi x := by
  obtain ⟨r, hr⟩ := Bigram.sample_ends (b := Bigram.rep a n lo hi m) rfl t
  obtain ⟨str, b', rfl, h2, h3⟩ := Bigram.sample_spec (b := Bigram.rep a n lo hi m) hlo hhi rfl hr
  refine ⟨str, ?_, h2⟩
  rcases h3 with ⟨rfl, _⟩ | ⟨c, hc, hl, _⟩
  · exact hr
  · exfalso
    have hl' : str.length = n := hl
    rw [hn] at hl'
    have : str = [] := List.length_eq_zero_iff.1 hl'
    subst this; simp at hc

/-- the distributions sample values that they support, and sampling leaves them alone -/
theorem Prior.samples {w : World} (hw : w.Readable) : ∀ (c : Prior), c.Samples → ∀ {m s}, (c.ops w).Holds (c.Supports w) m s → ∀ t,
    ∃ x t', (c.ops w).sample s t = .ok (x, s, t') ∧ c.Supports w x
  | .bernoulli, _, _, _, _, _ => ⟨_, _, rfl, _, rfl⟩
  | .bigram n, hn, m, s, hs, t => by
    obtain ⟨a, m', hm, hr⟩ := (Prior.lawful w (.bigram n)).holds hs
    obtain ⟨rfl, _⟩ : s = Bigram.rep a.1 n.toNat 32 126 m' ∧ _ := hr
    have hn0 : n.toNat = 0 := by have : n ≤ 0 := hn; omega
    obtain ⟨x, h1, h2⟩ := Bigram.sample_total (a := a.1) (n := n.toNat) (lo := 32) (hi := 126) (m := m') (by omega) (by omega) hn0 t
    refine ⟨.str (String.ofList x), t.drop ((Bigram.rep a.1 n.toNat 32 126 m').drawsFor x), ?_, String.ofList x, rfl, ?_⟩
    · show ((Bigram.clean n.toNat 32 126 id).sample _ t).bind _ = _
      simp only [Bigram.clean]
      rw [h1]; rfl
    · rw [TextIn, String.toList_ofList]; exact ⟨fun h => absurd h (by have : n ≤ 0 := hn; omega), h2.2⟩
  | .stringNat n, hn, m, s, hs, t => by
    obtain ⟨a, m', hm, hr⟩ := (Prior.lawful w (.stringNat n)).holds hs
    obtain ⟨rfl, _⟩ : s = Bigram.rep a.1 n.toNat 48 57 m' ∧ _ := hr
    have hn0 : n.toNat = 0 := by have : n ≤ 0 := hn; omega
    obtain ⟨x, h1, h2⟩ := Bigram.sample_total (a := a.1) (n := n.toNat) (lo := 48) (hi := 57) (m := m') (by omega) (by omega) hn0 t
    refine ⟨.str (String.ofList x), t.drop ((Bigram.rep a.1 n.toNat 48 57 m').drawsFor x), ?_, String.ofList x, rfl, ?_⟩
    · show ((Bigram.clean n.toNat 48 57 StringNat.nearest).sample _ t).bind _ = _
      simp only [Bigram.clean]
      rw [h1]; rfl
    · rw [TextIn, String.toList_ofList]; exact ⟨fun h => absurd h (by have : n ≤ 0 := hn; omega), h2.2⟩
  | .normal, _, _, _, _, _ => ⟨_, _, rfl, _, rfl⟩
  | .skellam, _, _, _, _, _ => ⟨_, _, rfl, _, rfl⟩
  | .categorical k, hk, m, s, hs, t => by
    obtain ⟨a, m', hm, hr⟩ := (Prior.lawful w (.categorical k)).holds hs
    obtain ⟨rfl, _⟩ : s = DirichletCategorical.rep a.1 k.toNat m' ∧ _ := hr
    have hk : 0 < k := hk
    have hlt := DirichletCategorical.sample_lt (a := a.1) (k := k.toNat) (m := m') (by omega) t
    exact ⟨.int ((DirichletCategorical.rep a.1 k.toNat m').sample t).1, _, rfl, _, rfl, by omega, by omega⟩
  | .stringcat strings, hk, m, s, hs, t => by
    obtain ⟨a, m', hm, hr⟩ := (Prior.lawful w (.stringcat strings)).holds hs
    obtain ⟨rfl, _⟩ : s = StringCat.rep a.1 strings m' ∧ _ := hr
    obtain ⟨x, t', h1, h2⟩ := StringCat.sample_mem (a := a.1) (m := m') hk t
    refine ⟨.str x, t', ?_, x, rfl, h2⟩
    simp only [Prior.ops, CleanOps.via, StringCat.clean, h1, Except.bind]; rfl
  | .stringNormal, _, m, s, hs, t => by
    obtain ⟨hp, y, hy⟩ := hw (Normal.sample s.2 (w.gamma ((s.2.v + s.2.N) / 2) t).1 (w.normal (w.gamma ((s.2.v + s.2.N) / 2) t).2).1
      (w.normal (w.normal (w.gamma ((s.2.v + s.2.N) / 2) t).2).2).1)
    exact ⟨_, _, rfl, _, rfl, hp, y, hy⟩
  | .stringSkellam, _, m, s, hs, t => by
    refine ⟨_, _, rfl, _, rfl, ⟨fun h => absurd h (by decide), ?_⟩, ?_⟩ <;> rw [String.toList_ofList]
    · intro c hc
      rcases Text.intText_mem hc with rfl | h
      · decide
      · simp only [Text.isDigit, Bool.and_eq_true, decide_eq_true_eq] at h
        omega
    obtain ⟨c, hc⟩ := List.exists_mem_of_ne_nil _ (Text.intText_ne_nil (Skellam.sample w s.2 t).1)
    refine ⟨c, hc, ?_⟩
    rcases Text.intText_mem hc with rfl | h
    · rfl
    · exact Text.isDigit_not_space h

/-- corrupting a value gives a value that the emission accepts for it -/
theorem EmisPrior.samples {w : World} : ∀ (e : EmisPrior) {m s}, (e.ops w).Holds e.Supports m s → ∀ b t, e.Takes b →
    ∃ x t', (e.ops w).corrupt s b t = .ok (x, t') ∧ e.Supports (b, x)
  | .bigram, m, s, hs, b, t, hb => by
    obtain ⟨_, m', _, hr, _⟩ := (EmisPrior.laws w .bigram).holds hs
    obtain ⟨x, rfl, hx⟩ := hb
    obtain ⟨y, t', h1, _, h2⟩ := BigramString.totals.corrupt hr (x := x.toList) ⟨[], hx, by simp [Printable]⟩ t
    refine ⟨.str (String.ofList y), t', ?_, ⟨x, rfl, hx⟩, String.ofList y, rfl, by rw [String.toList_ofList]; exact h2⟩
    show (BigramStringEmission.corrupt s x.toList t).bind _ = _
    rw [h1]; rfl
  | .sometimesCategorical k, m, s, hs, b, t, hb => by
    obtain ⟨_, m', _, hr, _⟩ := (EmisPrior.laws w (.sometimesCategorical k)).holds hs
    obtain ⟨x, rfl, hx⟩ := hb
    have hx' : DirichletCategorical.Supp k.toNat x := ⟨hx.1, by omega⟩
    obtain ⟨y, t', h1, _, h2⟩ := (Sometimes.totals (CategoricalEmission.totals k.toNat) (fun h => ⟨h.1, h.1⟩)).corrupt hr (x := x) ⟨x, hx', hx'⟩ t
    have h2 : DirichletCategorical.Supp k.toNat y := h2
    refine ⟨.int y, t', ?_, ⟨x, rfl, hx⟩, y, rfl, h2.1, by have := h2.2; omega⟩
    show ((Sometimes (CategoricalEmission k.toNat) true).corrupt s x t).bind _ = _
    rw [h1]; rfl
  | .gaussian, _, s, _, b, t, hb => by
    obtain ⟨x, rfl⟩ := hb
    exact ⟨_, _, rfl, ⟨_, rfl⟩, _, rfl⟩
  | .simpleString, _, s, _, b, t, hb => by
    obtain ⟨x, rfl⟩ := hb
    exact ⟨_, _, rfl, ⟨_, rfl⟩, _, rfl⟩
  | .sometimesBitflip, _, s, _, b, t, hb => by
    obtain ⟨b, rfl⟩ := hb
    have : ∃ x t', Sometimes.corrupt BitFlip s b t = .ok (x, t') := by
      unfold Sometimes.corrupt; dsimp only; split
      · exact ⟨_, _, rfl⟩
      · exact ⟨_, _, rfl⟩
    obtain ⟨x, t', h⟩ := this
    refine ⟨.bool x, t', ?_, ⟨_, rfl⟩, _, rfl⟩
    show (Sometimes.corrupt BitFlip s b t).bind _ = _
    rw [h]; rfl
  | .sometimesGaussian, _, s, _, b, t, hb => by
    obtain ⟨b, rfl⟩ := hb
    have : ∃ x t', Sometimes.corrupt (GaussianEmission w.student) s b t = .ok (x, t') := by
      unfold Sometimes.corrupt; dsimp only; split
      · exact ⟨_, _, rfl⟩
      · exact ⟨_, _, rfl⟩
    obtain ⟨x, t', h⟩ := this
    refine ⟨.real x, t', ?_, ⟨_, rfl⟩, _, rfl⟩
    show (Sometimes.corrupt (GaussianEmission w.student) s b t).bind _ = _
    rw [h]; rfl

theorem samples_priors {w : World} : Samples (priorLaws w) where
  noisy := fun e _ s b t hs hy => by
    obtain ⟨y, hy⟩ := hy
    exact EmisPrior.samples (w := w) e hs b t hy.1

theorem RelSpec.value_takes {w : World} {spec : RelSpec (priors w)} {v : Verif.Value} (h : spec.Value (priorLaws w) v) : spec.Takes v := by
  cases spec with
  | clean c ds o => exact h
  | noisy e ds base o => obtain ⟨_, h⟩ := h; exact h.2

/-- an emission that takes the values of its base relation accepts the values of the base relation -/
theorem Sound.usable {w : World} (hw : w.Readable) {schema : Schema (priors w)} (h : Sound schema) : Usable (priorLaws w) schema where
  accepts := by
    intro n e doms b o sp hn hb v hv
    have := h.takes _ _ _ _ _ _ hn hb v (RelSpec.value_takes hv)
    exact ⟨v, this, this⟩
  bases := by
    intro n c doms o m spec hn hm hb m' s t hs
    exact Prior.samples hw c (h.bases _ _ _ _ _ _ hn hm hb) hs t

theorem Sampleable.compatible {w : World} (hw : w.Readable) {schema : Schema (priors w)} (h : Sampleable schema) :
    Compatible (priorLaws w) schema where
  toUsable := h.toSound.usable hw
  all := fun n c doms o hn _ _ t hs => Prior.samples hw c (h.all _ _ _ _ hn) hs t

theorem Lawful.Exact.cast {V : Type} {D : DistOps V} {supp supp' : V → Prop} {L : Lawful D supp} (E : L.Exact) (h : ∀ x, supp x ↔ supp' x) :
    (L.cast h).Exact := E

/-- `logp` of a distribution changes nothing -/
theorem Prior.logpPure (w : World) : ∀ c : Prior, (c.ops w).toDistOps.LogpPure (c.Supports w)
  | .bernoulli => (Lawful.Exact.roundTrip (L := Prior.lawful w .bernoulli) (BetaBernoulli.exact.via Value.getBool)).logpPure
  | .bigram n => (Lawful.Exact.roundTrip (L := Prior.lawful w (.bigram n)) ((Bigram.exact _ _ _).via Value.getChars)).logpPure
  | .categorical k => (Lawful.Exact.roundTrip (L := Prior.lawful w (.categorical k)) ((DirichletCategorical.exact _).via Value.getInt)).logpPure
  | .normal => (Lawful.Exact.roundTrip (L := Prior.lawful w .normal) (Normal.exact.via Value.getReal)).logpPure
  | .stringcat l => (Lawful.Exact.roundTrip (L := Prior.lawful w (.stringcat l)) ((StringCat.exact _).via Value.getStr)).logpPure
  | .stringNat n => (Lawful.Exact.roundTrip (L := Prior.lawful w (.stringNat n)) ((Bigram.exact _ _ _).via Value.getChars)).logpPure
  | .stringNormal => (Lawful.Exact.roundTrip (L := Prior.lawful w .stringNormal) (((Normal.exact.adapt w.readReal).restrict _).via Value.getStr)).logpPure
  | .skellam => by
    intro m s x hs hx
    obtain ⟨h, hr⟩ := (Prior.lawful w .skellam).holds hs
    obtain ⟨v, s', h1, _⟩ := (Prior.lawful w .skellam).logp hr hx
    refine ⟨v, ?_⟩
    have h2 := h1
    obtain ⟨y, _, h2⟩ := bind_ok.mp h2
    cases h2
    exact h1
  | .stringSkellam => by
    intro m s x hs hx
    obtain ⟨h, hr⟩ := (Prior.lawful w .stringSkellam).holds hs
    obtain ⟨v, s', h1, _⟩ := (Prior.lawful w .stringSkellam).logp hr hx
    refine ⟨v, ?_⟩
    have h2 := h1
    obtain ⟨y, _, h2⟩ := bind_ok.mp h2
    obtain ⟨z, _, h2⟩ := bind_ok.mp h2
    cases h2
    exact h1
end
end Verif
