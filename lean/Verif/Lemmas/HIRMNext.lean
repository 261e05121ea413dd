import Verif.Lemmas.HIRMIndexed
/-!
What the operations of an HIRM do to its relations: `Next P` says that only the relations of `P` may get other values, and that indices stay complete.
-/
namespace Verif
noncomputable section
variable {V : Type} {F : Family V}

namespace IRM

/-- An IRM that an operation leaves, where only the values of the relations of `P` may have changed. -/
structure Next (P : String → Prop) (I I' : IRM F) : Prop where
  schema : I'.schema = I.schema
  none : ∀ n, I.rels.find? n = none → I'.rels.find? n = none
  some : ∀ n x, I.rels.find? n = some x → ∃ y, I'.rels.find? n = some y ∧ Rel.Next x.2 y.2 ∧ (¬ P n → y.2.data = x.2.data)

theorem Next.refl {P : String → Prop} (I : IRM F) : Next P I I := ⟨rfl, fun _ h => h, fun _ x h => ⟨x, h, .refl _, fun _ => rfl⟩⟩

theorem Next.trans {P : String → Prop} {I I₁ I₂ : IRM F} (h : Next P I I₁) (h' : Next P I₁ I₂) : Next P I I₂ := by
  refine ⟨h'.schema.trans h.schema, fun n hn => h'.none n (h.none n hn), fun n x hx => ?_⟩
  obtain ⟨y, hy, a, b⟩ := h.some n x hx
  obtain ⟨z, hz, a', b'⟩ := h'.some n y hy
  exact ⟨z, hz, a.trans a', fun hn => (b' hn).trans (b hn)⟩

theorem Next.mono {P Q : String → Prop} {I I' : IRM F} (h : Next P I I') (hPQ : ∀ n, P n → Q n) : Next Q I I' :=
  ⟨h.schema, h.none, fun n x hx => by
    obtain ⟨y, hy, a, b⟩ := h.some n x hx
    exact ⟨y, hy, a, fun hn => b (fun hp => hn (hPQ n hp))⟩⟩

/-- another object for a relation, compared with an earlier state -/
theorem Next.put {P : String → Prop} {I₀ I I' : IRM F} (h : Next P I₀ I) (hs : I'.schema = I.schema) {name : String} {x y : Nat × Rel F}
    (hr : I'.rels = I.rels.set name y) (hx : I₀.rels.find? name = Option.some x) (hn : Rel.Next x.2 y.2) (hd : ¬ P name → y.2.data = x.2.data) :
    Next P I₀ I' := by
  refine ⟨hs.trans h.schema, fun n hn' => ?_, fun n x' hx' => ?_⟩
  · rw [hr, FMap.find?_set]
    split
    · rename_i e; subst e; rw [hx] at hn'; cases hn'
    · exact h.none n hn'
  · rw [hr]
    by_cases e : n = name
    · subst e
      rw [hx] at hx'; cases hx'
      exact ⟨y, FMap.find?_set_self _ _ _, hn, hd⟩
    · obtain ⟨z, hz, a, b⟩ := h.some n x' hx'
      exact ⟨z, by rw [FMap.find?_set_ne _ e]; exact hz, a, b⟩

theorem Next.setRel {P : String → Prop} {I I' : IRM F} (hs : I'.schema = I.schema) {name : String} {x y : Nat × Rel F}
    (hr : I'.rels = I.rels.set name y) (hx : I.rels.find? name = Option.some x) (hn : Rel.Next x.2 y.2) (hd : ¬ P name → y.2.data = x.2.data) :
    Next P I I' := (Next.refl I).put hs hr hx hn hd

theorem Next.setRel' {P : String → Prop} {I : IRM F} {name : String} {x : Nat × Rel F} (y : Nat × Rel F) (hx : I.rels.find? name = Option.some x)
    (hn : Rel.Next x.2 y.2) (hd : ¬ P name → y.2.data = x.2.data) : Next P I { I with rels := I.rels.set name y } := .setRel rfl rfl hx hn hd

theorem Next.setDoms {P : String → Prop} (I : IRM F) (σ : Doms) : Next P I { I with doms := σ } := ⟨rfl, fun _ h => h, fun _ x h => ⟨x, h, .refl _, fun _ => rfl⟩⟩

/-- Every relation is indexed, and over the domains that the schema says. -/
def Tidy (I : IRM F) : Prop :=
  ∀ n x, I.rels.find? n = Option.some x → x.2.Indexed ∧ ∃ spec, I.schema.find? n = Option.some spec ∧ x.2.doms = spec.doms

theorem Next.tidy {P : String → Prop} {I I' : IRM F} (h : Next P I I') (ht : I.Tidy) : I'.Tidy := by
  intro n y hy
  cases hx : I.rels.find? n with
  | none => rw [h.none n hx] at hy; cases hy
  | some x =>
    obtain ⟨y', hy', a, _⟩ := h.some n x hx
    rw [hy] at hy'; cases hy'
    obtain ⟨i, spec, hsp, hd⟩ := ht n x hx
    exact ⟨a.idx i, spec, by rw [h.schema]; exact hsp, a.doms.trans hd⟩

theorem incorporate_next {env : Env V} {I I' : IRM F} {r : String} {items : Items} {v : V} {t t' : Tape}
    (hc : incorporate env I r items v t = .ok (I', t')) :
    Next (· = r) I I' ∧ ∃ x y, I.rels.find? r = Option.some x ∧ I'.rels.find? r = Option.some y ∧ y.2.data = x.2.data.set items v := by
  obtain ⟨⟨id, rel⟩, h1, hc⟩ := bind_ok.mp hc
  obtain ⟨⟨σ, rel', t₁⟩, h2, hc⟩ := bind_ok.mp hc
  cases hc
  obtain ⟨a, b⟩ := Rel.incorporate_next h2
  have hx := FMap.atKey_ok.mp h1
  exact ⟨.setRel rfl rfl hx a (fun h => absurd rfl h), _, _, hx, FMap.find?_set_self _ _ _, b⟩

theorem fill_next {env : Env V} {r : String} : ∀ (l : List (Items × V)) (I : IRM F) (t : Tape) (x : IRM F × Tape),
    HIRM.fill env r l I t = .ok x → Next (· = r) I x.1 := by
  intro l
  induction l with
  | nil => intro I t x hc; cases hc; exact .refl _
  | cons e l ih =>
    intro I t x hc
    obtain ⟨⟨I1, t1⟩, h1, h2⟩ := bind_ok.mp hc
    exact (incorporate_next h1).1.trans (ih _ _ _ h2)

theorem scoreItem_next {P : String → Prop} {d : String} {item : Int} {tables : List Int} : ∀ (l : List String) (I : IRM F) (lps : List ℝ) (t : Tape)
    (x : List ℝ × IRM F × Tape), scoreItem d item tables l I lps t = .ok x → Next P I x.2.1 := by
  intro l
  induction l with
  | nil => intro I lps t x hc; cases hc; exact .refl _
  | cons r l ih =>
    intro I lps t x hc
    obtain ⟨⟨id, rel⟩, h1, h2⟩ := bind_ok.mp hc
    obtain ⟨b, _, h3⟩ := bind_ok.mp h2
    split at h3
    · obtain ⟨⟨lp, rel', t₁⟩, h7, h4⟩ := bind_ok.mp h3
      obtain ⟨_, _, h5⟩ := bind_ok.mp h4
      obtain ⟨_, _, h6⟩ := bind_ok.mp h5
      obtain ⟨a, b⟩ := Rel.logpGibbsExact_next h7
      exact Next.trans (.setRel' (id, rel') (FMap.atKey_ok.mp h1) a (fun _ => b)) (ih _ _ _ _ h6)
    · exact ih _ _ _ _ h3

theorem moveRels_next {P : String → Prop} {d : String} {item table : Int} : ∀ (l : List String) (I : IRM F) (t : Tape)
    (x : IRM F × Tape), moveRels d item table l I t = .ok x → Next P I x.1 := by
  intro l
  induction l with
  | nil => intro I t x hc; cases hc; exact .refl _
  | cons r l ih =>
    intro I t x hc
    obtain ⟨⟨id, rel⟩, h1, h2⟩ := bind_ok.mp hc
    obtain ⟨b, _, h3⟩ := bind_ok.mp h2
    split at h3
    · obtain ⟨⟨rel', t₁⟩, h5, h4⟩ := bind_ok.mp h3
      obtain ⟨a, b⟩ := Rel.setClusterAssignmentGibbs_next h5
      exact Next.trans (.setRel' (id, rel') (FMap.atKey_ok.mp h1) a (fun _ => b)) (ih _ _ _ h4)
    · exact ih _ _ _ h3

theorem transitionItem_next {P : String → Prop} {I I' : IRM F} {d : String} {item : Int} {t t' : Tape}
    (hc : transitionItem I d item t = .ok (I', t')) : Next P I I' := by
  obtain ⟨⟨tables, lps, order, I1, t1⟩, h1, h2⟩ := bind_ok.mp hc
  have k1 : Next P I I1 := by
    obtain ⟨_, _, h3⟩ := bind_ok.mp h1
    obtain ⟨_, _, h4⟩ := bind_ok.mp h3
    obtain ⟨_, _, h5⟩ := bind_ok.mp h4
    obtain ⟨_, h6, h7⟩ := bind_ok.mp h5
    cases h7
    exact scoreItem_next _ _ _ _ _ h6
  obtain ⟨_, _, h3⟩ := bind_ok.mp h2
  obtain ⟨z, _, h4⟩ := bind_ok.mp h3
  obtain ⟨dom, _, h5⟩ := bind_ok.mp h4
  obtain ⟨cur, _, h6⟩ := bind_ok.mp h5
  split at h6
  · obtain ⟨⟨I2, t2⟩, h7, h8⟩ := bind_ok.mp h6
    obtain ⟨_, _, h9⟩ := bind_ok.mp h8
    cases h9
    exact k1.trans ((moveRels_next _ _ _ _ h7).trans (.setDoms _ _))
  · cases h6; exact k1

theorem transitionItems_next {P : String → Prop} {d : String} : ∀ (l : List Int) (I : IRM F) (t : Tape) (x : IRM F × Tape),
    transitionItems d l I t = .ok x → Next P I x.1 := by
  intro l
  induction l with
  | nil => intro I t x hc; cases hc; exact .refl _
  | cons r l ih =>
    intro I t x hc
    obtain ⟨⟨I1, t1⟩, h1, h2⟩ := bind_ok.mp hc
    exact (transitionItem_next h1).trans (ih _ _ _ h2)

theorem transitionDomains_next {P : String → Prop} : ∀ (l : List String) (I : IRM F) (t : Tape) (x : IRM F × Tape),
    transitionDomains l I t = .ok x → Next P I x.1 := by
  intro l
  induction l with
  | nil => intro I t x hc; cases hc; exact .refl _
  | cons r l ih =>
    intro I t x hc
    obtain ⟨dom, _, h1⟩ := bind_ok.mp hc
    obtain ⟨⟨I1, t1⟩, h2, h3⟩ := bind_ok.mp h1
    exact (transitionItems_next _ _ _ _ h2).trans (ih _ _ _ h3)

theorem hparamsSweep_next {P : String → Prop} {n : Nat} : ∀ (l : List String) (I : IRM F) (t : Tape) (x : IRM F × Tape),
    hparamsSweep n l I t = .ok x → Next P I x.1 := by
  intro l
  induction l with
  | nil => intro I t x hc; cases hc; exact .refl _
  | cons r l ih =>
    intro I t x hc
    obtain ⟨⟨id, rel⟩, h1, h2⟩ := bind_ok.mp hc
    obtain ⟨a, b⟩ := Rel.transitionClusterHparams_next rel n t
    exact Next.trans (.setRel' (id, (rel.transitionClusterHparams n t).1) (FMap.atKey_ok.mp h1) a (fun _ => b)) (ih _ _ _ h2)

theorem alphaSweep_next {P : String → Prop} : ∀ (l : List String) (I : IRM F) (t : Tape) (x : IRM F × Tape),
    alphaSweep l I t = .ok x → Next P I x.1 := by
  intro l
  induction l with
  | nil => intro I t x hc; cases hc; exact .refl _
  | cons r l ih =>
    intro I t x hc
    obtain ⟨dom, h1, h2⟩ := bind_ok.mp hc
    exact Next.trans (.setDoms _ _) (ih _ _ _ h2)

theorem singleStep_next {P : String → Prop} {I I' : IRM F} {n : Nat} {t t' : Tape} (hc : singleStep I n false t = .ok (I', t')) : Next P I I' := by
  obtain ⟨⟨I0, t0⟩, h0, h1⟩ := bind_ok.mp hc
  cases h0
  obtain ⟨⟨I1, t1⟩, h2, h3⟩ := bind_ok.mp h1
  obtain ⟨⟨I2, t2⟩, h4, h5⟩ := bind_ok.mp h3
  exact (transitionDomains_next _ _ _ _ h2).trans ((hparamsSweep_next _ _ _ _ h4).trans (alphaSweep_next _ _ _ _ h5))

/-! ### adding and removing a relation -/

theorem Tidy.empty : Tidy ({} : IRM F) := fun n x h => by cases h

theorem Tidy.add {I I' : IRM F} (h : I.Tidy) {name : String} {x : Nat × Rel F} {spec : RelSpec F} (hs : I'.schema = I.schema.set name spec)
    (hr : I'.rels = I.rels.set name x) (hi : x.2.Indexed) (hd : x.2.doms = spec.doms) : I'.Tidy := by
  intro n y hy
  rw [hr, FMap.find?_set] at hy
  split at hy
  · rename_i e; subst e; cases hy
    exact ⟨hi, spec, by rw [hs, FMap.find?_set_self], hd⟩
  · rename_i e
    obtain ⟨a, sp, b, c⟩ := h n y hy
    exact ⟨a, sp, by rw [hs, FMap.find?_set_ne _ e]; exact b, c⟩

theorem addClean_tidy {I I' : IRM F} {id : Nat} {name : String} {c : F.C} {ds : List String} {o : Bool}
    (hc : addClean id I name c ds o = .ok I') (h : I.Tidy) : I'.Tidy := by
  obtain ⟨_, _, hc⟩ := bind_ok.mp hc
  obtain ⟨_, _, hc⟩ := bind_ok.mp hc
  obtain ⟨I1, h1, hc⟩ := bind_ok.mp hc
  obtain ⟨r, h2, hc⟩ := bind_ok.mp hc
  cases hc
  obtain ⟨a, b⟩ := addDomains_keys _ _ _ h1
  obtain ⟨i, d⟩ := CleanRel.Indexed.fresh h2
  exact h.add (x := (id, .clean c r)) (spec := .clean c ds o) (by show I1.schema.set _ _ = _; rw [a]) (by show I1.rels.set _ _ = _; rw [b]) i d

theorem addWithBase_tidy {I I' : IRM F} {id : Nat} {name : String} {e : F.E} {ds : List String} {b : String} {o : Bool} {p : Ptr}
    (hc : addWithBase id I name e ds b o p = .ok I') (h : I.Tidy) : I'.Tidy := by
  obtain ⟨_, _, hc⟩ := bind_ok.mp hc
  obtain ⟨_, _, hc⟩ := bind_ok.mp hc
  obtain ⟨I1, h1, hc⟩ := bind_ok.mp hc
  obtain ⟨r, h2, hc⟩ := bind_ok.mp hc
  cases hc
  obtain ⟨a, b'⟩ := addDomains_keys _ _ _ h1
  obtain ⟨i, d⟩ := NoisyRel.Indexed.fresh h2
  exact h.add (x := (id, .noisy e p r)) (spec := .noisy e ds b o) (by show I1.schema.set _ _ = _; rw [a]) (by show I1.rels.set _ _ = _; rw [b']) i d

theorem removeRelation_tidy {I I' : IRM F} {name : String} (hc : removeRelation I name = .ok I') (h : I.Tidy) : I'.Tidy := by
  obtain ⟨_, a, b⟩ := removeRelation_keys hc
  intro n x hx
  rw [b, FMap.find?_erase] at hx
  split at hx
  · cases hx
  · rename_i e
    obtain ⟨i, sp, c, d⟩ := h n x hx
    exact ⟨i, sp, by rw [a, FMap.find?_erase_ne _ e]; exact c, d⟩

end IRM

/-! ### latent values -/

namespace LatentNoisy

/-- Only the clusters and the links of the noisy relation changed. -/
structure Step (x x' : LatentNoisy F) : Prop where
  name : x'.name = x.name
  next : ∀ p, Rel.Next (.noisy x.e p x.r) (.noisy x'.e p x'.r)
  data : x'.r.data = x.r.data

theorem Step.refl (x : LatentNoisy F) : Step x x := ⟨rfl, fun _ => .refl _, rfl⟩

theorem Step.trans {x x₁ x₂ : LatentNoisy F} (h : Step x x₁) (h' : Step x₁ x₂) : Step x x₂ :=
  ⟨h'.name.trans h.name, fun p => (h.next p).trans (h'.next p), h'.data.trans h.data⟩

theorem Step.same {x : LatentNoisy F} {r : NoisyRel (F.emis x.e).toDistOps} (h : x.r.Same r) : Step x { x with r := r } :=
  ⟨rfl, fun _ => (Rel.next_noisy h).1, h.data⟩

/-- Each element of the second list comes from one of the first. -/
def Steps (l l' : List (LatentNoisy F)) : Prop := ∀ x' ∈ l', ∃ x ∈ l, Step x x'

theorem Steps.refl (l : List (LatentNoisy F)) : Steps l l := fun x h => ⟨x, h, .refl x⟩

theorem Steps.trans {l l₁ l₂ : List (LatentNoisy F)} (h : Steps l l₁) (h' : Steps l₁ l₂) : Steps l l₂ := by
  intro x hx
  obtain ⟨y, hy, a⟩ := h' x hx
  obtain ⟨z, hz, b⟩ := h y hy
  exact ⟨z, hz, b.trans a⟩

theorem Steps.cons {x x' : LatentNoisy F} {l l' : List (LatentNoisy F)} (h : Step x x') (hl : Steps l l') : Steps (x :: l) (x' :: l') := by
  intro y hy
  rcases List.mem_cons.mp hy with rfl | hy
  · exact ⟨x, by simp, h⟩
  · obtain ⟨z, hz, a⟩ := hl y hy
    exact ⟨z, by simp [hz], a⟩

end LatentNoisy

namespace Latent
open LatentNoisy

theorem takeOutLoop_same {E : EmisOps V} {σ : Doms} {l : List Items} : ∀ {r r' : NoisyRel E.toDistOps} {o : List (Items × V)},
    takeOutLoop σ l r = .ok (o, r') → r.Same r' := by
  induction l with
  | nil => intro r r' o h; cases h; exact .refl _
  | cons x l ih =>
    intro r r' o h
    obtain ⟨_, _, h⟩ := bind_ok.mp h
    obtain ⟨r₁, h1, h⟩ := bind_ok.mp h
    obtain ⟨⟨_, _⟩, h2, h⟩ := bind_ok.mp h
    cases h
    exact (NoisyRel.unincorporateFromCluster_same h1).1.trans (ih h2)

theorem storeAll_steps {bi : Items} {ps : List (LatentNoisy F)} : ∀ {qs : List (LatentObs F)} {t t' : Tape},
    storeAll bi ps t = .ok (qs, t') → Steps ps (qs.map (·.toLatentNoisy)) := by
  induction ps with
  | nil => intro qs t t' h; cases h; exact .refl _
  | cons p ps ih =>
    intro qs t t' h
    obtain ⟨⟨q, t₁⟩, h1, h⟩ := bind_ok.mp h
    obtain ⟨⟨qs', t₂⟩, h2, h⟩ := bind_ok.mp h
    cases h
    refine Steps.cons ?_ (ih h2)
    obtain ⟨⟨_, _⟩, h3, h1⟩ := bind_ok.mp h1
    cases h1
    have := takeOutLoop_same h3
    exact .same (NoisyRel.Same.trans (r₁ := { p.r with baseToNoisy := p.r.baseToNoisy.set bi ((p.r.baseToNoisy.find? bi).getD ∅) }) ⟨.refl _, rfl, rfl⟩ this)

theorem putBackLoop_same {E : EmisOps V} {σ : Doms} {b : BaseView V} {l : List (Items × V)} : ∀ {r r' : NoisyRel E.toDistOps},
    putBackLoop σ b l r = .ok r' → r.Same r' := by
  induction l with
  | nil => intro r r' h; cases h; exact .refl _
  | cons x l ih =>
    intro r r' h
    obtain ⟨r₁, h1, h⟩ := bind_ok.mp h
    exact (NoisyRel.incorporateToCluster_same h1).trans (ih h)

theorem takeAgainLoop_same {E : EmisOps V} {σ : Doms} {l : List (Items × V)} : ∀ {r r' : NoisyRel E.toDistOps},
    takeAgainLoop σ l r = .ok r' → r.Same r' := by
  induction l with
  | nil => intro r r' h; cases h; exact .refl _
  | cons x l ih =>
    intro r r' h
    obtain ⟨r₁, h1, h⟩ := bind_ok.mp h
    exact (NoisyRel.unincorporateFromCluster_same h1).1.trans (ih h)

theorem putBackAll_steps {b : BaseView V} {ps : List (LatentObs F)} : ∀ {qs : List (LatentObs F)}, putBackAll b ps = .ok qs →
    Steps (ps.map (·.toLatentNoisy)) (qs.map (·.toLatentNoisy)) := by
  induction ps with
  | nil => intro qs h; cases h; exact .refl _
  | cons p ps ih =>
    intro qs h
    obtain ⟨r, h1, h⟩ := bind_ok.mp h
    obtain ⟨qs', h2, h⟩ := bind_ok.mp h
    cases h
    exact Steps.cons (.same (putBackLoop_same h1)) (ih h2)

theorem takeAgainAll_steps {ps : List (LatentObs F)} : ∀ {qs : List (LatentObs F)}, takeAgainAll ps = .ok qs →
    Steps (ps.map (·.toLatentNoisy)) (qs.map (·.toLatentNoisy)) := by
  induction ps with
  | nil => intro qs h; cases h; exact .refl _
  | cons p ps ih =>
    intro qs h
    obtain ⟨r, h1, h⟩ := bind_ok.mp h
    obtain ⟨qs', h2, h⟩ := bind_ok.mp h
    cases h
    exact Steps.cons (.same (takeAgainLoop_same h1)) (ih h2)

theorem scoreLoop_steps {bi : Items} {bl : ℝ} {vs : List V} : ∀ {base base' : LatentBase F} {ps qs : List (LatentObs F)} {ss : List ℝ},
    scoreLoop bi bl vs base ps = .ok (ss, base', qs) →
    Rel.Next base.rel base'.rel ∧ Steps (ps.map (·.toLatentNoisy)) (qs.map (·.toLatentNoisy)) := by
  induction vs with
  | nil => intro base base' ps qs ss h; cases h; exact ⟨.refl _, .refl _⟩
  | cons v vs ih =>
    intro base base' ps qs ss h
    obtain ⟨rel, h1, h⟩ := bind_ok.mp h
    obtain ⟨ps₁, h2, h⟩ := bind_ok.mp h
    obtain ⟨ps₂, h3, h⟩ := bind_ok.mp h
    obtain ⟨rel', h4, h⟩ := bind_ok.mp h
    obtain ⟨⟨ss', b', q'⟩, h5, h⟩ := bind_ok.mp h
    cases h
    obtain ⟨a, b⟩ := ih h5
    exact ⟨((Rel.incorporateToCluster_next h1).trans (Rel.unincorporateFromCluster_next h4)).trans a,
      ((putBackAll_steps h2).trans (takeAgainAll_steps h3)).trans b⟩

theorem transition_steps {bi : Items} {base : LatentBase F} {noisy : List (LatentNoisy F)} {t t' : Tape} {o : Outcome F}
    (h : transition bi base noisy t = .ok (o, t')) : Rel.Next base.rel o.base.rel ∧ Steps noisy o.noisy := by
  obtain ⟨rel, h1, h⟩ := bind_ok.mp h
  obtain ⟨⟨ps, t₁⟩, h2, h⟩ := bind_ok.mp h
  obtain ⟨⟨cands, t₂⟩, h3, h⟩ := bind_ok.mp h
  obtain ⟨⟨ss, base₁, ps₁⟩, h4, h⟩ := bind_ok.mp h
  obtain ⟨⟨v, base₂, ps₂, t₃⟩, h5, h⟩ := bind_ok.mp h
  cases h
  obtain ⟨a, b⟩ := scoreLoop_steps h4
  obtain ⟨_, _, h5⟩ := bind_ok.mp h5
  obtain ⟨r₁, k1, h5⟩ := bind_ok.mp h5
  obtain ⟨r₂, k2, h5⟩ := bind_ok.mp h5
  obtain ⟨ps₃, k3, h5⟩ := bind_ok.mp h5
  cases h5
  exact ⟨(Rel.unincorporateFromCluster_next h1).trans (a.trans ((Rel.incorporateToCluster_next k1).trans (Rel.updateValue_next k2))),
    (storeAll_steps h2).trans (b.trans (putBackAll_steps k3))⟩

theorem latentLoop_steps : ∀ (l : List Items) (base : LatentBase F) (noisy : List (LatentNoisy F)) (t : Tape)
    (x : LatentBase F × List (LatentNoisy F) × Tape), IRM.latentLoop l base noisy t = .ok x → Rel.Next base.rel x.1.rel ∧ Steps noisy x.2.1 := by
  intro l
  induction l with
  | nil => intro base noisy t x h; cases h; exact ⟨.refl _, .refl _⟩
  | cons k l ih =>
    intro base noisy t x h
    obtain ⟨⟨o, t₁⟩, h1, h⟩ := bind_ok.mp h
    obtain ⟨a, b⟩ := transition_steps h1
    obtain ⟨a', b'⟩ := ih _ _ _ _ h
    exact ⟨a.trans a', b.trans b'⟩

end Latent

namespace HIRM

/-- An HIRM that an operation leaves, where only the values of the relations of `P` may have changed, and no relation moved. -/
structure Next (P : String → Prop) (H H' : HIRM F) : Prop where
  schema : H'.schema = H.schema
  relToCode : H'.relToCode = H.relToCode
  codeToRel : H'.codeToRel = H.codeToRel
  baseToNoisy : H'.baseToNoisy = H.baseToNoisy
  crp : H'.crp = H.crp
  none : ∀ tb, H.irms.find? tb = none → H'.irms.find? tb = none
  some : ∀ tb I, H.irms.find? tb = some I → ∃ I', H'.irms.find? tb = some I' ∧ IRM.Next P I I'

theorem Next.refl {P : String → Prop} (H : HIRM F) : Next P H H := ⟨rfl, rfl, rfl, rfl, rfl, fun _ h => h, fun _ I h => ⟨I, h, .refl I⟩⟩

theorem Next.trans {P : String → Prop} {H H₁ H₂ : HIRM F} (h : Next P H H₁) (h' : Next P H₁ H₂) : Next P H H₂ := by
  refine ⟨h'.schema.trans h.schema, h'.relToCode.trans h.relToCode, h'.codeToRel.trans h.codeToRel, h'.baseToNoisy.trans h.baseToNoisy,
    h'.crp.trans h.crp, fun tb hn => h'.none tb (h.none tb hn), fun tb I hI => ?_⟩
  obtain ⟨I₁, h1, a⟩ := h.some tb I hI
  obtain ⟨I₂, h2, b⟩ := h'.some tb I₁ h1
  exact ⟨I₂, h2, a.trans b⟩

theorem Next.mono {P Q : String → Prop} {H H' : HIRM F} (h : Next P H H') (hPQ : ∀ n, P n → Q n) : Next Q H H' :=
  ⟨h.schema, h.relToCode, h.codeToRel, h.baseToNoisy, h.crp, h.none, fun tb I hI => by
    obtain ⟨I', h1, a⟩ := h.some tb I hI
    exact ⟨I', h1, a.mono hPQ⟩⟩

theorem Next.tableOf {P : String → Prop} {H H' : HIRM F} (h : Next P H H') (n : String) : H'.tableOf n = H.tableOf n := by
  unfold HIRM.tableOf; rw [h.relToCode, h.crp]

theorem Next.dataOf {P : String → Prop} {H H' : HIRM F} (h : Next P H H') {n : String} (hn : ¬ P n) : H'.dataOf n = H.dataOf n := by
  cases ht : H.tableOf n with
  | none =>
    unfold HIRM.dataOf relOf
    rw [h.tableOf, ht]
    rfl
  | some tb =>
    cases hI : H.irms.find? tb with
    | none =>
      unfold HIRM.dataOf relOf
      rw [h.tableOf, ht]
      simp only [Option.bind_eq_bind, Option.bind_some, hI, h.none tb hI]
    | some I =>
      obtain ⟨I', hI', k⟩ := h.some tb I hI
      rw [dataOf_irm hI ht, dataOf_irm hI' ((h.tableOf n).trans ht)]
      unfold IRM.dataOf
      cases hx : I.rels.find? n with
      | none => rw [k.none n hx]
      | some x =>
        obtain ⟨y, hy, _, b⟩ := k.some n x hx
        rw [hy]
        simp only [Option.map_some, b hn]

/-- the IRM of one table changed, compared with an earlier state -/
theorem Next.put {P : String → Prop} {H₀ H : HIRM F} (h : Next P H₀ H) {tb : Int} {I I' : IRM F} (hI : H₀.irms.find? tb = Option.some I)
    (hk : IRM.Next P I I') : Next P H₀ { H with irms := H.irms.set tb I' } := by
  refine ⟨h.schema, h.relToCode, h.codeToRel, h.baseToNoisy, h.crp, fun tb' hn => ?_, fun tb' J hJ => ?_⟩
  · show (H.irms.set tb I').find? tb' = _
    rw [FMap.find?_set]
    split
    · rename_i e; subst e; rw [hI] at hn; cases hn
    · exact h.none tb' hn
  · by_cases e : tb' = tb
    · subst e
      rw [hI] at hJ; cases hJ
      exact ⟨I', FMap.find?_set_self _ _ _, hk⟩
    · obtain ⟨J', hJ', a⟩ := h.some tb' J hJ
      exact ⟨J', (FMap.find?_set_ne _ e _).trans hJ', a⟩

theorem Next.setIrm {P : String → Prop} {H : HIRM F} {tb : Int} {I I' : IRM F} (hI : H.irms.find? tb = Option.some I) (hk : IRM.Next P I I') :
    Next P H { H with irms := H.irms.set tb I' } := (Next.refl H).put hI hk

theorem Next.setRel {P : String → Prop} {H : HIRM F} {tb : Int} {I : IRM F} (hI : H.irms.find? tb = Option.some I) {n : String} {x : Nat × Rel F}
    (y : Nat × Rel F) (hx : I.rels.find? n = Option.some x) (hn : Rel.Next x.2 y.2) (hd : ¬ P n → y.2.data = x.2.data) :
    Next P H { H with irms := H.irms.set tb { I with rels := I.rels.set n y } } := .setIrm hI (.setRel' y hx hn hd)

theorem Next.keys {P : String → Prop} {H H' : HIRM F} (h : Next P H H') : SameKeys H H' := by
  refine ⟨h.schema, h.relToCode, h.codeToRel, h.baseToNoisy, h.crp, fun tb => ?_⟩
  cases hI : H.irms.find? tb with
  | none => exact .inl ⟨rfl, h.none tb hI⟩
  | some I =>
    obtain ⟨I', hI', k⟩ := h.some tb I hI
    refine .inr ⟨I, I', rfl, hI', ⟨k.schema, fun n => ?_⟩⟩
    rw [Bool.eq_iff_iff, FMap.contains_iff, FMap.contains_iff]
    cases hx : I.rels.find? n with
    | none => rw [k.none n hx]
    | some x =>
      obtain ⟨y, hy, _⟩ := k.some n x hx
      rw [hy]
      simp

/-- Schema, codes, CRP and IRMs agree, every relation is indexed and over the domains that the schema says. -/
structure Tidy (H : HIRM F) : Prop where
  skel : Skel H
  irms : ∀ tb I, H.irms.find? tb = some I → I.Tidy

theorem Next.tidy {P : String → Prop} {H H' : HIRM F} (h : Next P H H') (ht : H.Tidy) : H'.Tidy := by
  refine ⟨h.keys.skel ht.skel, fun tb I' hI' => ?_⟩
  cases hI : H.irms.find? tb with
  | none => rw [h.none tb hI] at hI'; cases hI'
  | some I =>
    obtain ⟨I₁, h1, k⟩ := h.some tb I hI
    rw [hI'] at h1; cases h1
    exact k.tidy (ht.irms tb I hI)

/-- the relation object of a name -/
theorem Tidy.rel {H : HIRM F} (h : H.Tidy) {n : String} {spec : RelSpec F} (hs : H.schema.find? n = some spec) {p : Ptr} {r : Rel F}
    (hr : H.getRelation n = .ok (p, r)) : r.Indexed ∧ r.doms = spec.doms ∧ H.dataOf n = some r.data := by
  obtain ⟨tb, id, h1, _⟩ := getRelation_ok.mp hr
  obtain ⟨hT, I, hI, hx⟩ := relOf_some.mp h1
  obtain ⟨a, sp, b, c⟩ := h.irms tb I hI n _ hx
  have := h.skel.specs tb I hI n (FMap.contains_iff.mpr ⟨_, hx⟩)
  rw [b, hs] at this
  cases this
  refine ⟨a, c, ?_⟩
  unfold dataOf; rw [h1]; rfl

theorem incorporate_next {H H' : HIRM F} {r : String} {items : Items} {v : V} {t t' : Tape}
    (hc : H.incorporate r items v t = .ok (H', t')) : Next (· = r) H H' ∧ ∃ d, H.dataOf r = some d ∧ H'.dataOf r = some (d.set items v) := by
  obtain ⟨⟨tb, I⟩, h1, h2⟩ := bind_ok.mp hc
  obtain ⟨⟨I', t1⟩, h3, h4⟩ := bind_ok.mp h2
  cases h4
  obtain ⟨hT, hI⟩ := relationToIrm_ok.mp h1
  obtain ⟨k, x, y, hx, hy, hd⟩ := IRM.incorporate_next h3
  have hn : Next (· = r) H { H with irms := H.irms.set tb I' } := .setIrm hI k
  refine ⟨hn, x.2.data, ?_, ?_⟩
  · rw [dataOf_irm hI hT]; unfold IRM.dataOf; rw [hx]; rfl
  · rw [dataOf_irm (FMap.find?_set_self _ _ _) ((hn.tableOf r).trans hT)]; unfold IRM.dataOf; rw [hy, ← hd]; rfl

theorem takeOut_next {H H' : HIRM F} {r : String} {items : Items} {lp : WithBot ℝ} {v : V} (hc : H.takeOut r items = .ok (lp, v, H')) :
    Next (· = r) H H' ∧ ∃ d, H.dataOf r = some d ∧ d.find? items = some v ∧ H'.dataOf r = some (d.erase items) := by
  obtain ⟨⟨tb, I⟩, h1, h2⟩ := bind_ok.mp hc
  obtain ⟨⟨id, rel⟩, h3, h2⟩ := bind_ok.mp h2
  obtain ⟨⟨lp', v', rel'⟩, h4, h2⟩ := bind_ok.mp h2
  cases h2
  obtain ⟨hT, hI⟩ := relationToIrm_ok.mp h1
  obtain ⟨a, b, c⟩ := Rel.takeOut_next h4
  have hx := FMap.atKey_ok.mp h3
  have hk : IRM.Next (· = r) I { I with rels := I.rels.set r (id, rel') } := .setRel rfl rfl hx a (fun h => absurd rfl h)
  have hn : Next (· = r) H { H with irms := H.irms.set tb { I with rels := I.rels.set r (id, rel') } } := .setIrm hI hk
  refine ⟨hn, rel.data, ?_, c, ?_⟩
  · rw [dataOf_irm hI hT]; unfold IRM.dataOf; rw [hx]; rfl
  · rw [dataOf_irm (FMap.find?_set_self _ _ _) ((hn.tableOf r).trans hT)]; unfold IRM.dataOf
    show Option.map _ ((I.rels.set r (id, rel')).find? r) = _
    rw [FMap.find?_set_self, ← b]; rfl

theorem sampleOne_next {H H' : HIRM F} {r : String} {items : Items} {v : V} {t t' : Tape}
    (hc : H.sampleOne r items t = .ok (v, H', t')) : Next (· = r) H H' := by
  obtain ⟨⟨tb, I⟩, h1, h2⟩ := bind_ok.mp hc
  obtain ⟨⟨id, rel⟩, h3, h4⟩ := bind_ok.mp h2
  obtain ⟨⟨_, σ, rel', _⟩, h6, h5⟩ := bind_ok.mp h4
  cases h5
  exact .setIrm (relationToIrm_ok.mp h1).2 (.setRel rfl rfl (FMap.atKey_ok.mp h3) (Rel.sampleAndIncorporate_next h6).1 (fun h => absurd rfl h))

/-- sampling a value of a relation changes the relation and the relations below it -/
theorem sampleRelation_next {P : String → Prop} : ∀ (k : Nat) (H : HIRM F) (r : String) (items : Items) (t : Tape) (x : V × HIRM F × Tape),
    P r → (∀ n e ds b o, P n → H.schema.find? n = some (.noisy e ds b o) → P b) →
    sampleRelation k H r items t = .ok x → Next P H x.2.1 := by
  intro k
  induction k with
  | zero => intro H r items t x _ _ hc; cases hc
  | succ k ih =>
    intro H r items t x hP hb hc
    have one : ∀ {H : HIRM F} {t : Tape} {x : V × HIRM F × Tape}, H.sampleOne r items t = .ok x → Next P H x.2.1 := by
      intro H t x h
      exact (sampleOne_next h).mono (fun n e => e ▸ hP)
    obtain ⟨spec, hsp, h1⟩ := bind_ok.mp hc
    dsimp only at h1
    cases spec with
    | clean c ds o =>
      obtain ⟨y, h2, h3⟩ := bind_ok.mp h1
      cases h2
      exact one h3
    | noisy e ds base o =>
      obtain ⟨⟨p, rel⟩, _, h2⟩ := bind_ok.mp h1
      obtain ⟨b, _, h3⟩ := bind_ok.mp h2
      obtain ⟨bi, _, h4⟩ := bind_ok.mp h3
      split at h4
      · obtain ⟨y, h5, h6⟩ := bind_ok.mp h4
        cases h5
        exact one h6
      · obtain ⟨⟨v, H1, t1⟩, h5, h6⟩ := bind_ok.mp h4
        obtain ⟨y, h7, h8⟩ := bind_ok.mp h6
        cases h7
        exact (ih _ _ _ _ _ (hb _ _ _ _ _ hP (FMap.atKey_ok.mp hsp)) hb h5).trans (one h8)

theorem cleanupLoop_next {P : String → Prop} : ∀ (l : List String) (H H' : HIRM F), cleanupLoop l H = .ok H' → Next P H H' := by
  intro l
  induction l with
  | nil => intro H H' hc; cases hc; exact .refl H
  | cons n l ih =>
    intro H H' hc
    obtain ⟨⟨tb, I⟩, h1, h2⟩ := bind_ok.mp hc
    obtain ⟨⟨id, rel⟩, h3, h4⟩ := bind_ok.mp h2
    obtain ⟨a, b⟩ := Rel.cleanupClusters_next rel
    exact (Next.setRel (relationToIrm_ok.mp h1).2 (id, rel.cleanupClusters) (FMap.atKey_ok.mp h3) a (fun _ => b)).trans (ih _ _ h4)

theorem updateLoop_next {P : String → Prop} {r : String} : ∀ (l : List String) (H H' : HIRM F), updateLoop r l H = .ok H' → Next P H H' := by
  intro l
  induction l with
  | nil => intro H H' hc; cases hc; exact .refl H
  | cons n l ih =>
    intro H H' hc
    obtain ⟨⟨tb, I⟩, h1, h2⟩ := bind_ok.mp hc
    obtain ⟨⟨id, rel⟩, h3, h4⟩ := bind_ok.mp h2
    cases rel with
    | clean c q => cases h4
    | noisy e p q =>
      obtain ⟨⟨p', _⟩, _, h5⟩ := bind_ok.mp h4
      exact (Next.setRel (relationToIrm_ok.mp h1).2 (id, .noisy e p' q) (FMap.atKey_ok.mp h3) ⟨rfl, fun h => h⟩ (fun _ => rfl)).trans (ih _ _ h5)

theorem updateBase_next {P : String → Prop} {H H' : HIRM F} {r : String} (hc : H.updateBase r = .ok H') : Next P H H' := by
  unfold updateBase at hc
  split at hc
  · cases hc; exact .refl H
  · exact updateLoop_next _ _ _ hc

theorem stepIrms_next {P : String → Prop} : ∀ (l : List Int) (H : HIRM F) (t : Tape) (x : HIRM F × Tape), stepIrms l H t = .ok x → Next P H x.1 := by
  intro l
  induction l with
  | nil => intro H t x hc; cases hc; exact .refl H
  | cons tb l ih =>
    intro H t x hc
    obtain ⟨I, h1, h2⟩ := bind_ok.mp hc
    obtain ⟨⟨I', t1⟩, h3, h4⟩ := bind_ok.mp h2
    exact (Next.setIrm (FMap.atKey_ok.mp h1) (IRM.singleStep_next h3)).trans (ih _ _ _ h4)

/-- A noisy relation in the hands of a latent transition comes from the HIRM. -/
def Held (H : HIRM F) (p : Ptr) (x : LatentNoisy F) : Prop :=
  ∃ tb I y, H.tableOf x.name = some tb ∧ H.irms.find? tb = some I ∧ I.rels.find? x.name = some y ∧ Rel.Next y.2 (.noisy x.e p x.r) ∧
    x.r.data = y.2.data

theorem Held.step {H : HIRM F} {p : Ptr} {x x' : LatentNoisy F} (h : Held H p x) (hs : x.Step x') : Held H p x' := by
  obtain ⟨tb, I, y, h1, h2, h3, h4, h5⟩ := h
  exact ⟨tb, I, y, by rw [hs.name]; exact h1, h2, by rw [hs.name]; exact h3, h4.trans (hs.next p), hs.data.trans h5⟩

theorem noisyOf_held {H : HIRM F} {p : Ptr} : ∀ {l : List String} {xs : List (LatentNoisy F)}, H.noisyOf p l = .ok xs → ∀ x ∈ xs, Held H p x := by
  intro l
  induction l with
  | nil => intro xs hc; cases hc; simp
  | cons n l ih =>
    intro xs hc
    obtain ⟨⟨tb, I⟩, h1, h2⟩ := bind_ok.mp hc
    obtain ⟨⟨id, rel⟩, h3, h4⟩ := bind_ok.mp h2
    cases rel with
    | clean c q => cases h4
    | noisy e q r =>
      dsimp only at h4
      split at h4
      · obtain ⟨xs', h5, h6⟩ := bind_ok.mp h4
        cases h6
        intro x hx
        rcases List.mem_cons.mp hx with rfl | hx
        · obtain ⟨hT, hI⟩ := relationToIrm_ok.mp h1
          exact ⟨tb, I, _, hT, hI, FMap.atKey_ok.mp h3, ⟨rfl, fun h => h⟩, rfl⟩
        · exact ih h5 x hx
      · cases h4

theorem storeNoisy_next {P : String → Prop} {p : Ptr} {H₀ : HIRM F} : ∀ (l : List (LatentNoisy F)) (H H' : HIRM F), Next P H₀ H → (∀ x ∈ l, Held H₀ p x) →
    storeNoisy p l H = .ok H' → Next P H₀ H' := by
  intro l
  induction l with
  | nil => intro H H' h _ hc; cases hc; exact h
  | cons x l ih =>
    intro H H' h hl hc
    obtain ⟨⟨tb, I⟩, h1, h2⟩ := bind_ok.mp hc
    obtain ⟨⟨id, rel⟩, h3, h4⟩ := bind_ok.mp h2
    obtain ⟨tb₀, I₀, y, k1, k2, k3, k4, k5⟩ := hl x (by simp)
    obtain ⟨hT, hI⟩ := relationToIrm_ok.mp h1
    rw [h.tableOf, k1] at hT
    cases hT
    obtain ⟨I', hI', k⟩ := h.some tb I₀ k2
    dsimp only at hI
    rw [hI] at hI'
    cases hI'
    have hk : IRM.Next P I₀ { I with rels := I.rels.set x.name (id, .noisy x.e p x.r) } := k.put (y := (id, .noisy x.e p x.r)) rfl rfl k3 k4 (fun _ => k5)
    exact ih _ _ (h.put k2 hk) (fun z hz => hl z (by simp [hz])) h4

theorem transitionLatentRelation_next {H H' : HIRM F} {r : String} {t t' : Tape}
    (hc : H.transitionLatentRelation r t = .ok (H', t')) : Next (· = r) H H' := by
  obtain ⟨⟨tb, I⟩, h1, h2⟩ := bind_ok.mp hc
  obtain ⟨⟨id, rel⟩, h3, h4⟩ := bind_ok.mp h2
  obtain ⟨_, _, h5⟩ := bind_ok.mp h4
  obtain ⟨ns, hns, h6⟩ := bind_ok.mp h5
  obtain ⟨⟨base, noisy, t₁⟩, hl, h7⟩ := bind_ok.mp h6
  obtain ⟨_, h8, h9⟩ := bind_ok.mp h7
  cases h9
  obtain ⟨a, b⟩ := Latent.latentLoop_steps _ _ _ _ _ hl
  refine storeNoisy_next _ _ _ (Next.setRel (relationToIrm_ok.mp h1).2 (id, base.rel) (FMap.atKey_ok.mp h3) a (fun h => absurd rfl h)) ?_ h8
  intro x hx
  obtain ⟨y, hy, hs⟩ := b x hx
  exact (noisyOf_held hns y ((shuffle_perm _ _).mem_iff.mp hy)).step hs

/-- The relation is not observed. -/
def Latent (H : HIRM F) (n : String) : Prop := ∃ spec, H.schema.find? n = some spec ∧ spec.observed = false

theorem latentSweep_next {P : String → Prop} : ∀ (l : List String) (H : HIRM F) (t : Tape) (x : HIRM F × Tape), (∀ n, H.Latent n → P n) →
    latentSweep l H t = .ok x → Next P H x.1 := by
  intro l
  induction l with
  | nil => intro H t x _ hc; cases hc; exact .refl H
  | cons r l ih =>
    intro H t x hP hc
    obtain ⟨spec, hsp, hc⟩ := bind_ok.mp hc
    split at hc
    · rename_i ho
      obtain ⟨⟨H₁, t₁⟩, h1, hc⟩ := bind_ok.mp hc
      have k := (transitionLatentRelation_next h1).mono (Q := P) (fun n e => by
        subst e; exact hP _ ⟨spec, FMap.atKey_ok.mp hsp, by simpa using ho⟩)
      refine k.trans (ih _ _ _ (fun n hn => ?_) hc)
      obtain ⟨sp, h, o⟩ := hn
      rw [k.schema] at h
      exact hP n ⟨sp, h, o⟩
    · exact ih _ _ _ hP hc

/-! ### moving a relation -/

theorem addRelationToIrm_tidy {H : HIRM F} {I I' : IRM F} {r : String} {spec : RelSpec F} (hc : H.addRelationToIrm I r spec = .ok I') (h : I.Tidy) :
    I'.Tidy := by
  cases spec with
  | clean c ds o => exact IRM.addClean_tidy hc h
  | noisy e ds b o =>
    obtain ⟨⟨p, _⟩, _, hc⟩ := bind_ok.mp hc
    exact IRM.addWithBase_tidy hc h

theorem putRelation_tidy {H : HIRM F} {I I' : IRM F} {r : String} {spec : RelSpec F} {data : FMap Items V} {t t' : Tape}
    (hc : H.putRelation I r spec data t = .ok (I', t')) (h : I.Tidy) : I'.Tidy := by
  obtain ⟨I1, h1, h2⟩ := bind_ok.mp hc
  exact (IRM.fill_next _ _ _ _ h2).tidy (addRelationToIrm_tidy h1 h)

theorem scoreTables_tidy {r : String} {cur : Int} {spec : RelSpec F} {data : FMap Items V} :
    ∀ (l : List (Int × ℝ)) (H : HIRM F) (aux : Option (Int × IRM F)) (t : Tape) (lps : List (Int × ℝ)) (H' : HIRM F)
      (aux' : Option (Int × IRM F)) (t' : Tape), (∀ tb I, H.irms.find? tb = some I → I.Tidy) → (∀ tb I, aux = some (tb, I) → I.Tidy) →
      scoreTables r cur spec data l H aux t = .ok (lps, H', aux', t') →
      (∀ tb I, H'.irms.find? tb = some I → I.Tidy) ∧ (∀ tb I, aux' = some (tb, I) → I.Tidy) := by
  intro l
  induction l with
  | nil => intro H aux t lps H' aux' t' h ha hc; cases hc; exact ⟨h, ha⟩
  | cons e l ih =>
    obtain ⟨tb, w⟩ := e
    intro H aux t lps H' aux' t' h ha hc
    -- the rest of the loop, once the IRM of the table is known
    have rest : ∀ (I : IRM F) (H₁ : HIRM F) (t₁ : Tape), I.Tidy → H₁.irms = H.irms →
        ∀ (H₂ : HIRM F) (aux₂ : Option (Int × IRM F)) (x : List (Int × ℝ) × HIRM F × Option (Int × IRM F) × Tape),
        (H₂, aux₂) = (if H.irms.contains tb then ({ H₁ with irms := H₁.irms.set tb I }, aux) else (H₁, some (tb, I))) →
        scoreTables r cur spec data l H₂ aux₂ t₁ = .ok x → (∀ tb I, x.2.1.irms.find? tb = some I → I.Tidy) ∧ (∀ tb I, x.2.2.1 = some (tb, I) → I.Tidy) := by
      intro I H₁ t₁ hI hH H₂ aux₂ x he hx
      obtain ⟨_, _, _, _⟩ := x
      refine ih _ _ _ _ _ _ _ ?_ ?_ hx
      · split at he
        · cases he
          intro u J hJ
          change (H₁.irms.set tb I).find? u = some J at hJ
          rw [FMap.find?_set] at hJ
          split at hJ
          · cases hJ; exact hI
          · rw [hH] at hJ; exact h u J hJ
        · cases he
          rw [hH]; exact h
      · split at he
        · cases he; exact ha
        · cases he
          intro u J hJ
          cases hJ
          exact hI
    unfold scoreTables at hc
    dsimp only at hc
    have key : ∀ (I : IRM F), I.Tidy → (do
        let (I, H', t) ← if tb ≠ cur then do
            let (I, t) ← H.putRelation I r spec data t
            .ok (I, { H with next := H.next + 1 }, t)
          else Except.ok (I, H, t)
        let (_, rel) ← I.rels.atKey r
        let lp := Real.log w + rel.logpScore
        let (H', aux) := if H.irms.contains tb then ({ H' with irms := H'.irms.set tb I }, aux) else (H', some (tb, I))
        let (lps, H', aux, t) ← scoreTables r cur spec data l H' aux t
        .ok ((tb, lp) :: lps, H', aux, t)) = .ok (lps, H', aux', t') →
        (∀ tb I, H'.irms.find? tb = some I → I.Tidy) ∧ (∀ tb I, aux' = some (tb, I) → I.Tidy) := by
      intro I hI hc
      dsimp only at hc
      by_cases hcur : tb = cur
      · rw [if_neg (by simpa using hcur)] at hc
        obtain ⟨x, h5, hc⟩ := bind_ok.mp hc
        cases h5
        obtain ⟨_, _, hc⟩ := bind_ok.mp hc
        by_cases hcon : H.irms.contains tb = true
        · simp only [hcon, if_true] at hc
          obtain ⟨x, h6, hc⟩ := bind_ok.mp hc
          cases hc
          exact rest I H t hI rfl _ _ x (by rw [if_pos hcon]) h6
        · simp only [hcon, if_false, Bool.false_eq_true] at hc
          obtain ⟨x, h6, hc⟩ := bind_ok.mp hc
          cases hc
          exact rest I H t hI rfl _ _ x (by rw [if_neg hcon]) h6
      · rw [if_pos (by simpa using hcur)] at hc
        obtain ⟨⟨I1, t1⟩, h3, hc⟩ := bind_ok.mp hc
        obtain ⟨x, h5, hc⟩ := bind_ok.mp hc
        cases h5
        obtain ⟨_, _, hc⟩ := bind_ok.mp hc
        by_cases hcon : H.irms.contains tb = true
        · simp only [hcon, if_true] at hc
          obtain ⟨x, h6, hc⟩ := bind_ok.mp hc
          cases hc
          exact rest I1 { H with next := H.next + 1 } t1 (putRelation_tidy h3 hI) rfl _ _ x (by rw [if_pos hcon]) h6
        · simp only [hcon, if_false, Bool.false_eq_true] at hc
          obtain ⟨x, h6, hc⟩ := bind_ok.mp hc
          cases hc
          exact rest I1 { H with next := H.next + 1 } t1 (putRelation_tidy h3 hI) rfl _ _ x (by rw [if_neg hcon]) h6
    cases hI : H.irms.find? tb with
    | some I =>
      rw [hI] at hc
      obtain ⟨J, h1, hc⟩ := bind_ok.mp hc
      cases h1
      exact key I (h tb I hI) hc
    | none =>
      rw [hI] at hc
      obtain ⟨_, _, hc⟩ := bind_ok.mp hc
      obtain ⟨J, h1, hc⟩ := bind_ok.mp hc
      cases h1
      exact key {} .empty hc

theorem dropOthers_tidy {r : String} {cur choice : Int} {crp : CRP} : ∀ (l : List Int) (m m' : FMap Int (IRM F)), (∀ tb I, m.find? tb = some I → I.Tidy) →
    dropOthers r cur choice crp l m = .ok m' → ∀ tb I, m'.find? tb = some I → I.Tidy := by
  intro l
  induction l with
  | nil => intro m m' h hc; cases hc; exact h
  | cons tb l ih =>
    intro m m' h hc
    unfold dropOthers at hc
    obtain ⟨I, h1, h2⟩ := bind_ok.mp hc
    have hI := h tb I (FMap.atKey_ok.mp h1)
    dsimp only at h2
    have key : ∀ I1 : IRM F, I1.Tidy →
        (if I1.rels.size = 0 then do
            let s ← crp.tables.atKey tb
            assertR (decide (s.size = 1))
            assertR (decide (tb = cur))
            dropOthers r cur choice crp l (m.erase tb)
          else dropOthers r cur choice crp l (m.set tb I1)) = .ok m' → ∀ tb I, m'.find? tb = some I → I.Tidy := by
      intro I1 hI1 hc
      split at hc
      · obtain ⟨_, _, hc⟩ := bind_ok.mp hc
        obtain ⟨_, _, hc⟩ := bind_ok.mp hc
        obtain ⟨_, _, hc⟩ := bind_ok.mp hc
        refine ih _ _ (fun u J hJ => ?_) hc
        rw [FMap.find?_erase] at hJ
        split at hJ
        · cases hJ
        · exact h u J hJ
      · refine ih _ _ (fun u J hJ => ?_) hc
        rw [FMap.find?_set] at hJ
        split at hJ
        · cases hJ; exact hI1
        · exact h u J hJ
    split at h2
    · obtain ⟨_, _, h2⟩ := bind_ok.mp h2
      obtain ⟨J, h3, h2⟩ := bind_ok.mp h2
      exact key J (IRM.removeRelation_tidy h3 hI) h2
    · obtain ⟨J, h3, h2⟩ := bind_ok.mp h2
      cases h3
      exact key _ hI h2

/-- Moving a relation to another table keeps all values. -/
theorem transitionRelation_tidy {H H' : HIRM F} (h : H.Tidy) {r : String} {t t' : Tape} (hc : H.transitionRelation r t = .ok (H', t')) :
    H'.Tidy ∧ H'.schema = H.schema ∧ ∀ n, H'.dataOf n = H.dataOf n := by
  obtain ⟨hs, tb, hm⟩ := transitionRelation_skel h.skel hc
  refine ⟨⟨hs, ?_⟩, hm.schema, hm.data⟩
  obtain ⟨rc, h1, hc⟩ := bind_ok.mp hc
  obtain ⟨cur, h2, hc⟩ := bind_ok.mp hc
  obtain ⟨⟨p, rel⟩, h0, hc⟩ := bind_ok.mp hc
  obtain ⟨spec, h3, hc⟩ := bind_ok.mp hc
  obtain ⟨w, _, hc⟩ := bind_ok.mp hc
  obtain ⟨⟨lps, H1, aux, t1⟩, h4, hc⟩ := bind_ok.mp hc
  obtain ⟨ch, h5, hc⟩ := bind_ok.mp hc
  obtain ⟨H2, h6, hc⟩ := bind_ok.mp hc
  cases hc
  obtain ⟨m, h7, hc⟩ := bind_ok.mp h6
  obtain ⟨c1, h8, hc⟩ := bind_ok.mp hc
  obtain ⟨c2, h9, hc⟩ := bind_ok.mp hc
  obtain ⟨_, _, hc⟩ := bind_ok.mp hc
  obtain ⟨k1, k2⟩ := scoreTables_tidy _ _ _ _ _ _ _ _ h.irms (fun _ _ h => by cases h) h4
  have k3 := dropOthers_tidy _ _ _ k1 h7
  have k4 : ∀ tb I, (withAux aux ch.1 m).find? tb = some I → I.Tidy := by
    intro u J hJ
    unfold withAux at hJ
    split at hJ
    · rename_i tb' I'
      split at hJ
      · rw [FMap.find?_set] at hJ
        split at hJ
        · cases hJ; exact k2 _ _ rfl
        · exact k3 u J hJ
      · exact k3 u J hJ
    · exact k3 u J hJ
  have hn := updateBase_next (P := fun _ => False) hc
  intro u J hJ
  cases hI : (withAux aux ch.1 m).find? u with
  | none => rw [hn.none u hI] at hJ; cases hJ
  | some I =>
    obtain ⟨I₁, q1, q2⟩ := hn.some u I hI
    rw [hJ] at q1; cases q1
    exact q2.tidy (k4 u I hI)

theorem transitionRelations_tidy : ∀ (l : List String) (H : HIRM F) (t : Tape) (x : HIRM F × Tape), H.Tidy → transitionRelations l H t = .ok x →
    x.1.Tidy ∧ x.1.schema = H.schema ∧ ∀ n, x.1.dataOf n = H.dataOf n := by
  intro l
  induction l with
  | nil => intro H t x h hc; cases hc; exact ⟨h, rfl, fun _ => rfl⟩
  | cons r l ih =>
    intro H t x h hc
    obtain ⟨⟨H₁, t₁⟩, h1, hc⟩ := bind_ok.mp hc
    obtain ⟨a, b, c⟩ := transitionRelation_tidy h h1
    obtain ⟨a', b', c'⟩ := ih _ _ _ a hc
    exact ⟨a', b'.trans b, fun n => (c' n).trans (c n)⟩

/-- A round of inference keeps the values of the observed relations. -/
theorem inferenceStep_tidy {H H' : HIRM F} (h : H.Tidy) {t t' : Tape} (hc : H.inferenceStep t = .ok (H', t')) :
    H'.Tidy ∧ H'.schema = H.schema ∧ ∀ n, ¬ H.Latent n → H'.dataOf n = H.dataOf n := by
  obtain ⟨⟨H₁, t₁⟩, h1, hc⟩ := bind_ok.mp hc
  obtain ⟨⟨H₂, t₂⟩, h2, hc⟩ := bind_ok.mp hc
  have k1 := latentSweep_next (P := H.Latent) _ _ _ _ (fun _ h => h) h1
  obtain ⟨a, b, c⟩ := transitionRelations_tidy _ _ _ _ (k1.tidy h) h2
  have k3 := stepIrms_next (P := fun _ => False) _ _ _ _ hc
  refine ⟨k3.tidy a, k3.schema.trans (b.trans k1.schema), fun n hn => ?_⟩
  rw [k3.dataOf id, c, k1.dataOf hn]

theorem inference_tidy : ∀ (k : Nat) (H : HIRM F) (t : Tape) (x : HIRM F × Tape), H.Tidy → inference k H t = .ok x →
    x.1.Tidy ∧ x.1.schema = H.schema ∧ ∀ n, ¬ H.Latent n → x.1.dataOf n = H.dataOf n := by
  intro k
  induction k with
  | zero => intro H t x h hc; cases hc; exact ⟨h, rfl, fun _ _ => rfl⟩
  | succ k ih =>
    intro H t x h hc
    obtain ⟨⟨H₁, t₁⟩, h1, hc⟩ := bind_ok.mp hc
    obtain ⟨a, b, c⟩ := inferenceStep_tidy h h1
    obtain ⟨a', b', c'⟩ := ih _ _ _ a hc
    refine ⟨a', b'.trans b, fun n hn => ?_⟩
    rw [c' n (fun ⟨sp, h1, h2⟩ => hn ⟨sp, by rw [← b]; exact h1, h2⟩), c n hn]

end HIRM
end
end Verif
