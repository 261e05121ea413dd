import Verif.Lemmas.KnownIRM
import Verif.Props.HirmMain
/-!
C73: a run of the program `hirm` in the mode `irm`.
-/
namespace Verif
variable {V : Type} {F : Family V}
namespace HirmMain
open UtilIO Text

theorem startIrm_known {R : Reader F} {a : Args} {i : Inputs F} (hg : Given R a i) {t t' : Tape} {I : IRM F} (h : startIrm R a i t = .ok (I, t')) :
    DomAll (SeatedIn (HIRM.HasName i.encoding)) I.doms := by
  obtain ⟨merged, te, te', henc, hsub, _⟩ := hg.encoding
  unfold startIrm at h
  split at h
  · obtain ⟨I0, h1, h⟩ := bind_ok.mp h
    have hs := (IRM.C31_irm_result h1).1
    have k := IRM.known_mk' (Q := HIRM.HasName i.encoding) h1
    exact (IRM.feeds.observations (hasName_code henc) k k.links (fun n spec b sp q1 q2 q3 => by
      have q1 : I0.schema.find? n = some spec := q1
      have q3 : I0.schema.find? b = some sp := q3
      rw [hs] at q1 q3
      obtain ⟨sp', r1, r2⟩ := hg.read.bases n spec b q1 q2
      rw [q3] at r1; cases r1; exact r2) h).1.seats
  · rename_i text _
    obtain ⟨S, g1, g2, S', tg, tg', g3⟩ := hg.schema
    obtain ⟨S1, h1, h⟩ := bind_ok.mp h
    rw [g1] at h1
    cases h1
    obtain ⟨⟨⟨obs, S2⟩, t1⟩, h2, h⟩ := bind_ok.mp h
    obtain ⟨cl, h3, h⟩ := bind_ok.mp h
    have e := loadObservations_obs g3 h2
    subst e
    have al := loadObservations_alike h2
    have hr := al.read (loadSchema_read g1)
    obtain ⟨enc, t2, k1, k2⟩ := irmFromTxt_known (fun n spec b sp q1 q2 q3 => by
      obtain ⟨sp', r1, r2⟩ := hr.bases n spec b q1 q2
      rw [q3] at r1; cases r1; exact r2) h
    have k3 := (k2 (hasName_code k1)).1.seats
    intro d dom hd
    refine ⟨(k3 d dom hd).1, fun c hc => hasName_mono k1 henc (fun d x hx => occurs_alike (al.symm.trans g2) (fun r l hl => ?_) hx) d c ((k3 d dom hd).2 c hc)⟩
    obtain ⟨l', hl'⟩ := hsub r l hl
    exact ⟨_, hl', fun o ho => by simp [ho]⟩

theorem inferenceIrm_seats {Q : String → Int → Prop} : ∀ (k : Nat) (I : IRM F) (t : Tape) (x : IRM F × Tape), DomAll (SeatedIn Q) I.doms → inferenceIrm k I t = .ok x →
    DomAll (SeatedIn Q) x.1.doms := by
  intro k
  induction k with
  | zero => intro I t x h hc; cases hc; exact h
  | succ k ih =>
    intro I t x h hc
    obtain ⟨⟨I1, t1⟩, h1, hc⟩ := bind_ok.mp hc
    exact ih _ _ _ (IRM.singleStep_seats h1 h) hc

theorem fitIrm_seats {R : Reader F} {a : Args} {t t' : Tape} {i : Inputs F} {I : IRM F} (h : fitIrm R a t = .ok ((i, I), t')) :
    DomAll (SeatedIn (HIRM.HasName i.encoding)) I.doms := by
  obtain ⟨⟨i', t1⟩, h1, h⟩ := bind_ok.mp h
  obtain ⟨⟨I0, t2⟩, h2, h⟩ := bind_ok.mp h
  obtain ⟨⟨I1, t3⟩, h3, h⟩ := bind_ok.mp h
  cases h
  exact inferenceIrm_seats _ _ _ _ (startIrm_known (readInputs_given h1) h2) h3

/-- **C73**: in the mode `irm`, too, the result of inference is saved, for a new model and for one that was loaded from a file. -/
theorem C73_saves {R : Reader F} {a : Args} {t t' : Tape} {i : Inputs F} {I : IRM F} (h : fitIrm R a t = .ok ((i, I), t')) :
    ∃ text t'', saveIrm R a t = .ok ((i, I, text), t'') := by
  have k := fitIrm_seats h
  obtain ⟨text, t4, h4⟩ := (irmText_ok_iff (HIRM.DomAll.seated k).tidy i.encoding t').mpr k.nameable
  exact ⟨text, t4, bind_ok.mpr ⟨_, h, bind_ok.mpr ⟨_, h4, rfl⟩⟩⟩

/-- **C73**: the file that a run in the mode `irm` saves is read back by the option `load`, and what is read are the clusters of the model at
the end of inference with the names of the input files. -/
theorem C73_reads_back {R : Reader F} {a : Args} {t t' : Tape} {i : Inputs F} {I : IRM F} {text : List Char}
    (h : saveIrm R a t = .ok ((i, I, text), t'))
    (hn : ∀ d c x, Encoding.entity i.encoding d c = some x → Word d ∧ Word x) :
    ∃ cl, loadClustersIrm text = .ok cl ∧ Saved I.doms i.encoding cl := by
  obtain ⟨⟨⟨i', I'⟩, t1⟩, h0, h⟩ := bind_ok.mp h
  obtain ⟨⟨text', t2⟩, h4, h⟩ := bind_ok.mp h
  cases h
  have k := fitIrm_seats h0
  refine irmText_loaded (HIRM.DomAll.seated k).tidy h4 (fun d tb c hc => ?_)
  obtain ⟨x, hx⟩ := k.nameable d tb c hc
  exact ⟨(hn d c x hx).1, fun y hy => (hn d c y hy).2⟩

/-- **C73** is false: the order of the names of the relations matters.  With a noisy relation whose name comes before the name of its base in
the order of the strings, a run in the mode `irm` never gets as far as inference, with or without initial clusters; in the mode `hirm` such
relations are no problem without initial clusters (`C31_hirm_constructor`). -/
theorem C73_order_false {R : Reader F} {a : Args} {S : Schema F} (hs : loadSchema R.mkC R.mkE a.schema = .ok S) {n b : String} {spec : RelSpec F}
    (hn : S.find? n = some spec) (hb : spec.base? = some b) (hlt : Key.lt n b = true) (t : Tape) : ∀ y, fitIrm R a t ≠ .ok y := by
  have key : ∀ {S' : Schema F} {I : IRM F}, Alike S S' → IRM.addAll S'.entries 0 {} ≠ .ok I := by
    intro S' I hal hc
    obtain ⟨sp, k1, _, k3⟩ := hal.symm.some hn
    have hmk : ∃ I, IRM.mk' S' = .ok I := by
      obtain ⟨hs, _⟩ := IRM.addAll_result S'.entries 0 {} I IRM.skel_empty S'.nodupKeys hc
      obtain ⟨_, h5, h6⟩ := IRM.addAll_result S'.entries 0 {} I IRM.skel_empty S'.nodupKeys hc
      have hk : ∀ k, I.rels.contains k = S'.contains k := by
        intro k
        rw [← hs.keys]
        cases hk : S'.find? k with
        | some spec => rw [FMap.contains, FMap.contains, (h6 k spec (FMap.mem_entries.mpr hk)).1, hk]
        | none => rw [FMap.contains, FMap.contains, (h5 k (FMap.find?_none_iff.mp hk)).1, hk]; rfl
      have e : I.schema.size = I.rels.size := IRM.size_eq_of_contains hs.keys
      exact ⟨I, bind_ok.mpr ⟨I, hc, by simp [assertR, e, bind, Except.bind]⟩⟩
    have := (((IRM.C31_irm_constructor_partial S').mp hmk) n sp k1).2 b (k3.trans hb)
    rw [Key.asymm hlt] at this
    cases this.2
  intro y h
  obtain ⟨⟨i, t1⟩, h1, h⟩ := bind_ok.mp h
  obtain ⟨⟨I0, t2⟩, h2, h⟩ := bind_ok.mp h
  obtain ⟨S0, g1, g2, _⟩ := (readInputs_given h1).schema
  rw [hs] at g1
  cases g1
  unfold startIrm at h2
  split at h2
  · obtain ⟨I1, h3, h2⟩ := bind_ok.mp h2
    obtain ⟨I2, h4, _⟩ := bind_ok.mp h3
    exact key g2 h4
  · obtain ⟨S1, h3, h2⟩ := bind_ok.mp h2
    rw [hs] at h3
    cases h3
    obtain ⟨⟨⟨obs, S2⟩, t3⟩, h4, h2⟩ := bind_ok.mp h2
    obtain ⟨cl, _, h2⟩ := bind_ok.mp h2
    obtain ⟨⟨enc, t4⟩, _, h2⟩ := bind_ok.mp h2
    obtain ⟨I1, h5, _⟩ := bind_ok.mp h2
    exact key (loadObservations_alike h4) h5

theorem logpArgs_empty {M : Type} {X : Host F M} {parse : F.C ⊕ F.E → String → Res V} {m : M} {enc : Encoding} (t : Tape) :
    ∃ t', logpArgs X parse m enc ∅ t = .ok ([], t') := by
  have h1 := List.perm_nil.mp (shuffle_perm (∅ : ObsMap String).entries t)
  have h2 : encodeObservations (X.schema m) ∅ enc t = .ok (∅, (shuffle (∅ : ObsMap String).entries t).2) := by
    unfold encodeObservations
    dsimp only
    rw [h1]
    rfl
  have h3 := List.perm_nil.mp (shuffle_perm (∅ : ObsMap Int).entries (shuffle (∅ : ObsMap String).entries t).2)
  refine ⟨(shuffle (∅ : ObsMap Int).entries (shuffle (∅ : ObsMap String).entries t).2).2, bind_ok.mpr ⟨_, h2, ?_⟩⟩
  dsimp only
  rw [h3]
  rfl

/-- **C73** is false: an empty held-out file is undefined behaviour in the mode `irm`, after the clusters have been saved. -/
theorem C73_empty_heldout_false {R : Reader F} {a : Args} (ha : a.heldout = some []) {t t' : Tape} {i : Inputs F} {I : IRM F} {text : List Char}
    (h : saveIrm R a t = .ok ((i, I, text), t')) : runIrm R a t = .error .ub := by
  have he : i.heldout = ∅ := by
    obtain ⟨⟨⟨i', I'⟩, t1⟩, h0, h⟩ := bind_ok.mp h
    obtain ⟨_, _, h⟩ := bind_ok.mp h
    cases h
    obtain ⟨⟨i', t1⟩, h1, h⟩ := bind_ok.mp h0
    obtain ⟨_, _, h⟩ := bind_ok.mp h
    obtain ⟨_, _, h⟩ := bind_ok.mp h
    cases h
    obtain ⟨S, _, h1⟩ := bind_ok.mp h1
    obtain ⟨_, _, h1⟩ := bind_ok.mp h1
    obtain ⟨⟨⟨S2, ho, merged⟩, t2⟩, h3, h1⟩ := bind_ok.mp h1
    obtain ⟨_, _, h1⟩ := bind_ok.mp h1
    cases h1
    rw [ha] at h3
    obtain ⟨⟨⟨ho', S3⟩, t4⟩, h5, h3⟩ := bind_ok.mp h3
    cases h3
    obtain ⟨o, h6, h5⟩ := bind_ok.mp h5
    obtain ⟨_, _, h5⟩ := bind_ok.mp h5
    cases h5
    cases h6
    rfl
  unfold runIrm
  rw [h]
  show (heldoutIrm R a i I t' >>= _) = _
  unfold heldoutIrm
  obtain ⟨t2, h2⟩ := logpArgs_empty (X := IRM.host F) (parse := R.parse) (m := I) (enc := i.encoding) t'
  rw [ha, he]
  dsimp only
  rw [h2]
  rfl

/-! ### Examples -/
section Examples
open Latent

/-- C73: a run of the mode `irm` (the files are those of the example of C71) -/
example : ∃ i I t', saveIrm boolReader two [] = .ok ((i, I, "D 0 a b\nE 0 x\n".toList), t') := ⟨_, _, _, rfl⟩

/-- C73_saves: a run with initial clusters and a held-out file -/
example : ∃ y, fitIrm boolReader { two with clusters := some "D 0 a\nD 2 b\nE 0 x\n".toList, heldout := some "1,R,c\n".toList } [] = .ok y := ⟨_, rfl⟩

/-- C73_reads_back: the names are words -/
example : ∃ i I text t', saveIrm boolReader two [] = .ok ((i, I, text), t') ∧
    ∀ d c x, Encoding.entity i.encoding d c = some x → Word d ∧ Word x := by
  refine ⟨twoInputs, _, _, _, rfl, fun d c x h => ?_⟩
  have h := mem_names h
  have e : names twoInputs.encoding = [("D", 0, "a"), ("D", 1, "b"), ("E", 0, "x")] := rfl
  rw [e] at h
  simp only [List.mem_cons, Prod.mk.injEq, List.not_mem_nil, or_false] at h
  rcases h with ⟨rfl, rfl, rfl⟩ | ⟨rfl, rfl, rfl⟩ | ⟨rfl, rfl, rfl⟩ <;> unfold Word <;> decide

/-- C73_order_false: the mode `hirm` does this run (see C71), the mode `irm` does not -/
example (t : Tape) : ∀ y, fitIrm boolReader late t ≠ .ok y :=
  C73_order_false (S := ((∅ : Schema bools).set "A" (.noisy () ["D"] "B" false)).set "B" (.clean () ["D"] false)) rfl (n := "A") (b := "B") rfl rfl rfl t

/-- C73_empty_heldout_false: the mode `hirm` does this run, … -/
example : ∃ y, runHirm boolReader { two with heldout := some [] } 0 [] = .ok (some y) := ⟨_, rfl⟩

/-- … the mode `irm` does not. -/
example : runIrm boolReader { two with heldout := some [] } [] = .error .ub := by
  obtain ⟨i, I, text, t', h⟩ : ∃ i I text t', saveIrm boolReader { two with heldout := some [] } [] = .ok ((i, I, text), t') := ⟨_, _, _, _, rfl⟩
  exact C73_empty_heldout_false rfl h

end Examples

end HirmMain
end Verif
