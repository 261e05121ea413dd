import Verif.Lemmas.KnownLoad
import Verif.Lemmas.IRMMk
/-!
Every entity that an IRM has seated has a property `Q`: what reading observations and inference need for this to stay true.  This needs
nothing about the distributions.
-/
namespace Verif
noncomputable section
variable {V : Type} {F : Family V} {Q : String → Int → Prop}
namespace IRM
open UtilIO
open HIRM (HasName)

/-- every relation is over the domains of the schema, and the entities of all domains are in `Q` -/
structure Known (Q : String → Int → Prop) (I : IRM F) : Prop where
  tidy : I.Tidy
  seats : DomAll (SeatedIn Q) I.doms
  links : ∀ b l n, I.baseToNoisy.find? b = some l → n ∈ l → ∃ spec, I.schema.find? n = some spec ∧ spec.base? = some b

theorem known_empty : Known Q ({} : IRM F) := ⟨.empty, (fun d dom h => by cases h), (fun b l n h => by cases h)⟩

theorem addNoisy_tidy {I I' : IRM F} {id : Nat} {name : String} {e : F.E} {ds : List String} {b : String} {o : Bool}
    (hc : addNoisy id I name e ds b o = .ok I') (h : I.Tidy) : I'.Tidy := by
  obtain ⟨_, _, hc⟩ := bind_ok.mp hc
  obtain ⟨_, _, hc⟩ := bind_ok.mp hc
  obtain ⟨I1, h1, hc⟩ := bind_ok.mp hc
  split at hc
  · obtain ⟨_, _, hc⟩ := bind_ok.mp hc; cases hc
  · obtain ⟨⟨bid, _⟩, _, hc⟩ := bind_ok.mp hc
    obtain ⟨r, h2, hc⟩ := bind_ok.mp hc
    cases hc
    obtain ⟨a, b'⟩ := addDomains_keys _ _ _ h1
    obtain ⟨i, d⟩ := NoisyRel.Indexed.fresh h2
    exact h.add (x := (id, .noisy e _ r)) (spec := .noisy e ds b o) (by show I1.schema.set _ _ = _; rw [a]) (by show I1.rels.set _ _ = _; rw [b']) i d

theorem addDomains_links {name : String} : ∀ (ds : List String) (I I' : IRM F), addDomains name ds I = .ok I' → I'.baseToNoisy = I.baseToNoisy := by
  intro ds
  induction ds with
  | nil => intro I I' h; cases h; rfl
  | cons d ds ih =>
    intro I I' h
    unfold addDomains at h
    dsimp only at h
    split at h
    · obtain ⟨J, h1, h⟩ := bind_ok.mp h
      cases h1
      obtain ⟨s, _, h⟩ := bind_ok.mp h
      have h2 := ih _ _ h
      exact h2
    · obtain ⟨_, _, h⟩ := bind_ok.mp h
      obtain ⟨J, h1, h⟩ := bind_ok.mp h
      cases h1
      obtain ⟨s, _, h⟩ := bind_ok.mp h
      have h2 := ih _ _ h
      exact h2

theorem Known.add {I I' : IRM F} (h : Known Q I) {id : Nat} {name : String} {spec : RelSpec F} (hc : addRelation id I name spec = .ok I') : Known Q I' := by
  refine ⟨?_, (addRelation_keeps (seatedIn_closed Q) hc).all h.seats, ?_⟩
  · cases spec with
    | clean c ds o => exact addClean_tidy hc h.tidy
    | noisy e ds b o => exact addNoisy_tidy hc h.tidy
  · cases spec with
    | clean c ds o =>
      obtain ⟨_, h0, hc⟩ := bind_ok.mp hc
      obtain ⟨_, _, hc⟩ := bind_ok.mp hc
      obtain ⟨I1, h1, hc⟩ := bind_ok.mp hc
      obtain ⟨r, h2, hc⟩ := bind_ok.mp hc
      cases hc
      intro b l n hb hn
      obtain ⟨spec, k1, k2⟩ := h.links b l n (by rw [← addDomains_links _ _ _ h1]; exact hb) hn
      refine ⟨spec, ?_, k2⟩
      show (I1.schema.set name _).find? n = _
      rw [(addDomains_keys _ _ _ h1).1, FMap.find?_set_ne _ (by rintro rfl; rw [assertR_ok, FMap.contains, k1] at h0; cases h0)]
      exact k1
    | noisy e ds base o =>
      obtain ⟨_, h0, hc⟩ := bind_ok.mp hc
      obtain ⟨_, _, hc⟩ := bind_ok.mp hc
      obtain ⟨I1, h1, hc⟩ := bind_ok.mp hc
      split at hc
      · obtain ⟨_, _, hc⟩ := bind_ok.mp hc; cases hc
      · obtain ⟨⟨bid, _⟩, _, hc⟩ := bind_ok.mp hc
        obtain ⟨r, h2, hc⟩ := bind_ok.mp hc
        cases hc
        have old : ∀ b l n, I.baseToNoisy.find? b = some l → n ∈ l → ∃ spec, (I1.schema.set name (.noisy e ds base o)).find? n = some spec ∧ spec.base? = some b := by
          intro b l n hb hn
          obtain ⟨spec, k1, k2⟩ := h.links b l n hb hn
          refine ⟨spec, ?_, k2⟩
          rw [(addDomains_keys _ _ _ h1).1, FMap.find?_set_ne _ (by rintro rfl; rw [assertR_ok, FMap.contains, k1] at h0; cases h0)]
          exact k1
        intro b l n hb hn
        have hb : (I1.baseToNoisy.set base ((I1.baseToNoisy.find? base).getD [] ++ [name])).find? b = some l := hb
        rw [addDomains_links _ _ _ h1, FMap.find?_set] at hb
        split at hb
        · rename_i eb
          cases hb
          rcases List.mem_append.mp hn with hn | hn
          · cases hl : I.baseToNoisy.find? base with
            | none => rw [hl] at hn; cases hn
            | some l =>
              rw [hl] at hn
              exact old b l n (by rw [eb]; exact hl) hn
          · simp only [List.mem_cons, List.not_mem_nil, or_false] at hn
            subst hn
            exact ⟨_, FMap.find?_set_self _ _ _, by rw [eb]; rfl⟩
        · exact old b l n hb hn

theorem Known.addAll : ∀ (l : List (String × RelSpec F)) (id : Nat) (I I' : IRM F), Known Q I → addAll l id I = .ok I' → Known Q I' := by
  intro l
  induction l with
  | nil => intro id I I' h hc; cases hc; exact h
  | cons e l ih =>
    intro id I I' h hc
    obtain ⟨I1, h1, hc⟩ := bind_ok.mp hc
    exact ih _ _ _ (h.add h1) hc

theorem known_mk' {schema : Schema F} {I : IRM F} (hc : mk' schema = .ok I) : Known Q I := by
  obtain ⟨I1, h1, hc⟩ := bind_ok.mp hc
  obtain ⟨_, _, hc⟩ := bind_ok.mp hc
  cases hc
  exact .addAll _ _ _ _ known_empty h1

theorem Known.reseat {I : IRM F} (h : Known Q I) {σ : Doms} (hσ : DomAll (SeatedIn Q) σ) : Known Q { I with doms := σ } := ⟨h.tidy, hσ, h.links⟩

theorem incorporate_links {env : Env V} {I I' : IRM F} {r : String} {items : Items} {v : V} {t t' : Tape}
    (hc : incorporate env I r items v t = .ok (I', t')) : I'.baseToNoisy = I.baseToNoisy := by
  obtain ⟨⟨id, rel⟩, h1, hc⟩ := bind_ok.mp hc
  obtain ⟨⟨σ, rel', t₁⟩, h2, hc⟩ := bind_ok.mp hc
  cases hc
  rfl

theorem feeds : Feeds (IRM.host F) Q (Known Q) where
  incorporate {I I' r items v t t'} h hc hQ := by
    obtain ⟨hn, _⟩ := incorporate_next hc
    refine ⟨⟨hn.tidy h.tidy, (incorporate_keeps (seatedIn_closed Q) hc (fun x hx => ?_)).all h.seats, ?_⟩, hn.schema⟩
    · obtain ⟨a, spec, b, c⟩ := h.tidy r x hx
      rw [a.inner, c]
      exact hQ spec b
    · rw [incorporate_links hc, hn.schema]; exact h.links
  sampleAt {I I' r items v t t'} h hc := by
    obtain ⟨⟨id, rel⟩, h2, hc⟩ := bind_ok.mp hc
    obtain ⟨⟨v, rel', t₁⟩, h3, hc⟩ := bind_ok.mp hc
    cases hc
    have hr : Rel.Next rel rel' ∧ rel'.data = rel.data := by
      cases rel with
      | clean c q =>
        obtain ⟨⟨_, q', _⟩, h4, h3⟩ := bind_ok.mp h3
        cases h3
        exact Rel.next_clean (CleanRel.sampleAtItems_same h4)
      | noisy e p q =>
        obtain ⟨b, _, h3⟩ := bind_ok.mp h3
        obtain ⟨⟨_, _⟩, h4, h3⟩ := bind_ok.mp h3
        cases h3
        exact ⟨.refl _, rfl⟩
    have hn : Next (fun _ => False) I { I with rels := I.rels.set r (id, rel') } := .setRel' (id, rel') (FMap.atKey_ok.mp h2) hr.1 (fun _ => hr.2)
    exact ⟨⟨hn.tidy h.tidy, h.seats, h.links⟩, rfl⟩

theorem storeNoisy_doms {p : Ptr} : ∀ (l : List (LatentNoisy F)) (I I' : IRM F), storeNoisy I p l = .ok I' → I'.doms = I.doms := by
  intro l
  induction l with
  | nil => intro I I' h; cases h; rfl
  | cons x l ih =>
    intro I I' h
    obtain ⟨⟨id, rel⟩, _, h⟩ := bind_ok.mp h
    exact (ih _ _ h).trans rfl

theorem transitionLatentRelation_doms {env : Env V} {I I' : IRM F} {r : String} {t t' : Tape} (hc : transitionLatentRelation env I r t = .ok (I', t')) :
    I'.doms = I.doms := by
  obtain ⟨⟨id, rel⟩, _, hc⟩ := bind_ok.mp hc
  obtain ⟨names, _, hc⟩ := bind_ok.mp hc
  obtain ⟨noisy, _, hc⟩ := bind_ok.mp hc
  obtain ⟨⟨base, noisy', t1⟩, _, hc⟩ := bind_ok.mp hc
  obtain ⟨I1, h1, hc⟩ := bind_ok.mp hc
  cases hc
  have h2 := storeNoisy_doms _ _ _ h1
  exact h2

theorem latentSweep_doms {env : IRM F → Env V} : ∀ (l : List String) (I : IRM F) (t : Tape) (x : IRM F × Tape), latentSweep env l I t = .ok x → x.1.doms = I.doms := by
  intro l
  induction l with
  | nil => intro I t x h; cases h; rfl
  | cons r l ih =>
    intro I t x h
    obtain ⟨spec, _, h⟩ := bind_ok.mp h
    split at h
    · obtain ⟨⟨I1, t1⟩, h1, h⟩ := bind_ok.mp h
      exact (ih _ _ _ h).trans (transitionLatentRelation_doms h1)
    · exact ih _ _ _ h

/-- steps with and without latent values seat nobody new -/
theorem singleStep_seats {I I' : IRM F} {n : Nat} {b : Bool} {t t' : Tape} (hc : singleStep I n b t = .ok (I', t')) (h : DomAll (SeatedIn Q) I.doms) :
    DomAll (SeatedIn Q) I'.doms := by
  obtain ⟨I0, t0, e, h1⟩ : ∃ I0 t0, I0.doms = I.doms ∧ singleStep I0 n false t0 = .ok (I', t') := by
    cases b with
    | false => exact ⟨I, t, rfl, hc⟩
    | true =>
      obtain ⟨⟨I0, t0⟩, h0, h1⟩ := bind_ok.mp hc
      exact ⟨I0, t0, latentSweep_doms _ _ _ _ h0, h1⟩
  obtain ⟨⟨Iz, tz⟩, hz, h1⟩ := bind_ok.mp h1
  cases hz
  obtain ⟨⟨I1, t1⟩, h2, h3⟩ := bind_ok.mp h1
  obtain ⟨⟨I2, t2⟩, h4, h5⟩ := bind_ok.mp h3
  exact (alphaSweep_keeps (seatedIn_closed Q) _ _ _ _ h5).all ((hparamsSweep_keeps _ _ _ _ h4).all
    ((transitionDomains_keeps (seatedIn_closed Q) _ _ _ _ h2).all (by rw [e]; exact h)))

end IRM

theorem DomAll.nameable {enc : Encoding} {σ : Doms} (h : DomAll (SeatedIn (HIRM.HasName enc)) σ) : UtilIO.Nameable σ enc := by
  rintro d u i ⟨dom, hd, hu⟩
  have := h d dom hd
  exact this.2 i (this.1.2.1.mem.mpr ⟨u, hu⟩)

namespace UtilIO
open HIRM (HasName)

/-- what `from_txt` gives for an IRM -/
theorem irmFromTxt_known {parse : F.C ⊕ F.E → String → Res V} {schema : Schema F} {obs : ObsMap String} {cl : Clusters} {t : Tape} {x : IRM F × Tape}
    (hp : ∀ n spec b sp, schema.find? n = some spec → spec.base? = some b → schema.find? b = some sp → sp.doms <+: spec.doms)
    (hc : irmFromTxt parse schema obs cl t = .ok x) :
    ∃ enc t', calculateEncoding schema obs t = .ok (enc, t') ∧ ((∀ d x c, Encoding.code enc d x = some c → HasName enc d c) → IRM.Known (HasName enc) x.1 ∧ x.1.schema = schema) := by
  obtain ⟨⟨enc, t1⟩, h1, hc⟩ := bind_ok.mp hc
  obtain ⟨I, h2, hc⟩ := bind_ok.mp hc
  obtain ⟨⟨σ, t2⟩, h3, hc⟩ := bind_ok.mp hc
  refine ⟨enc, t1, h1, fun hbij => ?_⟩
  have k : IRM.Known (HasName enc) I := .addAll _ _ _ _ IRM.known_empty h2
  obtain ⟨hs, h5, h6⟩ := IRM.addAll_result schema.entries 0 {} I IRM.skel_empty schema.nodupKeys h2
  have e : I.schema = schema := by
    apply FMap.ext
    intro n
    cases hn : schema.find? n with
    | some spec => exact (h6 n spec (FMap.mem_entries.mpr hn)).1
    | none =>
      refine (h5 n (fun hm => ?_)).1
      obtain ⟨y, hy, rfl⟩ := List.mem_map.mp hm
      rw [FMap.mem_entries.mp hy] at hn
      cases hn
  obtain ⟨a, b⟩ := IRM.feeds.observations hbij (k.reseat (seatClusters_seated hbij _ _ _ _ k.seats h3)) k.links
    (by show ∀ n spec b sp, I.schema.find? n = _ → _; rw [e]; exact hp) hc
  exact ⟨a, b.trans e⟩

end UtilIO
end
end Verif
