import Verif.Lemmas.HirmMain
import Verif.Lemmas.ClusterFileLoad
import Verif.Lemmas.HIRMSchema
/-!
C71: a run of the program `hirm`.
-/
namespace Verif
variable {V : Type} {F : Family V}
namespace HirmMain
open UtilIO Text

/-- **C71**: whatever inference does, its result is saved: once inference has ended, the clusters are written, for a new model and for one
that was loaded from a file.  (Saving fails for a clustered entity without a name, so every entity has one.) -/
theorem C71_saves {R : Reader F} {a : Args} {t t' : Tape} {i : Inputs F} {H : HIRM F} (h : fitHirm R a t = .ok ((i, H), t')) :
    ∃ text t'', saveHirm R a t = .ok ((i, H, text), t'') := by
  have hc := h
  obtain ⟨⟨i', t1⟩, h1, h⟩ := bind_ok.mp h
  obtain ⟨⟨H0, t2⟩, h2, h⟩ := bind_ok.mp h
  obtain ⟨⟨H1, t3⟩, h3, h⟩ := bind_ok.mp h
  cases h
  obtain ⟨k, _, _⟩ := startHirm_known (readInputs_given h1) h2
  obtain ⟨text, t4, h4⟩ := (HIRM.Known.inference _ _ _ _ k h3).saves t'
  exact ⟨text, t4, bind_ok.mpr ⟨_, hc, bind_ok.mpr ⟨_, h4, rfl⟩⟩⟩

/-- **C71**: the file that a run saves is read back by the option `load`, and what is read are the clusters of the model at the end of
inference with the names of the input files. -/
theorem C71_reads_back {R : Reader F} {a : Args} {t t' : Tape} {i : Inputs F} {H : HIRM F} {text : List Char}
    (h : saveHirm R a t = .ok ((i, H, text), t'))
    (hn : ∀ d c x, Encoding.entity i.encoding d c = some x → Word d ∧ DomainWord d ∧ Word x) :
    ∃ rels irms, loadClustersHirm text = .ok (rels, irms) ∧ SavedHirm H i.encoding rels irms := by
  obtain ⟨⟨⟨i', H'⟩, t1⟩, h0, h⟩ := bind_ok.mp h
  obtain ⟨⟨text', t2⟩, h4, h⟩ := bind_ok.mp h
  cases h
  obtain ⟨⟨i', t1⟩, h1, h⟩ := bind_ok.mp h0
  obtain ⟨⟨H0, t2⟩, h2, h⟩ := bind_ok.mp h
  obtain ⟨⟨H1, t3⟩, h3, h⟩ := bind_ok.mp h
  cases h
  have hg := readInputs_given h1
  obtain ⟨k, f, w⟩ := startHirm_known hg h2
  have k' := HIRM.Known.inference _ _ _ _ k h3
  have f' := HIRM.From.inference (le_refl 0) _ _ _ _ k.tidy f h3
  refine hirmText_loaded k'.tidy.skel.consistent k'.tidy.skel.crp.tidy (fun tb I hI => (HIRM.DomAll.seated (k'.seats tb I hI)).tidy) h4
    (fun tb I hI => ⟨fun d tb' c hc => ?_, fun d tb' c hc => ?_⟩) (fun n tb hn => ?_)
  · obtain ⟨x, hx⟩ := k'.nameable hI d tb' c hc
    exact ⟨(hn d c x hx).1, fun y hy => (hn d c y hy).2.2⟩
  · obtain ⟨x, hx⟩ := k'.nameable hI d tb' c hc
    obtain ⟨dom, hd, hu⟩ := hc
    exact ⟨(hn d c x hx).2.1, (k'.seats tb I hI d dom hd).1.2.2 c tb' hu⟩
  · obtain ⟨c, q1, q2⟩ := Option.bind_eq_some_iff.mp hn
    refine ⟨w n ?_, f' c tb q2⟩
    rw [← HIRM.inference_schema h3, k'.tidy.skel.schema]
    exact FMap.contains_iff.mpr ⟨c, q1⟩

/-! ### The option `load` and noisy relations -/

/-- relations are added in the order of the list, and the base of a noisy relation must have been added before -/
theorem addAside_order : ∀ (l : List (String × RelSpec F)) (H : HIRM F) (t : Tape) (x : HIRM F × Tape), Loading (fun _ _ => True) H → addAside l H t = .ok x →
    ∀ pre n spec b post, l = pre ++ (n, spec) :: post → spec.base? = some b → H.schema.contains b = true ∨ b ∈ pre.map Prod.fst := by
  intro l
  induction l with
  | nil => intro H t x _ _ pre n spec b post h; simp at h
  | cons e l ih =>
    obtain ⟨r, sp⟩ := e
    intro H t x h hc pre n spec b post hl hb
    obtain ⟨⟨H₁, t₁⟩, h1, hc⟩ := bind_ok.mp hc
    obtain ⟨_, _, hc⟩ := bind_ok.mp hc
    obtain ⟨⟨H₂, t₂⟩, h2, hc⟩ := bind_ok.mp hc
    have k1 := h.known.add h1
    cases pre with
    | nil =>
      simp only [List.nil_append, List.cons.injEq, Prod.mk.injEq] at hl
      obtain ⟨⟨rfl, rfl⟩, rfl⟩ := hl
      refine .inl ?_
      cases sp with
      | clean c ds o => cases hb
      | noisy em ds base o =>
        cases hb
        obtain ⟨_, _, h1⟩ := bind_ok.mp h1
        obtain ⟨_, _, h1⟩ := bind_ok.mp h1
        rw [h.known.tidy.skel.schema]
        cases hn : H.relToCode.contains b with
        | true => rfl
        | false =>
          dsimp only at h1
          rw [hn] at h1
          obtain ⟨_, _, h1⟩ := bind_ok.mp h1
          cases h1
    | cons p pre =>
      simp only [List.cons_append, List.cons.injEq] at hl
      obtain ⟨rfl, hl⟩ := hl
      have f1 := h.tables.add (by omega) h.known.tidy.skel h1
      rcases ih _ _ _ ⟨k1.set h2, f1.set (le_refl _) h2⟩ hc pre n spec b post hl hb with hm | hm
      · rw [(HIRM.setClusterAssignmentGibbs_skel k1.tidy.skel h2).2.schema, (HIRM.addRelation_inv h1).2.1, FMap.contains_iff_mem, FMap.keys_set_mem] at hm
        rcases hm with rfl | hm
        · exact .inr (by simp)
        · exact .inl (FMap.contains_iff_mem.mpr hm)
      · exact .inr (by simp [hm])

/-- **C71** is false for the option `load`: with a noisy relation whose name comes before the name of its base in the order of the strings,
no file of clusters can be loaded. -/
theorem C71_load_order_false {R : Reader F} {a : Args} {text : List Char} (ha : a.clusters = some text) {S : Schema F}
    (hs : loadSchema R.mkC R.mkE a.schema = .ok S) {n b : String} {spec : RelSpec F} (hn : S.find? n = some spec) (hb : spec.base? = some b)
    (hlt : Key.lt n b = true) (t : Tape) : ∀ y, fitHirm R a t ≠ .ok y := by
  intro y h
  obtain ⟨⟨i, t1⟩, h1, h⟩ := bind_ok.mp h
  obtain ⟨⟨H0, t2⟩, h2, h⟩ := bind_ok.mp h
  unfold startHirm at h2
  rw [ha] at h2
  obtain ⟨S1, h3, h2⟩ := bind_ok.mp h2
  rw [hs] at h3
  cases h3
  obtain ⟨⟨⟨obs, S2⟩, t3⟩, h4, h2⟩ := bind_ok.mp h2
  obtain ⟨⟨rels, irms⟩, h5, h2⟩ := bind_ok.mp h2
  obtain ⟨⟨enc, t4⟩, h6, h2⟩ := bind_ok.mp h2
  obtain ⟨⟨H1, t5⟩, h7, h2⟩ := bind_ok.mp h2
  obtain ⟨spec', q1, q2⟩ : ∃ spec', S2.find? n = some spec' ∧ spec'.base? = some b := by
    obtain ⟨spec', e1, _, e3⟩ := (loadObservations_alike h4).symm.some hn
    exact ⟨spec', e1, e3.trans hb⟩
  obtain ⟨pre, post, he⟩ := List.append_of_mem (FMap.mem_entries.mpr q1)
  rcases addAside_order _ _ _ _ ⟨HIRM.known_empty, fun i tb h => by cases h⟩ h7 pre n spec' b post he q2 with hm | hm
  · cases hm
  · obtain ⟨e, hm', rfl⟩ := List.mem_map.mp hm
    have hp := S2.sorted
    rw [he] at hp
    have := (List.pairwise_append.mp hp).2.2 e hm' (n, spec') (by simp)
    have := Key.trans _ _ _ hlt this
    rw [Key.irrefl] at this
    cases this

/-! ### Held-out observations -/

theorem readInputs_marked {R : Reader F} {a : Args} {t t' : Tape} {i : Inputs F} (h : readInputs R a t = .ok (i, t')) {r : String}
    (hr : i.heldout.contains r = true) {spec : RelSpec F} (hs : i.schema.find? r = some spec) : spec.observed = true := by
  obtain ⟨S, _, h⟩ := bind_ok.mp h
  obtain ⟨⟨⟨obs, S1⟩, t1⟩, _, h⟩ := bind_ok.mp h
  obtain ⟨⟨⟨S2, ho, merged⟩, t2⟩, h3, h⟩ := bind_ok.mp h
  obtain ⟨⟨enc, t3⟩, _, h⟩ := bind_ok.mp h
  cases h
  unfold readHeldout at h3
  split at h3
  · cases h3; cases hr
  · obtain ⟨⟨⟨ho', S3⟩, t4⟩, h5, h3⟩ := bind_ok.mp h3
    cases h3
    obtain ⟨ws, _, _, g3, g4⟩ := (C35_load S1 _ _ ho S2).mp ⟨t4, h5⟩
    obtain ⟨l, hl⟩ := FMap.contains_iff.mp hr
    have hl : ho.find? r = some l := hl
    rw [g3 r] at hl
    have hs : S2.find? r = some spec := hs
    rw [g4 r] at hs
    split at hl
    · cases hl
    · rename_i hne
      cases hf : S1.find? r with
      | none => rw [hf] at hs; cases hs
      | some sp =>
        rw [hf, Option.map_some, if_neg hne] at hs
        cases hs
        cases sp <;> rfl

/-- **C71** is false: held-out observations are not only scored.  The values of a relation that is not in the observations are normally
resampled, but if the held-out file has an observation of the relation, inference never changes them. -/
theorem C71_heldout_freezes {R : Reader F} {a : Args} {t t' : Tape} {i : Inputs F} {H : HIRM F} (ha : a.clusters = none)
    (h : fitHirm R a t = .ok ((i, H), t')) {r : String} (hr : i.heldout.contains r = true) :
    ∃ H0 t0 t1, startHirm R a i t0 = .ok (H0, t1) ∧ H.dataOf r = H0.dataOf r := by
  obtain ⟨⟨i', t1⟩, h1, h⟩ := bind_ok.mp h
  obtain ⟨⟨H0, t2⟩, h2, h⟩ := bind_ok.mp h
  obtain ⟨⟨H1, t3⟩, h3, h⟩ := bind_ok.mp h
  cases h
  refine ⟨H0, t1, t2, h2, (HIRM.inference_tidy _ _ _ _ (startHirm_known (readInputs_given h1) h2).1.tidy h3).2.2 r ?_⟩
  rintro ⟨spec, hs, ho⟩
  have e : H0.schema = i.schema := by
    unfold startHirm at h2
    rw [ha] at h2
    obtain ⟨⟨H', t4⟩, h4, h2⟩ := bind_ok.mp h2
    have hg := readInputs_given h1
    obtain ⟨_, _, _, henc, _⟩ := hg.encoding
    have hs := (HIRM.C31_hirm_result h4).1
    refine ((HIRM.known_mk' h4).observations (hasName_code henc) (fun n spec b sp q1 q2 q3 => ?_) h2).2.1.trans hs
    rw [hs] at q1 q3
    obtain ⟨sp', r1, r2⟩ := hg.read.bases n spec b q1 q2
    rw [q3] at r1; cases r1; exact r2
  rw [e] at hs
  rw [readInputs_marked h1 hr hs] at ho
  cases ho

/-! ### Examples -/
section Examples
open Latent

/-- the toy family of booleans: Bernoulli distributions and bit flips -/
def boolReader : Reader bools where
  mkC d _ := if d = "bernoulli".toList then .ok () else .error .exit
  mkE d _ := if d = "sometimes_bitflip".toList then .ok () else .error .exit
  parse _ x := .ok (x == "1")
  print b := if b then "1" else "0"

/-- two relations -/
def two : Args where
  schema := "R ~ bernoulli(D)\nS ~ bernoulli(D, E)\n".toList
  obs := "1,R,a\n0,R,b\n1,S,a,x\n".toList
  iters := 0

/-- C71: a run -/
example : ∃ i H t', saveHirm boolReader two [] = .ok ((i, H, "0 R S\n\nirm=0\nD 0 a b\nE 0 x\n".toList), t') := ⟨_, _, _, rfl⟩

/-- the names of an encoding -/
def names (e : Encoding) : List (String × Int × String) := e.rev.entries.flatMap fun y => y.2.entries.map fun z => (y.1, z.1, z.2)

theorem mem_names {e : Encoding} {d : String} {c : Int} {x : String} (h : Encoding.entity e d c = some x) : (d, c, x) ∈ names e := by
  obtain ⟨m, h1, h2⟩ := Option.bind_eq_some_iff.mp h
  exact List.mem_flatMap.mpr ⟨_, FMap.mem_entries.mpr h1, List.mem_map.mpr ⟨_, FMap.mem_entries.mpr h2, rfl⟩⟩

noncomputable def twoInputs : Inputs bools :=
  match readInputs boolReader two [] with
  | .ok (i, _) => i
  | .error _ => { schema := ∅, observations := ∅, heldout := ∅, encoding := {} }

/-- C71_reads_back: the names are words -/
example : ∃ i H text t', saveHirm boolReader two [] = .ok ((i, H, text), t') ∧
    ∀ d c x, Encoding.entity i.encoding d c = some x → Word d ∧ DomainWord d ∧ Word x := by
  refine ⟨twoInputs, _, _, _, rfl, fun d c x h => ?_⟩
  have h := mem_names h
  have e : names twoInputs.encoding = [("D", 0, "a"), ("D", 1, "b"), ("E", 0, "x")] := rfl
  rw [e] at h
  simp only [List.mem_cons, Prod.mk.injEq, List.not_mem_nil, or_false] at h
  rcases h with ⟨rfl, rfl, rfl⟩ | ⟨rfl, rfl, rfl⟩ | ⟨rfl, rfl, rfl⟩ <;> unfold Word DomainWord <;> decide

/-- The schema has a noisy relation before its base: `hirm` does this run, … -/
def late : Args where
  schema := "A ~ sometimes_bitflip(B; D)\nB ~ bernoulli(D)\n".toList
  obs := "1,A,a\n".toList
  iters := 0

example : ∃ i H t', saveHirm boolReader late [] = .ok ((i, H, "0 B A\n\nirm=0\nD 0 a\n".toList), t') := ⟨_, _, _, rfl⟩

/-- … but the file that it saves cannot be loaded again. -/
theorem C71_load_order_witness_false (t : Tape) :
    ∀ y, fitHirm boolReader { late with clusters := some "0 B A\n\nirm=0\nD 0 a\n".toList } t ≠ .ok y :=
  C71_load_order_false (S := ((∅ : Schema bools).set "A" (.noisy () ["D"] "B" false)).set "B" (.clean () ["D"] false)) rfl rfl (n := "A") (b := "B") rfl rfl rfl t

/-- a run with clusters and held-out observations -/
def both : Args where
  schema := "R ~ bernoulli(D)\nS ~ bernoulli(D)\n".toList
  obs := "1,R,a\n1,S,c\n".toList
  clusters := some "0 R S\n\nirm=0\nD 0 a\nD 1 c\n".toList
  iters := 0

/-- **C71** is false for the options `load` and `heldout` together: without iterations, clusters that are loaded should be saved as they
are, and without held-out observations they are; but with them, the codes of the entities differ from those of the loaded model: the file
says that `b` is in cluster 1, which is only in the held-out file, and does not name `c`. -/
theorem C71_load_heldout_false :
    (∃ i H t', saveHirm boolReader both [] = .ok ((i, H, "0 R S\n\nirm=0\nD 0 a\nD 1 c\n".toList), t')) ∧
    ∃ i H t', saveHirm boolReader { both with heldout := some "1,R,b\n1,S,d\n".toList } [] = .ok ((i, H, "0 R S\n\nirm=0\nD 0 a\nD 1 b\n".toList), t') :=
  ⟨⟨_, _, _, rfl⟩, _, _, _, rfl⟩

/-- C71_heldout_freezes: `B` is not in the observations, but in the held-out observations -/
example : ∃ i H t', fitHirm boolReader { late with heldout := some "0,B,a\n".toList } [] = .ok ((i, H), t') ∧ i.heldout.contains "B" = true ∧
    i.observations.contains "B" = false := ⟨_, _, _, rfl, rfl, rfl⟩

end Examples

end HirmMain
end Verif
