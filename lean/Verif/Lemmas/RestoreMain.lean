import Verif.Lemmas.RestoreHirm
import Verif.Props.IrmMain
/-!
What the program `hirm` has after reading its files, for a new model and for one with loaded clusters.
-/
namespace Verif
noncomputable section
variable {V : Type} {F : Family V}
open UtilIO

theorem told_alike {S S' : Schema F} (h : UtilIO.Alike S S') {α : Type} {O : String → List α → Prop} {n : String} {k : List α} (ht : Told S O n k) : Told S' O n k := by
  induction ht with
  | given h => exact .given h
  | @base n b k spec sp _ h1 h2 h3 ih =>
    obtain ⟨spec', g1, _, g3⟩ := h.symm.some h1
    obtain ⟨sp', g4, g5, _⟩ := h.symm.some h3
    rw [← g5]
    exact .base ih g1 (g3.trans h2) g4

theorem Stated.alike {S S' : Schema F} (h : UtilIO.Alike S S') {obs : ObsMap String} {enc : Encoding} {n : String} {k : Items} (ht : Stated S obs enc n k) :
    Stated S' obs enc n k := by
  obtain ⟨spec, names, h1, h2, h3⟩ := ht
  obtain ⟨sp, g1, g2, _⟩ := h.symm.some h1
  exact ⟨sp, names, g1, told_alike h h2, by rw [g2]; exact h3⟩

theorem Mentions.alike {S S' : Schema F} (h : UtilIO.Alike S S') {obs : ObsMap String} {n d x : String} (ht : Mentions S obs n d x) : Mentions S' obs n d x := by
  obtain ⟨spec, names, h1, h2, h3⟩ := ht
  obtain ⟨sp, g1, g2, _⟩ := h.symm.some h1
  exact ⟨sp, names, g1, told_alike h h2, by rw [g2]; exact h3⟩

theorem UtilIO.Codes.uses {enc : Encoding} {ds names : List String} {k : Items} (h : Codes enc ds names k) {d : String} {i : Int} :
    Uses ds d i k ↔ ∃ x, (d, x) ∈ ds.zip names ∧ Encoding.code enc d x = some i := by
  unfold Uses
  constructor
  · intro hu
    obtain ⟨j, hj⟩ := List.mem_iff_getElem?.mp hu
    rw [List.getElem?_zip_eq_some] at hj
    have hlt : j < names.length := by
      rw [← h.1]; exact (List.getElem?_eq_some_iff.mp hj.2).1
    obtain ⟨d', g1, g2⟩ := h.2 j names[j] i (List.getElem?_eq_getElem hlt) hj.2
    rw [hj.1] at g1; cases g1
    exact ⟨names[j], List.mem_iff_getElem?.mpr ⟨j, List.getElem?_zip_eq_some.mpr ⟨hj.1, List.getElem?_eq_getElem hlt⟩⟩, g2⟩
  · rintro ⟨x, hx, hc⟩
    obtain ⟨j, hj⟩ := List.mem_iff_getElem?.mp hx
    rw [List.getElem?_zip_eq_some] at hj
    have hlt : j < k.length := by
      rw [h.1]; exact (List.getElem?_eq_some_iff.mp hj.2).1
    obtain ⟨d', g1, g2⟩ := h.2 j x k[j] hj.2 (List.getElem?_eq_getElem hlt)
    rw [hj.1] at g1; cases g1
    rw [hc] at g2; cases g2
    exact List.mem_iff_getElem?.mpr ⟨j, List.getElem?_zip_eq_some.mpr ⟨hj.1, List.getElem?_eq_getElem hlt⟩⟩

/-- what is stored is what is stated -/
theorem stated_of_told {S : Schema F} (hp : ∀ n spec b sp, S.find? n = some spec → spec.base? = some b → S.find? b = some sp → sp.doms <+: spec.doms)
    {obs : ObsMap String} {enc : Encoding} {e : ObsMap Int} {t t' : Tape} (h : encodeObservations S obs enc t = .ok (e, t')) {st : String → Items → Prop}
    (hst : ∀ n k, st n k ↔ Told S (Encoded e) n k) (hin : ∀ n k, st n k → ∃ spec, S.find? n = some spec) (n : String) (k : Items) : st n k ↔ Stated S obs enc n k := by
  constructor
  · intro hk
    obtain ⟨spec, hn⟩ := hin n k hk
    obtain ⟨names, h1, h2⟩ := (told_names hp h hn k).mp ((hst n k).mp hk)
    exact ⟨spec, names, hn, h1, h2⟩
  · rintro ⟨spec, names, hn, h1, h2⟩
    exact (hst n k).mpr ((told_names hp h hn k).mpr ⟨names, h1, h2⟩)

theorem IRM.Tidy.stored {I : IRM F} (h : I.Tidy) {n : String} {k : Items} (hk : I.stores n k = true) : ∃ spec, I.schema.find? n = some spec := by
  unfold IRM.stores IRM.dataOf at hk
  cases hx : I.rels.find? n with
  | none => rw [hx] at hk; cases hk
  | some x =>
    obtain ⟨_, spec, h2, _⟩ := h n x hx
    exact ⟨spec, h2⟩

theorem HIRM.Tidy.stored {H : HIRM F} (h : H.Tidy) {n : String} {k : Items} (hk : H.stores n k = true) : ∃ spec, H.schema.find? n = some spec := by
  unfold HIRM.stores HIRM.dataOf at hk
  cases hx : H.relOf n with
  | none => rw [hx] at hk; cases hk
  | some x =>
    obtain ⟨spec, h2, _⟩ := h.relOf hx
    exact ⟨spec, h2⟩

/-- the entities of the stored tuples are those that the observations mention -/
theorem IRM.fed_iff {I : IRM F} {S : Schema F} {obs : ObsMap String} {enc : Encoding} (hs : I.schema = S) (h : ∀ n k, I.stores n k = true ↔ Stated S obs enc n k)
    (hcode : ∀ n spec names, S.find? n = some spec → Told S (InFile obs) n names → ∃ k, Codes enc spec.doms names k) (d : String) (i : Int) :
    I.Fed d i ↔ ∃ n x, Mentions S obs n d x ∧ Encoding.code enc d x = some i := by
  constructor
  · rintro ⟨n, spec, k, h1, h2, h3⟩
    rw [hs] at h1
    obtain ⟨sp, names, g1, g2, g3⟩ := (h n k).mp h2
    rw [h1] at g1; cases g1
    obtain ⟨x, hx, hc⟩ := g3.uses.mp h3
    exact ⟨n, x, ⟨spec, names, h1, g2, hx⟩, hc⟩
  · rintro ⟨n, x, ⟨spec, names, h1, h2, h3⟩, hc⟩
    obtain ⟨k, hk⟩ := hcode n spec names h1 h2
    exact ⟨n, spec, k, by rw [hs]; exact h1, (h n k).mpr ⟨spec, names, h1, h2, hk⟩, hk.uses.mpr ⟨x, h3, hc⟩⟩

theorem HIRM.fed_iff {H : HIRM F} {S : Schema F} {obs : ObsMap String} {enc : Encoding} (hs : H.schema = S) (h : ∀ n k, H.stores n k = true ↔ Stated S obs enc n k)
    (hcode : ∀ n spec names, S.find? n = some spec → Told S (InFile obs) n names → ∃ k, Codes enc spec.doms names k) (tb : Int) (d : String) (i : Int) :
    H.Fed tb d i ↔ ∃ n x, H.tableOf n = some tb ∧ Mentions S obs n d x ∧ Encoding.code enc d x = some i := by
  constructor
  · rintro ⟨n, spec, k, h0, h1, h2, h3⟩
    rw [hs] at h1
    obtain ⟨sp, names, g1, g2, g3⟩ := (h n k).mp h2
    rw [h1] at g1; cases g1
    obtain ⟨x, hx, hc⟩ := g3.uses.mp h3
    exact ⟨n, x, h0, ⟨spec, names, h1, g2, hx⟩, hc⟩
  · rintro ⟨n, x, h0, ⟨spec, names, h1, h2, h3⟩, hc⟩
    obtain ⟨k, hk⟩ := hcode n spec names h1 h2
    exact ⟨n, spec, k, h0, by rw [hs]; exact h1, (h n k).mpr ⟨spec, names, h1, h2, hk⟩, hk.uses.mpr ⟨x, h3, hc⟩⟩

/-- told tuples of names have codes, once the observations have been encoded -/
theorem told_codes {S : Schema F} (hp : ∀ n spec b sp, S.find? n = some spec → spec.base? = some b → S.find? b = some sp → sp.doms <+: spec.doms)
    {obs : ObsMap String} {enc : Encoding} {e : ObsMap Int} {t t' : Tape} (h : encodeObservations S obs enc t = .ok (e, t')) {n : String} {names : List String}
    (hk : Told S (InFile obs) n names) : ∀ spec, S.find? n = some spec → ∃ k, Codes enc spec.doms names k := by
  obtain ⟨g1, _⟩ := encode_facts h
  induction hk with
  | @given n names hk =>
    intro spec hn
    obtain ⟨l, hl, v, hv⟩ := hk
    obtain ⟨spec', cs, k1, k2, _⟩ := g1 n l hl
    rw [hn] at k1; cases k1
    obtain ⟨c, _, hc⟩ := forall₂_mem_left k2 hv
    exact ⟨c.1, encObs_codes hc⟩
  | @base n b names spec' sp hk k1 k2 k3 ih =>
    intro spec hn
    rw [hn] at k3; cases k3
    obtain ⟨k', a⟩ := ih spec' k1
    exact ⟨_, a.take (hp n spec' b sp k1 k2 hn)⟩

/-- the entities of what is told have codes -/
def Coded (S : Schema F) (obs : ObsMap String) (enc : Encoding) : Prop :=
  ∀ n spec names, S.find? n = some spec → Told S (InFile obs) n names → ∃ k, Codes enc spec.doms names k

/-! ### The IRM -/

theorem IRM.addAll_start {schema : Schema F} {I : IRM F} (h : IRM.addAll schema.entries 0 {} = .ok I) :
    I.schema = schema ∧ IRM.Known (fun _ _ => False) I ∧ I.Named ∧ ∀ n k, ¬ I.stores n k = true := by
  have k : IRM.Known (fun _ _ => False) I := .addAll _ _ _ _ IRM.known_empty h
  obtain ⟨hs, h5, h6⟩ := IRM.addAll_result schema.entries 0 {} I IRM.skel_empty schema.nodupKeys h
  have e : I.schema = schema := by
    apply FMap.ext
    intro n
    cases hn : schema.find? n with
    | some spec => exact (h6 n spec (FMap.mem_entries.mpr hn)).1
    | none =>
      refine (h5 n (fun hm => ?_)).1
      obtain ⟨y, hy, rfl⟩ := List.mem_map.mp hm
      rw [FMap.mem_entries.mp hy] at hn
      cases hn
  refine ⟨e, k, IRM.Named.addAll _ _ _ _ .empty h, fun n k' hk => ?_⟩
  obtain ⟨spec, hsp⟩ := k.tidy.stored hk
  rw [e] at hsp
  obtain ⟨_, id, r, hr, _, hd⟩ := h6 n spec (FMap.mem_entries.mpr hsp)
  unfold IRM.stores IRM.dataOf at hk
  rw [hr] at hk
  replace hk : r.data.contains k' = true := hk
  rw [hd] at hk
  cases hk

theorem IRM.Known.any {Q : String → Int → Prop} {I : IRM F} (h : IRM.Known Q I) : IRM.Known (fun _ _ => True) I :=
  ⟨h.tidy, fun d dom hd => ⟨(h.seats d dom hd).1, fun _ _ => trivial⟩, h.links⟩

/-- reading the observations into an IRM without values -/
theorem IRM.read_observations {parse : F.C ⊕ F.E → String → Res V} {I : IRM F} {Q : String → Int → Prop} (hk : IRM.Known Q I) (hN : I.Named)
    (h0 : ∀ n k, ¬ I.stores n k = true)
    (hp : ∀ n spec b sp, I.schema.find? n = some spec → spec.base? = some b → I.schema.find? b = some sp → sp.doms <+: spec.doms)
    {enc : Encoding} {obs : ObsMap String} {t : Tape} {x : IRM F × Tape} (hc : incorporateObservations (IRM.host F) parse I enc obs t = .ok x) :
    x.1.schema = I.schema ∧ (∀ n k, x.1.stores n k = true ↔ Stated I.schema obs enc n k) ∧ IRM.Known (fun _ _ => True) x.1 ∧ IRM.Filled I.doms x.1 ∧
      (∀ d i, x.1.Fed d i ↔ ∃ n y, Mentions I.schema obs n d y ∧ Encoding.code enc d y = some i) ∧ Coded I.schema obs enc := by
  obtain ⟨⟨⟨a, _⟩, f⟩, b, e, t', he, hst⟩ := (IRM.filled_host I.doms).observations (m := I)
    ⟨⟨hk.any, hN, fun n b spec sp k _ _ _ h4 => absurd h4 (h0 n k)⟩, IRM.filled_start h0⟩ h0 hk.links hc
  replace b : x.1.schema = I.schema := b
  replace hst : ∀ n k, x.1.stores n k = true ↔ Told I.schema (Encoded e) n k := hst
  have hs := stated_of_told hp he hst (fun n k h => by rw [← b]; exact a.tidy.stored h)
  exact ⟨b, hs, a, f, IRM.fed_iff b hs (fun n spec names h1 h2 => told_codes hp he h2 spec h1), fun n spec names h1 h2 => told_codes hp he h2 spec h1⟩

/-- `from_txt` for an IRM -/
theorem irmFromTxt_filled {parse : F.C ⊕ F.E → String → Res V} {schema : Schema F} {obs : ObsMap String} {cl : Clusters} {t : Tape} {x : IRM F × Tape}
    (hp : ∀ n spec b sp, schema.find? n = some spec → spec.base? = some b → schema.find? b = some sp → sp.doms <+: spec.doms)
    (hc : irmFromTxt parse schema obs cl t = .ok x) :
    ∃ enc t' σ₀, calculateEncoding schema obs t = .ok (enc, t') ∧ x.1.schema = schema ∧ Placed enc cl σ₀ ∧ IRM.Filled σ₀ x.1 ∧
      (∀ n k, x.1.stores n k = true ↔ Stated schema obs enc n k) ∧ (∀ d i, x.1.Fed d i ↔ ∃ n y, Mentions schema obs n d y ∧ Encoding.code enc d y = some i) ∧ IRM.Known (fun _ _ => True) x.1 := by
  obtain ⟨⟨enc, t1⟩, h1, hc⟩ := bind_ok.mp hc
  obtain ⟨I, h2, hc⟩ := bind_ok.mp hc
  obtain ⟨⟨σ, t2⟩, h3, hc⟩ := bind_ok.mp hc
  obtain ⟨e, k, hN, h0⟩ := IRM.addAll_start h2
  have hpl := seatClusters_placed k.seats h3
  have hkn : IRM.Known (fun _ _ => True) { I with doms := σ } := k.any.reseat (seatClusters_seated (fun _ _ _ _ => trivial) _ _ _ _ k.any.seats h3)
  obtain ⟨a, b, kn, c, d, _⟩ := IRM.read_observations hkn (I := { I with doms := σ }) (fun n x hx => hN n x hx) h0
    (by show ∀ n spec b sp, I.schema.find? n = _ → _; rw [e]; exact hp) hc
  replace a : x.1.schema = I.schema := a
  replace b : ∀ n k, x.1.stores n k = true ↔ Stated I.schema obs enc n k := b
  replace d : ∀ d i, x.1.Fed d i ↔ ∃ n y, Mentions I.schema obs n d y ∧ Encoding.code enc d y = some i := d
  rw [e] at a b d
  exact ⟨enc, t1, σ, h1, a, hpl, c, b, d, kn⟩

/-! ### The HIRM -/

theorem HIRM.read_observations {parse : F.C ⊕ F.E → String → Res V} {H : HIRM F} {Q : String → Int → Prop} (hk : HIRM.Known Q H) (hN : H.Named)
    (h0 : ∀ n k, ¬ H.stores n k = true)
    (hp : ∀ n spec b sp, H.schema.find? n = some spec → spec.base? = some b → H.schema.find? b = some sp → sp.doms <+: spec.doms)
    {enc : Encoding} {obs : ObsMap String} {t : Tape} {x : HIRM F × Tape} (hc : incorporateObservations (HIRM.host F) parse H enc obs t = .ok x) :
    x.1.schema = H.schema ∧ (∀ n k, x.1.stores n k = true ↔ Stated H.schema obs enc n k) ∧ HIRM.Known (fun _ _ => True) x.1 ∧ HIRM.Filled H x.1 ∧
      (∀ tb d i, x.1.Fed tb d i ↔ ∃ n y, x.1.tableOf n = some tb ∧ Mentions H.schema obs n d y ∧ Encoding.code enc d y = some i) ∧ Coded H.schema obs enc := by
  obtain ⟨⟨⟨a, _⟩, f⟩, b, e, t', he, hst⟩ := (HIRM.filled_host H.crp H).observations (m := H)
    ⟨⟨hk.mono (fun _ _ _ => trivial), hN, fun n b spec sp k _ _ _ h4 => absurd h4 (h0 n k), rfl⟩, HIRM.filled_start h0⟩ h0 hk.links hc
  replace b : x.1.schema = H.schema := b
  replace hst : ∀ n k, x.1.stores n k = true ↔ Told H.schema (Encoded e) n k := hst
  have hs := stated_of_told hp he hst (fun n k h => by rw [← b]; exact a.tidy.stored h)
  exact ⟨b, hs, a, f, HIRM.fed_iff b hs (fun n spec names h1 h2 => told_codes hp he h2 spec h1), fun n spec names h1 h2 => told_codes hp he h2 spec h1⟩

namespace UtilIO
open HIRM

theorem addAside_start {schema : Schema F} {t : Tape} {x : HIRM F × Tape} (h : addAside schema.entries {} t = .ok x) : Aside x.1 ∧ x.1.schema = schema := by
  have h0 : Aside ({} : HIRM F) :=
    { known := known_empty
      named := by intro tb I hI; cases hI
      tables := by intro n tb hn; cases hn
      empty := by intro n k hk; cases hk }
  obtain ⟨a, _, c⟩ := addAside_aside _ _ _ _ h0 h
  obtain ⟨_, b⟩ := addAside_loading (Q := fun _ _ => False) _ _ _ _ ⟨known_empty, fun i tb h => by cases h⟩ h
  refine ⟨a, ?_⟩
  apply FMap.ext
  intro n
  cases hn : schema.find? n with
  | some spec => exact c n spec (FMap.mem_entries.mpr hn)
  | none =>
    cases hx : x.1.schema.find? n with
    | none => rfl
    | some sp =>
      rcases b n sp hx with h | h
      · cases h
      · rw [FMap.mem_entries.mp h] at hn; cases hn

theorem reseat_stores {H : HIRM F} {table : Int} {I : IRM F} (hI : H.irms.find? table = some I) (σ : Doms) (n : String) (k : Items) :
    stores { H with irms := H.irms.set table { I with doms := σ } } n k = H.stores n k := by
  refine stores_congr ?_ k
  unfold dataOf relOf
  cases hT : H.tableOf n with
  | none =>
    have : tableOf { H with irms := H.irms.set table { I with doms := σ } } n = none := hT
    rw [this]; rfl
  | some u =>
    have : tableOf { H with irms := H.irms.set table { I with doms := σ } } n = some u := hT
    rw [this]
    show Option.map _ (Option.bind ((H.irms.set table _).find? u) _) = Option.map _ (Option.bind (H.irms.find? u) _)
    rw [FMap.find?_set]
    split
    · rename_i e; subst e; rw [hI]; rfl
    · rfl

/-- whatever the file says, moving relations stores nothing -/
theorem seatIrms_plain {fwd : FMap String (FMap String Int)} {irms : FMap Int Clusters} : ∀ (l : List (Int × List String)) (H : HIRM F) (t : Tape) (x : HIRM F × Tape),
    HIRM.Known (fun _ _ => True) H → H.Named → (∀ n k, ¬ H.stores n k = true) → seatIrms fwd irms l H t = .ok x →
    HIRM.Known (fun _ _ => True) x.1 ∧ x.1.Named ∧ (∀ n k, ¬ x.1.stores n k = true) ∧ x.1.schema = H.schema := by
  have hmove : ∀ (table : Int) (l : List String) (H : HIRM F) (t : Tape) (x : HIRM F × Tape), HIRM.Known (fun _ _ => True) H → H.Named →
      (∀ n k, ¬ H.stores n k = true) → moveAll table l H t = .ok x →
      HIRM.Known (fun _ _ => True) x.1 ∧ x.1.Named ∧ (∀ n k, ¬ x.1.stores n k = true) ∧ x.1.schema = H.schema := by
    intro table l
    induction l with
    | nil => intro H t x h hN h0 hc; cases hc; exact ⟨h, hN, h0, rfl⟩
    | cons r l ih =>
      intro H t x h hN h0 hc
      obtain ⟨_, _, hc⟩ := bind_ok.mp hc
      obtain ⟨cur, hcur, hc⟩ := bind_ok.mp hc
      split at hc
      · obtain ⟨_, _, hc⟩ := bind_ok.mp hc
        obtain ⟨⟨H₁, t₁⟩, h2, hc⟩ := bind_ok.mp hc
        obtain ⟨_, hm⟩ := setClusterAssignmentGibbs_skel h.tidy.skel h2
        obtain ⟨a, b, c, d⟩ := ih _ _ _ (h.set h2) (hN.set h h2) (fun n k => by rw [stores_congr (hm.data n)]; exact h0 n k) hc
        exact ⟨a, b, c, d.trans hm.schema⟩
      · exact ih _ _ _ h hN h0 hc
  intro l
  induction l with
  | nil => intro H t x h hN h0 hc; cases hc; exact ⟨h, hN, h0, rfl⟩
  | cons e l ih =>
    obtain ⟨table, rs⟩ := e
    intro H t x h hN h0 hc
    obtain ⟨_, _, hc⟩ := bind_ok.mp hc
    obtain ⟨⟨H₁, t₁⟩, h1, hc⟩ := bind_ok.mp hc
    obtain ⟨I, h2, hc⟩ := bind_ok.mp hc
    obtain ⟨cl, h3, hc⟩ := bind_ok.mp hc
    obtain ⟨_, _, hc⟩ := bind_ok.mp hc
    obtain ⟨⟨σ, t₂⟩, h4, hc⟩ := bind_ok.mp hc
    obtain ⟨a, b, c, d⟩ := hmove table rs H t _ h hN h0 h1
    have hI : H₁.irms.find? table = some I := FMap.atKey_ok.mp h2
    have hseat : DomAll (SeatedIn (fun _ _ => True)) σ := by
      refine (fun d dom hd => ⟨?_, fun _ _ => trivial⟩)
      have := seatClusters_seated (enc := { fwd := fwd, rev := ∅ }) (Q := fun _ _ => True) (fun _ _ _ _ => trivial) _ _ _ _ (a.seats _ _ hI) h4
      exact (this d dom hd).1
    obtain ⟨a', b', c', d'⟩ := ih _ _ _ (a.reseat hI hseat) (b.setIrm (fun n x hx => b table I hI n x hx)) (fun n k hk => c n k (by rw [← hk]; exact (reseat_stores hI σ n k).symm)) hc
    exact ⟨a', b', c', d'.trans d⟩

/-- `from_txt` for an HIRM: what is stored -/
theorem hirmFromTxt_stores {parse : F.C ⊕ F.E → String → Res V} {schema : Schema F} {obs : ObsMap String} {relations : FMap Int (List String)}
    {irms : FMap Int Clusters} {t : Tape} {x : HIRM F × Tape}
    (hp : ∀ n spec b sp, schema.find? n = some spec → spec.base? = some b → schema.find? b = some sp → sp.doms <+: spec.doms)
    (hc : hirmFromTxt parse schema obs relations irms t = .ok x) :
    ∃ enc t', calculateEncoding schema obs t = .ok (enc, t') ∧ x.1.schema = schema ∧ HIRM.Known (fun _ _ => True) x.1 ∧
      ∀ n k, x.1.stores n k = true ↔ Stated schema obs enc n k := by
  obtain ⟨⟨enc, t1⟩, h1, hc⟩ := bind_ok.mp hc
  obtain ⟨⟨H₁, t₂⟩, h2, hc⟩ := bind_ok.mp hc
  obtain ⟨⟨H₂, t₃⟩, h3, hc⟩ := bind_ok.mp hc
  obtain ⟨_, h4, hc⟩ := bind_ok.mp hc
  obtain ⟨a, b⟩ := addAside_start h2
  obtain ⟨k, hN, h0, hs⟩ := seatIrms_plain _ _ _ _ (a.known.mono (fun _ _ _ => trivial)) a.named a.empty h3
  have e : H₂.schema = schema := hs.trans b
  obtain ⟨p, q, r, _⟩ := HIRM.read_observations k hN h0 (by rw [e]; exact hp) hc
  rw [e] at p q
  exact ⟨enc, t1, h1, p, r, q⟩

/-- `from_txt` for an HIRM: who is where -/
theorem hirmFromTxt_filled {parse : F.C ⊕ F.E → String → Res V} {schema : Schema F} {obs : ObsMap String} {relations : FMap Int (List String)}
    {irms : FMap Int Clusters} {t : Tape} {x : HIRM F × Tape}
    (hp : ∀ n spec b sp, schema.find? n = some spec → spec.base? = some b → schema.find? b = some sp → sp.doms <+: spec.doms)
    (hr : ∀ tb, relations.contains tb = true → 0 ≤ tb)
    (hone : ∀ tb tb' l l' n, relations.find? tb = some l → relations.find? tb' = some l' → n ∈ l → n ∈ l' → tb = tb')
    (hc : hirmFromTxt parse schema obs relations irms t = .ok x) :
    ∃ enc t', calculateEncoding schema obs t = .ok (enc, t') ∧ x.1.schema = schema ∧ (∀ n k, x.1.stores n k = true ↔ Stated schema obs enc n k) ∧
      (∀ n tb, x.1.tableOf n = some tb ↔ ∃ l, relations.find? tb = some l ∧ n ∈ l) ∧
      ∀ tb I, x.1.irms.find? tb = some I → ∃ cl σ₀, irms.find? tb = some cl ∧ Placed enc cl σ₀ ∧ Joins (x.1.Fed tb) σ₀ I.doms ∧
        (∀ d i, x.1.Fed tb d i → Seated I.doms d i) ∧
        ∀ d i, x.1.Fed tb d i ↔ ∃ n y, x.1.tableOf n = some tb ∧ Mentions schema obs n d y ∧ Encoding.code enc d y = some i := by
  obtain ⟨⟨enc, t1⟩, h1, hc⟩ := bind_ok.mp hc
  obtain ⟨⟨H₁, t₂⟩, h2, hc⟩ := bind_ok.mp hc
  obtain ⟨⟨H₂, t₃⟩, h3, hc⟩ := bind_ok.mp hc
  obtain ⟨_, h4, hc⟩ := bind_ok.mp hc
  obtain ⟨a, b⟩ := addAside_start h2
  have hm : ∀ e, e ∈ relations.entries → relations.find? e.1 = some e.2 := fun e he => FMap.mem_entries.mp he
  obtain ⟨s, hs⟩ := seatIrms_seating (enc := enc) (irms := irms) relations.entries [] H₁ t₂ _ (fun e he => hr e.1 (FMap.contains_iff.mpr ⟨_, hm e (by simpa using he)⟩))
    relations.nodupKeys (fun e he e' he' n hn hn' => hone e.1 e'.1 _ _ n (hm e (by simpa using he)) (hm e' (by simpa using he')) hn hn')
    ⟨a.known.mono (fun _ _ _ => trivial), a.named, a.empty, fun tb I hI _ => a.known.seats tb I hI, by simp, fun n tb hn => .inl (a.tables n tb hn), by simp⟩ h3
  rw [List.nil_append] at s
  have e : H₂.schema = schema := hs.trans b
  obtain ⟨p, q, r, f, g, _⟩ := HIRM.read_observations s.known s.named s.empty (by rw [e]; exact hp) hc
  rw [e] at p q g
  have hno : ∀ n, H₂.tableOf n ≠ some (-1) := by
    intro n hn
    obtain ⟨I, hI, _⟩ := s.known.tidy.skel.irm hn
    have := assertR_ok.mp h4
    rw [FMap.contains_iff.mpr ⟨I, hI⟩] at this
    cases this
  refine ⟨enc, t1, h1, p, q, fun n tb => ?_, fun tb I hI => ?_⟩
  · rw [f.tables]
    constructor
    · intro hn
      rcases s.at_ n tb hn with rfl | ⟨rs, h1, h2⟩
      · exact absurd hn (hno n)
      · exact ⟨rs, FMap.mem_entries.mp h1, h2⟩
    · rintro ⟨l, hl, hn⟩
      exact s.listed tb l (FMap.mem_entries.mpr hl) n hn
  · obtain ⟨I₀, k1, k2, k3⟩ := f.irms tb I hI
    obtain ⟨n, hn⟩ : ∃ n, H₂.tableOf n = some tb := (s.known.tidy.skel.inhabited k1).imp (fun n hn => (s.known.tidy.skel.place tb I₀ k1 n).mp hn)
    rcases s.at_ n tb hn with rfl | ⟨rs, h1, h2⟩
    · exact absurd hn (hno n)
    · obtain ⟨J, cl, g1, g2, g3⟩ := s.done tb rs h1
      rw [k1] at g1; cases g1
      exact ⟨cl, _, g2, g3, k2, k3, g tb⟩

end UtilIO

theorem HIRM.Firm.sampleAt {H H' : HIRM F} (h : H.Firm) {r : String} {items : Items} {v : V} {t t' : Tape}
    (hc : H.sampleAt r items t = .ok (v, H', t')) : H'.Firm := by
  obtain ⟨⟨tb, I⟩, h1, hc⟩ := bind_ok.mp hc
  obtain ⟨⟨id, rel⟩, h2, hc⟩ := bind_ok.mp hc
  obtain ⟨⟨v, rel', t₁⟩, h3, hc⟩ := bind_ok.mp hc
  cases hc
  have hr : Rel.Next rel rel' ∧ rel'.data = rel.data := by
    cases rel with
    | clean c q =>
      obtain ⟨⟨_, q', _⟩, h4, h3⟩ := bind_ok.mp h3
      cases h3
      exact Rel.next_clean (CleanRel.sampleAtItems_same h4)
    | noisy e p q =>
      obtain ⟨b, _, h3⟩ := bind_ok.mp h3
      obtain ⟨⟨_, _⟩, h4, h3⟩ := bind_ok.mp h3
      cases h3
      exact ⟨.refl _, rfl⟩
  exact h.setRel (relationToIrm_ok.mp h1).2 (FMap.atKey_ok.mp h2) hr.1 (fun k hk => by rw [← hr.2]; exact hk)

theorem HIRM.Firm.observations {parse : F.C ⊕ F.E → String → Res V} {H : HIRM F} (h : H.Firm) {Q : String → Int → Prop} (hk : HIRM.Known Q H) (hN : H.Named)
    (h0 : ∀ n k, ¬ H.stores n k = true) {enc : Encoding} {obs : ObsMap String} {t : Tape} {x : HIRM F × Tape}
    (hc : incorporateObservations (HIRM.host F) parse H enc obs t = .ok x) : x.1.Firm :=
  (((HIRM.stores_host H.crp).and (P := HIRM.Firm) (fun _ h hc => HIRM.Firm.incorporate h hc) (fun _ h hc => HIRM.Firm.sampleAt h hc)).observations (m := H)
    ⟨⟨hk.mono (fun _ _ _ => trivial), hN, fun n b spec sp k _ _ _ h4 => absurd h4 (h0 n k), rfl⟩, h⟩ h0 hk.links hc).1.2

theorem UtilIO.numbers {S : Schema F} {obs : ObsMap String} {t t' : Tape} {enc : Encoding} (h : calculateEncoding S obs t = .ok (enc, t')) : Numbers S obs enc :=
  fun d => ⟨(C32_bijection h d).1, (C32_bijection h d).2.2.1⟩

theorem Numbers.alike {S S' : Schema F} (h : Alike S S') {obs : ObsMap String} {enc : Encoding} (hn : Numbers S obs enc) : Numbers S' obs enc :=
  fun d => ⟨(hn d).1, fun x => ((hn d).2 x).trans
    ⟨occurs_alike h (fun r l hl => ⟨l, hl, fun o ho => ho⟩), occurs_alike h.symm (fun r l hl => ⟨l, hl, fun o ho => ho⟩)⟩⟩

end
end Verif
