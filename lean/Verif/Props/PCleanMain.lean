import Verif.Lemmas.PCleanMain
import Verif.Props.GenDBHistory
import Verif.Props.GenDBClusters
import Verif.Props.PCleanLib
/-!
C74: a run of the program `pclean`.
-/
namespace Verif
namespace PCleanMain
open PClean GenDB UtilIO
noncomputable section
variable {V : Type} {F : Family V} {w : World} {hash : String → Int} {a : Args} {s : PClean.Schema} {df : DataFrame} {m : Nat}

theorem makeDB_schema {R : Reader F} {ok : Bool} (hs : readSchema a.schema PClean.Schema.empty = .ok (ok, s)) (t : Tape) :
    makeDB R a t = GenDB.make s R.hash R.mkC R.mkE a.clean a.finalOnly t := by
  unfold makeDB
  rw [hs]
  rfl

/-- what loading leaves, with the rows -/
theorem Proper.load (hw : w.Readable) (h : Proper w hash a s df m) (t : Tape) :
    ∃ D₀ t₁ rows D t', makeDB (reader w hash) a t = .ok (D₀, t₁) ∧ PCleanMain.load (reader w hash) a t = .ok ((df, D), t') ∧ Loaded (priorLaws w) D₀ rows D ∧
      (∀ x ∈ rows, ∃ j < m, IsRow D₀ (reader w hash).parse df j x) ∧ ∀ j < m, ∃ x ∈ rows, IsRow D₀ (reader w hash).parse df j x := by
  obtain ⟨ok, hs⟩ := h.schema
  obtain ⟨D₀, t₁, hmk⟩ := h.proper.make t
  have hm := make_spec (priorLaws w) h.proper.fine hmk
  obtain ⟨rows, D, t', h1, h2, h3, h4⟩ := incorporateRows_ok (samples_priors (w := w)) h.proper.fine hmk (h.proper.compatible hw hmk) h.proper.distinct h.proper.indexed
    h.table.rect (h.table.legible h.proper hmk) (Nat.le_refl _) m 0 [] D₀ t₁ (by omega) .nil (fun x hx => by cases hx) (fun j hj => by omega)
  have hdb : makeDB (reader w hash) a t = .ok (D₀, t₁) := (makeDB_schema hs t).trans hmk
  have hobs : D₀.incorporateObservations (depth D₀.schema) (reader w hash).parse df t₁ = .ok (D, t') := by
    obtain ⟨q, col, hq⟩ := h.table.columns
    have hmem := FMap.mem_entries.mpr hq
    rw [hm.schema]
    unfold DB.incorporateObservations
    cases he : df.data.entries with
    | nil => rw [he] at hmem; cases hmem
    | cons x l =>
      dsimp only
      rw [h.table.rect x.1 x.2 (FMap.mem_entries.mp (by rw [he]; exact List.mem_cons_self ..))]
      exact h1
  refine ⟨D₀, t₁, rows, D, t', hdb, ?_, h2, h3, h4⟩
  unfold PCleanMain.load
  rw [hdb]
  show (DataFrame.fromCsv a.obs >>= _) = _
  rw [h.obs]
  show (D₀.incorporateObservations (depth D₀.schema) (reader w hash).parse df t₁ >>= _) = _
  rw [hobs]
  rfl

theorem infer_inferred {D D' : DB F} {t t' : Tape} (h : infer a D t = .ok (D', t')) : Inferred D D' := by
  unfold infer at h
  split at h
  · exact .iter .nil h
  · obtain ⟨⟨H, t₁⟩, h1, h⟩ := bind_ok.mp h
    cases h
    exact .rels .nil h1

/-- **C74**: with proper files every run of `pclean` gets as far as inference, whatever the draws. -/
theorem C74_loads (hw : w.Readable) (h : Proper w hash a s df m) (t : Tape) : ∃ D t', load (reader w hash) a t = .ok ((df, D), t') := by
  obtain ⟨_, _, _, D, t', _, h1, _⟩ := h.load hw t
  exact ⟨D, t', h1⟩

/-- **C74**: when inference has ended, then the relation of each query field has exactly the values that the cells of its column mean, each at the tuple that
the references of its row lead to. -/
theorem C74_data (hw : w.Readable) (h : Proper w hash a s df m) {t t' : Tape} {df' : DataFrame} {D : DB (priors w)}
    (hr : fit (reader w hash) a t = .ok ((df', D), t')) {q : String} {f : QueryField} (hq : s.query.fields.find? q = some f) (k : Items) (v : Value) :
    D.H.value q k = some v ↔ ∃ i < m, CellMeans w s df q i v ∧ TupleOf s D.ents q i k := by
  obtain ⟨D₀, t₁, rows, D₁, t₂, h1, h2, h3, h4, h5⟩ := h.load hw t
  obtain ⟨ok, hs⟩ := h.schema
  rw [makeDB_schema hs] at h1
  obtain ⟨⟨⟨df'', D₂⟩, t₃⟩, k1, k2⟩ := bind_ok.mp hr
  rw [h2] at k1
  cases k1
  obtain ⟨⟨D₃, t₄⟩, k3, k4⟩ := bind_ok.mp k2
  cases k4
  have hcell := h.table.cellValue h.proper h1
  obtain ⟨g1, g2⟩ := C69_data (samples_priors (w := w)) h.proper.fine h1 (h.proper.compatible hw h1) h.proper.indexed h3 (infer_inferred k3) hq
  constructor
  · intro hv
    obtain ⟨x, hx, e1, e2⟩ := g2 k v hv
    obtain ⟨j, hj, hrow⟩ := h4 x hx
    exact ⟨j, hj, (hcell q j v).mp ((hrow.vals q v).mp e1), by rw [← hrow.id]; exact e2⟩
  · rintro ⟨i, hi, e1, e2⟩
    obtain ⟨x, hx, hrow⟩ := h5 i hi
    obtain ⟨k', e3, e4⟩ := g1 x hx v ((hrow.vals q v).mpr ((hcell q i v).mpr e1))
    rw [hrow.id] at e3
    have := TupleOf.fun e3 e2
    subst this
    exact e4

/-- **C74**: a run without iterations, `output`, `heldout` and `samples` ends, and nothing is saved. -/
theorem C74_ends_partial (hw : w.Readable) (h : Proper w hash a s df m) (hi : a.iters = 0) (ho : a.output = false) (hh : a.heldout = none) (hn : a.samples = 0) (t : Tape) :
    ∃ D t', run (reader w hash) a t = .ok (⟨D, none, none, none⟩, t') := by
  obtain ⟨_, _, _, D, t', _, h1, _⟩ := h.load hw t
  have hinf : infer a D t' = .ok (D, t') := by
    unfold infer
    rw [hi]
    split <;> rfl
  have hfit : fit (reader w hash) a t = .ok ((df, D), t') := by
    unfold fit
    rw [h1]
    show (infer a D t' >>= _) = _
    rw [hinf]
    rfl
  refine ⟨D, t', ?_⟩
  unfold run
  rw [hfit]
  show (save a D t' >>= _) = _
  have e1 : save a D t' = .ok (none, t') := by unfold save; rw [ho]; rfl
  rw [e1]
  show (heldout (reader w hash) a D t' >>= _) = _
  have e2 : heldout (reader w hash) a D t' = .ok (none, D, t') := by unfold heldout; rw [hh]
  rw [e2]
  show (samples (reader w hash) a df D t' >>= _) = _
  have e3 : samples (reader w hash) a df D t' = .ok (none, t') := by unfold samples; rw [hn]; rfl
  rw [e3]
  rfl

/-! ### Held-out rows -/

/-- the row has the number of a line, and a value for each query field whose cell is not empty -/
structure FromLine (D₀ : DB F) (df : DataFrame) (i : Nat) (x : Row V) : Prop where
  id : x.id = i
  asked : ∀ q v, x.vals.find? q = some v → ∃ f, D₀.schema.query.fields.find? q = some f
  vals : ∀ q f y, D₀.schema.query.fields.find? q = some f → Cell df q i y → y ≠ "" → ∃ v, x.vals.find? q = some v

theorem rowValues_line {D : DB F} {parse : F.C ⊕ F.E → String → Res V} {df : DataFrame} {i : Nat} {vals : FMap String V}
    (h : D.rowValues parse i df.data.entries ∅ = .ok vals) : FromLine D df i ⟨true, i, vals⟩ := by
  obtain ⟨vals', h1, h2⟩ := rowValues_ok (D := D) (parse := parse) (i := i) (m := ∅) df.data.nodupKeys (fun q _ => rfl) (rowValues_cells h)
  rw [h] at h1
  cases h1
  refine ⟨rfl, fun q v hv => ?_, fun q f y hq hc hy => ?_⟩
  · rcases (h2 q v).mp hv with h | ⟨_, _, _, h, _⟩
    · cases h
    · exact FMap.contains_iff.mp h
  · obtain ⟨col, c1, c2⟩ := hc
    have hcon : D.schema.query.fields.contains q = true := FMap.contains_iff.mpr ⟨f, hq⟩
    obtain ⟨x, v, h3, h4⟩ := rowValues_cells h q.toList col (FMap.mem_entries.mpr c1) (by rw [String.ofList_toList]; exact hcon)
    rw [c2] at h3
    cases h3
    have hne : y.toList ≠ [] := by
      intro he
      apply hy
      rw [← String.ofList_toList (s := y), he]
    cases v with
    | none =>
      unfold DB.cellValue at h4
      rw [if_neg (by cases hl : y.toList with | nil => exact absurd hl hne | cons a l => simp)] at h4
      split at h4
      · cases h4
      · obtain ⟨_, _, h4⟩ := bind_ok.mp h4
        obtain ⟨_, _, h4⟩ := bind_ok.mp h4
        cases h4
    | some v => exact ⟨v, (h2 q v).mpr (Or.inr ⟨col, _, FMap.mem_entries.mpr c1, hcon, c2, h4⟩)⟩

/-- rows that are incorporated into a database with a history -/
theorem incorporateRows_worked {D₀ : DB F} (hs : ∀ rows D, Worked D₀ rows D → D.schema = D₀.schema) {n : Nat} {parse : F.C ⊕ F.E → String → Res V} {df : DataFrame} :
    ∀ (k i : Nat) (rows : List (Row V)) (D : DB F) (t : Tape) (D' : DB F) (t' : Tape), Worked D₀ rows D → DB.incorporateRows n parse df k i D t = .ok (D', t') →
      ∃ new, Worked D₀ (new ++ rows) D' ∧ ∀ j, i ≤ j → j < i + k → ∃ x ∈ new, FromLine D₀ df j x := by
  intro k
  induction k with
  | zero =>
    intro i rows D t D' t' h hr
    cases hr
    exact ⟨[], h, fun j h1 h2 => by omega⟩
  | succ k ih =>
    intro i rows D t D' t' h hr
    unfold DB.incorporateRows at hr
    obtain ⟨vals, h1, hr⟩ := bind_ok.mp hr
    obtain ⟨⟨D₁, t₁⟩, h2, hr⟩ := bind_ok.mp hr
    have hl := rowValues_line h1
    have hl' : FromLine D₀ df i ⟨true, i, vals⟩ := by
      obtain ⟨a, b, c⟩ := hl
      rw [hs _ _ h] at b c
      exact ⟨a, b, c⟩
    obtain ⟨new, k1, k2⟩ := ih (i + 1) (⟨true, i, vals⟩ :: rows) D₁ t₁ D' t' (.row (x := ⟨true, i, vals⟩) h hl'.asked h2) hr
    refine ⟨new ++ [⟨true, i, vals⟩], by simpa using k1, fun j h3 h4 => ?_⟩
    by_cases hj : j = i
    · subst hj
      exact ⟨_, by simp, hl'⟩
    · obtain ⟨x, hx, hx'⟩ := k2 j (by omega) (by omega)
      exact ⟨x, by simp [hx], hx'⟩

theorem observations_worked {D₀ : DB F} (hs : ∀ rows D, Worked D₀ rows D → D.schema = D₀.schema) {n : Nat} {parse : F.C ⊕ F.E → String → Res V} {df : DataFrame}
    {rows : List (Row V)} {D D' : DB F} {t t' : Tape} (h : Worked D₀ rows D) (hr : D.incorporateObservations n parse df t = .ok (D', t')) :
    ∃ new, Worked D₀ (new ++ rows) D' ∧ ∀ j < rowCount df, ∃ x ∈ new, FromLine D₀ df j x := by
  unfold DB.incorporateObservations at hr
  unfold rowCount
  split at hr
  · cases hr
  · rename_i he
    rw [he]
    obtain ⟨new, h1, h2⟩ := incorporateRows_worked hs _ 0 rows D t D' t' h hr
    exact ⟨new, h1, fun j hj => h2 j (by omega) (by dsimp only at hj; omega)⟩

/-- the database at the end of inference -/
theorem fit_worked {R : Reader F} (hf : Fine s a.clean) (hi : Indexed s a.finalOnly) {ok : Bool} (hs : readSchema a.schema PClean.Schema.empty = .ok (ok, s))
    {t t' : Tape} {D : DB F} (hr : fit R a t = .ok ((df, D), t')) :
    ∃ D₀ t₀ rows, GenDB.make s R.hash R.mkC R.mkE a.clean a.finalOnly t = .ok (D₀, t₀) ∧ (∀ rows D, Worked D₀ rows D → D.schema = D₀.schema) ∧ Worked D₀ rows D ∧
      DataFrame.fromCsv a.obs = .ok df ∧ ∀ j < rowCount df, ∃ x ∈ rows, FromLine D₀ df j x := by
  obtain ⟨⟨⟨df', D₁⟩, t₁⟩, h1, hr⟩ := bind_ok.mp hr
  obtain ⟨⟨D₂, t₂⟩, h2, hr⟩ := bind_ok.mp hr
  cases hr
  obtain ⟨⟨D₀, t₀⟩, h3, h1⟩ := bind_ok.mp h1
  obtain ⟨df₁, h4, h1⟩ := bind_ok.mp h1
  obtain ⟨⟨D₃, t₃⟩, h5, h1⟩ := bind_ok.mp h1
  cases h1
  rw [makeDB_schema hs] at h3
  have hm := make_laid hf h3
  have hsc : ∀ rows D, Worked D₀ rows D → D.schema = D₀.schema := fun rows D h => (C65_history hf hi h3 h).1.trans hm.schema.symm
  obtain ⟨new, k1, k2⟩ := observations_worked hsc .nil h5
  rw [List.append_nil] at k1
  refine ⟨D₀, t₀, new, h3, hsc, ?_, h4, k2⟩
  unfold infer at h2
  split at h2
  · exact .iter k1 h2
  · obtain ⟨⟨H, t₆⟩, h6, h2⟩ := bind_ok.mp h2
    cases h2
    exact .rels k1 h6

/-- **C74** is false for the option `heldout`: the held-out rows get the numbers of the first rows again.  If a held-out row has a value for the query field for
which the row of the observations with the same number has one, then the run fails, whatever the distributions, the iterations and the draws. -/
theorem C74_heldout_false {R : Reader F} (hf : Fine s a.clean) (hi : Indexed s a.finalOnly) {ok : Bool} (hs : readSchema a.schema PClean.Schema.empty = .ok (ok, s))
    (ho : DataFrame.fromCsv a.obs = .ok df) {text : List Char} {df' : DataFrame} (hh : a.heldout = some text) (ht : DataFrame.fromCsv text = .ok df')
    {q : String} {f : QueryField} (hq : s.query.fields.find? q = some f) {i : Nat} {x y : String} (h1 : i < rowCount df) (h2 : i < rowCount df')
    (hx : Cell df q i x) (hx' : x ≠ "") (hy : Cell df' q i y) (hy' : y ≠ "") (t : Tape) (z : Output F × Tape) : run R a t ≠ .ok z := by
  intro hz
  obtain ⟨⟨⟨df₁, D⟩, t₁⟩, k1, hz⟩ := bind_ok.mp hz
  obtain ⟨⟨_, t₂⟩, _, hz⟩ := bind_ok.mp hz
  obtain ⟨⟨lp, D', t₃⟩, k2, hz⟩ := bind_ok.mp hz
  obtain ⟨D₀, t₀, rows, hmk, hsc, hwk, e1, hrows⟩ := fit_worked hf hi hs k1
  rw [ho] at e1
  cases e1
  unfold heldout at k2
  rw [hh] at k2
  obtain ⟨df₂, k3, k2⟩ := bind_ok.mp k2
  rw [ht] at k3
  cases k3
  obtain ⟨⟨D₂, t₄⟩, k4, k2⟩ := bind_ok.mp k2
  obtain ⟨new, g1, g2⟩ := observations_worked hsc hwk k4
  have hm := make_laid hf hmk
  have hq0 : D₀.schema.query.fields.find? q = some f := by rw [hm.schema]; exact hq
  obtain ⟨r1, m1, l1⟩ := hrows i h1
  obtain ⟨r2, m2, l2⟩ := g2 i h2
  obtain ⟨v1, u1⟩ := l1.vals q f x hq0 hx hx'
  obtain ⟨v2, u2⟩ := l2.vals q f y hq0 hy hy'
  have hap := (C69_history hf hi hmk g1).2
  exact (List.pairwise_append.mp hap).2.2 r2 m2 r1 m1 (l2.id.trans l1.id.symm) q v2 v1 u2 u1

/-! ### Output -/

/-- **C74** is false for the option `output`: if a cell of a query field is not empty then the run fails, whatever the distributions, the iterations and the draws. -/
theorem C74_output_false {R : Reader F} (hf : Fine s a.clean) (hi : Indexed s a.finalOnly) {ok : Bool} (hs : readSchema a.schema PClean.Schema.empty = .ok (ok, s))
    (ho : DataFrame.fromCsv a.obs = .ok df) (hout : a.output = true) {q : String} {f : QueryField} (hq : s.query.fields.find? q = some f) {i : Nat} {x : String}
    (h1 : i < rowCount df) (hx : Cell df q i x) (hx' : x ≠ "") (t : Tape) (z : Output F × Tape) : run R a t ≠ .ok z := by
  intro hz
  obtain ⟨⟨⟨df₁, D⟩, t₁⟩, k1, hz⟩ := bind_ok.mp hz
  obtain ⟨⟨_, t₂⟩, k2, hz⟩ := bind_ok.mp hz
  obtain ⟨D₀, t₀, rows, hmk, hsc, hwk, e1, hrows⟩ := fit_worked hf hi hs k1
  rw [ho] at e1
  cases e1
  have hm := make_laid hf hmk
  obtain ⟨r, m1, l1⟩ := hrows i h1
  obtain ⟨v, u1⟩ := l1.vals q f x (by rw [hm.schema]; exact hq) hx hx'
  unfold save at k2
  rw [hout] at k2
  obtain ⟨y, k3, _⟩ := bind_ok.mp k2
  exact C68_history_false hf hi hmk hwk m1 u1 t₁ y k3

/-! ### Samples -/

/-- **C74** is false for the option `samples` without the option `output`: the run fails. -/
theorem C74_samples_false {R : Reader F} (hn : 0 < a.samples) (ho : a.output = false) (t : Tape) (z : Output F × Tape) : run R a t ≠ .ok z := by
  intro hz
  obtain ⟨⟨⟨df₁, D⟩, t₁⟩, _, hz⟩ := bind_ok.mp hz
  obtain ⟨⟨_, t₂⟩, _, hz⟩ := bind_ok.mp hz
  obtain ⟨⟨lp, D', t₃⟩, _, hz⟩ := bind_ok.mp hz
  obtain ⟨⟨_, t₄⟩, k, _⟩ := bind_ok.mp hz
  unfold samples at k
  rw [if_pos hn, ho] at k
  cases k

/-- **C74** is false for the option `samples`, with or without the option `output`, as soon as a cell of a query field is not empty. -/
theorem C74_observed_samples_false {R : Reader F} (hf : Fine s a.clean) (hi : Indexed s a.finalOnly) {ok : Bool} (hs : readSchema a.schema PClean.Schema.empty = .ok (ok, s))
    (ho : DataFrame.fromCsv a.obs = .ok df) (hn : 0 < a.samples) {q : String} {f : QueryField} (hq : s.query.fields.find? q = some f) {i : Nat} {x : String}
    (h1 : i < rowCount df) (hx : Cell df q i x) (hx' : x ≠ "") (t : Tape) (z : Output F × Tape) : run R a t ≠ .ok z := by
  cases hout : a.output with
  | false => exact C74_samples_false hn hout t z
  | true => exact C74_output_false hf hi hs ho hout hq h1 hx hx' t z

/-! ### Concrete cases -/

/-- C74: variables of these joint distributions are modelled, whatever their parameters; those of `categorical` with a positive number `k`. -/
theorem C74_modelled (w : World) (p : FMap String String) :
    Modelled w "bool" p ∧ Modelled w "real" p ∧ Modelled w "typo_int" p ∧ Modelled w "typo_real" p ∧
    ∀ n text, p.size = 1 → p.find? "k" = some text → stoi text = .ok n → 0 < n → Modelled w "categorical" p := by
  refine ⟨⟨.bernoulli, .sometimesBitflip, ⟨⟨⟨.bernoulli, _, p⟩, rfl, rfl⟩, ⟨.sometimes_bitflip, _, p⟩, rfl, rfl⟩, trivial, fun v h => h⟩,
    ⟨.normal, .sometimesGaussian, ⟨⟨⟨.normal, _, p⟩, rfl, rfl⟩, ⟨.sometimes_gaussian, _, p⟩, rfl, rfl⟩, trivial, fun v h => h⟩,
    ⟨.stringSkellam, .bigram, ⟨⟨⟨.string_skellam, _, p⟩, rfl, rfl⟩, ⟨.bigram_string, _, p⟩, rfl, rfl⟩, trivial, ?_⟩,
    ⟨.stringNormal, .bigram, ⟨⟨⟨.string_normal, _, p⟩, rfl, rfl⟩, ⟨.bigram_string, _, p⟩, rfl, rfl⟩, trivial, ?_⟩, ?_⟩
  · rintro v ⟨x, rfl, h, _⟩
    exact ⟨x, rfl, h.2⟩
  · rintro v ⟨x, rfl, h, _⟩
    exact ⟨x, rfl, h.2⟩
  · intro n text h1 h2 h3 h4
    refine ⟨.categorical n, .sometimesCategorical n, ⟨⟨⟨.categorical, _, p⟩, rfl, ?_⟩, ⟨.sometimes_categorical, _, p⟩, rfl, ?_⟩, h4, fun v h => h⟩
    · unfold getPrior
      show (assertR (p.size == 1) >>= _) = _
      rw [h1]
      show (p.atKey "k" >>= _) = _
      rw [FMap.atKey_of_find h2]
      show (stoi text >>= _) = _
      rw [h3]
      rfl
    · unfold getEmisPrior
      show (p.atKey "k" >>= _) = _
      rw [FMap.atKey_of_find h2]
      show (stoi text >>= _) = _
      rw [h3]
      rfl

section Examples

/-- people and the cities where they live, with three observations -/
def peopleArgs : Args where
  schema := "class City\n  name ~ bool\n\nclass Record\n  home ~ City\n  note ~ bool\n\nobserve\n  home.name as City\n  from Record\n".toList
  obs := "Number,City\n1,1\n2,\n3,0\n".toList
  iters := 0
  clean := false

def peopleFrame : DataFrame where
  columns := ["Number".toList, "City".toList]
  data := ((∅ : FMap (List Char) (List (List Char))).set "Number".toList ["1".toList, "2".toList, "3".toList]).set "City".toList ["1".toList, [], "0".toList]

set_option maxRecDepth 8000 in
theorem people_proper (w : World) : ProperSchema w code false false people where
  acyclic := ((C45_defined people).mp ⟨_, rfl⟩).1
  closed := ((C45_defined people).mp ⟨_, rfl⟩).2
  fine := people_fine
  indexed := people_indexed
  distinct := C64_distinct code_inj (by
    intro c cl hc
    have h : ∀ e ∈ people.classes.entries, ' ' ∉ e.1.toList := by decide
    exact h _ (FMap.mem_entries.mpr hc))
  once k f k' f' x h1 h2 h3 h4 := by
    obtain ⟨rfl, rfl⟩ := people_field h1
    simp at h3
  modelled c x j p h := by
    obtain ⟨cl, v, h1, h2, h3⟩ := h
    have h : ∀ e ∈ people.classes.entries, ∀ y ∈ e.2.vars.entries, (match y.2.spec with | .scalar j p => decide (j = "bool") | .cls _ => true) = true := by decide
    have := h _ (FMap.mem_entries.mpr h1) _ (FMap.mem_entries.mpr h2)
    simp only [h3, decide_eq_true_eq] at this
    subst this
    exact (C74_modelled w p).1

theorem people_means (w : World) {i : Nat} {text : String} {b : Bool} (hc : Cell peopleFrame "City" i text) (hn : text ≠ "") (hb : streamBool text = .ok b) :
    CellMeans w people peopleFrame "City" i (.bool b) := by
  refine ⟨⟨"City", ["home", "name"]⟩, _, _, _, _, _, .bernoulli, .sometimesBitflip, text, rfl, people_city,
    ⟨⟨⟨.bernoulli, _, _⟩, rfl, rfl⟩, ⟨.sometimes_bitflip, _, _⟩, rfl, rfl⟩, hc, hn, ?_⟩
  unfold Means
  rw [if_neg (by simp)]
  refine ⟨?_, b, rfl⟩
  show (streamBool text).bind _ = _
  rw [hb]
  rfl

set_option maxRecDepth 40000 in
/-- the hypotheses of C74_loads, C74_data and C74_ends_partial -/
theorem people_files (w : World) : Proper w code peopleArgs people peopleFrame 3 where
  schema := ⟨true, rfl⟩
  proper := people_proper w
  obs := rfl
  table := {
    columns := ⟨"City".toList, ["1".toList, [], "0".toList], rfl⟩
    rect := by
      intro q col h
      have h := FMap.mem_entries.mpr h
      have e : peopleFrame.data.entries = [("City".toList, ["1".toList, [], "0".toList]), ("Number".toList, ["1".toList, "2".toList, "3".toList])] := rfl
      rw [e] at h
      simp only [List.mem_cons, Prod.mk.injEq, List.not_mem_nil, or_false] at h
      rcases h with ⟨_, rfl⟩ | ⟨_, rfl⟩ <;> rfl
    cells := by
      intro q f i text hq hc hn
      obtain ⟨rfl, rfl⟩ := people_field hq
      have hc' := hc
      obtain ⟨col, h1, h2⟩ := hc
      have e : peopleFrame.data.find? "City".toList = some ["1".toList, [], "0".toList] := rfl
      rw [e] at h1
      cases h1
      match i, h2 with
      | 0, h2 =>
        have ht : text = "1" := String.toList_inj.mp (Option.some.inj h2).symm
        subst ht
        exact ⟨by decide, _, people_means w hc' hn rfl⟩
      | 1, h2 =>
        have ht : text = "" := String.toList_inj.mp (Option.some.inj h2).symm
        exact absurd ht hn
      | 2, h2 =>
        have ht : text = "0" := String.toList_inj.mp (Option.some.inj h2).symm
        subst ht
        exact ⟨by decide, _, people_means w hc' hn rfl⟩
      | n + 3, h2 => cases h2 }

set_option maxRecDepth 40000 in
/-- the hypotheses of C74_heldout_false: the first held-out person also has a city -/
example (w : World) (t : Tape) (z : Output (priors w) × Tape) : run (reader w code) { peopleArgs with iters := 3, heldout := some "City\n0\n".toList } t ≠ .ok z :=
  C74_heldout_false (s := people) (df := peopleFrame) people_fine people_indexed (ok := true) rfl rfl rfl (df' := ⟨["City".toList], (∅ : FMap (List Char) (List (List Char))).set "City".toList ["0".toList]⟩) rfl
    (q := "City") rfl (i := 0) (x := "1") (y := "0") (by decide) (by decide) ⟨_, rfl, rfl⟩ (by decide) ⟨_, rfl, rfl⟩ (by decide) t z

set_option maxRecDepth 40000 in
/-- the hypotheses of C74_output_false and of C74_observed_samples_false: the first person has a city -/
example (w : World) (t : Tape) (z : Output (priors w) × Tape) : run (reader w code) { peopleArgs with iters := 3, output := true } t ≠ .ok z ∧
    run (reader w code) { peopleArgs with samples := 2 } t ≠ .ok z :=
  ⟨C74_output_false (s := people) (df := peopleFrame) people_fine people_indexed (ok := true) rfl rfl rfl (q := "City") rfl (i := 0) (x := "1") (by decide) ⟨_, rfl, rfl⟩
    (by decide) t z,
   C74_observed_samples_false (s := people) (df := peopleFrame) people_fine people_indexed (ok := true) rfl rfl (by decide) (q := "City") rfl (i := 0) (x := "1") (by decide)
    ⟨_, rfl, rfl⟩ (by decide) t z⟩

end Examples

end
end PCleanMain
end Verif
