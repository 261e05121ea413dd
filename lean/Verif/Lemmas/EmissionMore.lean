import Verif.Lemmas.Emission
/-! Lemmas about CategoricalEmission and SimpleStringEmission. -/
namespace Verif
noncomputable section

/-! ### CategoricalEmission -/
namespace CategoricalEmission

/-- the pairs accepted with `k` states -/
def Supp (k : Nat) (x : Int × Int) : Prop := DirichletCategorical.Supp k x.1 ∧ DirichletCategorical.Supp k x.2

/-- the dirty values observed for the clean value `i` -/
def dirty (m : Multiset (Int × Int)) (i : Nat) : Multiset Int := (m.filter (fun x => x.1 = (i : Int))).map Prod.snd

theorem dirty_cons_self {m : Multiset (Int × Int)} {x : Int × Int} {i : Nat} (h : x.1 = i) :
    dirty (x ::ₘ m) i = x.2 ::ₘ dirty m i := by simp [dirty, h]

theorem dirty_cons_ne {m : Multiset (Int × Int)} {x : Int × Int} {i : Nat} (h : x.1 ≠ i) :
    dirty (x ::ₘ m) i = dirty m i := by simp [dirty, h]

/-- the rows with concentrations `a` and data `f` -/
def rows (k : Nat) (a : Nat → ℝ) (f : Nat → Multiset Int) : List DirichletCategorical :=
  (List.range k).map (fun i => DirichletCategorical.rep (a i) k (f i))

theorem rows_get {k a f i} (hi : i < k) : idxR (rows k a f) i = .ok (DirichletCategorical.rep (a i) k (f i)) := by
  simp [idxR, rows, hi]

theorem rows_set {k a f i} (d : Multiset Int) :
    (rows k a f).set i (DirichletCategorical.rep (a i) k d) = rows k a (Function.update f i d) := by
  apply List.ext_getElem
  · simp [rows]
  · intro j h1 h2
    simp only [List.getElem_set, rows, List.getElem_map, List.getElem_range, Function.update_apply]
    by_cases h : i = j
    · subst h; simp
    · rw [if_neg h, if_neg (Ne.symm h)]

def rep (k : Nat) (a : Nat → ℝ) (m : Multiset (Int × Int)) : St := { N := Multiset.card m, dists := rows k a (dirty m) }

theorem row_rep {k a m} {x : Int} (hx : DirichletCategorical.Supp k x) :
    row (rep k a m) x = .ok (DirichletCategorical.rep (a x.toNat) k (dirty m x.toNat)) := by
  have h1 : ¬ x < 0 := not_lt.mpr hx.1
  unfold row
  rw [if_neg h1]
  exact rows_get (by have := hx.2; have := hx.1; omega)

theorem update_dirty {m : Multiset (Int × Int)} {x : Int × Int} (hx : 0 ≤ x.1) :
    Function.update (dirty m) x.1.toNat (x.2 ::ₘ dirty m x.1.toNat) = dirty (x ::ₘ m) := by
  funext j
  rw [Function.update_apply]
  by_cases h : j = x.1.toNat
  · subst h
    rw [if_pos rfl, dirty_cons_self (by omega)]
  · rw [if_neg h, dirty_cons_ne (by omega)]

theorem inc_rep {k a m} {x : Int × Int} (hx : Supp k x) : incorporate (rep k a m) x 1 = .ok (rep k a (x ::ₘ m)) := by
  unfold incorporate
  rw [row_rep hx.1]
  simp only [bind, Except.bind]
  rw [DirichletCategorical.inc_rep _ _ _ hx.2]
  simp only [rep]
  rw [rows_set, update_dirty hx.1.1]
  simp

theorem dec_rep {k a m} {x : Int × Int} (hx : Supp k x) : incorporate (rep k a (x ::ₘ m)) x (-1) = .ok (rep k a m) := by
  unfold incorporate
  rw [row_rep hx.1]
  have h0 := hx.1.1
  simp only [bind, Except.bind]
  rw [dirty_cons_self (by omega)]
  have := DirichletCategorical.dec_rep (a x.1.toNat) k (dirty m x.1.toNat) hx.2
  unfold DirichletCategorical.unincorporate at this
  rw [this]
  simp only [rep]
  rw [rows_set]
  congr 2
  · simp
  · congr 1
    rw [← update_dirty h0, Function.update_idem, Function.update_eq_self]

theorem trans_rep {k a m} (t : Tape) (ha : ∀ i, 0 < a i) :
    ∃ a', (∀ i, 0 < a' i) ∧ (transLoop (rep k a m).dists t).1 = (rep k a' m).dists := by
  have key : ∀ (l : List Nat) (_ : l.Nodup) (t : Tape), ∃ a' : Nat → ℝ, (∀ i, 0 < a' i) ∧
      (transLoop (l.map (fun i => DirichletCategorical.rep (a i) k (dirty m i))) t).1 =
        l.map (fun i => DirichletCategorical.rep (a' i) k (dirty m i)) := by
    intro l
    induction l with
    | nil => exact fun _ t => ⟨a, ha, rfl⟩
    | cons i l ih =>
      intro hn t
      rw [List.nodup_cons] at hn
      obtain ⟨b, hb, he⟩ := DirichletCategorical.trans_mem (DirichletCategorical.rep (a i) k (dirty m i)) t
      obtain ⟨a', h1, h2⟩ := ih hn.2 (DirichletCategorical.transitionHyperparameters (DirichletCategorical.rep (a i) k (dirty m i)) t).2
      refine ⟨Function.update a' i b, ?_, ?_⟩
      · intro j
        rw [Function.update_apply]
        split
        · exact ZeroMeanNormal.alphaGrid_pos hb
        · exact h1 j
      · rw [List.map_cons, List.map_cons, Function.update_self]
        show (DirichletCategorical.transitionHyperparameters (DirichletCategorical.rep (a i) k (dirty m i)) t).1 ::
          (transLoop (l.map (fun i => DirichletCategorical.rep (a i) k (dirty m i)))
            (DirichletCategorical.transitionHyperparameters (DirichletCategorical.rep (a i) k (dirty m i)) t).2).1 = _
        rw [he, h2]
        congr 1
        apply List.map_congr_left
        intro j hj
        rw [Function.update_of_ne (by rintro rfl; exact hn.1 hj)]
  exact key _ List.nodup_range t

theorem logp_rep {k a m} {x : Int × Int} (hx : Supp k x) : logp (rep k a m) x =
    .ok (Real.log (a x.1.toNat + (dirty m x.1.toNat).count x.2) - Real.log (Multiset.card (dirty m x.1.toNat) + a x.1.toNat * k)) := by
  unfold logp
  rw [row_rep hx.1]
  exact DirichletCategorical.logp_rep hx.2

theorem score_rep {k a m} : logpScore (rep k a m) =
    ∑ i ∈ Finset.range k, (DirichletCategorical.rep (a i) k (dirty m i)).logpScore := by
  simp only [logpScore, rep, rows, List.map_map]
  rw [Finset.sum_range]
  rw [← List.sum_ofFn]
  congr 1
  apply List.ext_getElem <;> simp

/-- CategoricalEmission stores the multiset of its data. -/
def lawful (k : Nat) : Lawful (CategoricalEmission k).ops.toDistOps (Supp k) where
  H := {a : Nat → ℝ // ∀ i, 0 < a i}
  Rep := fun a m s => s = rep k a.1 m ∧ ∀ x ∈ m, Supp k x
  fresh := fun t => ⟨⟨fun _ => 1, fun _ => by norm_num⟩, by
    refine ⟨?_, by simp⟩
    show ({ dists := List.replicate k (.mk' k) } : St) = _
    simp only [rep, rows, Multiset.card_zero, Nat.cast_zero]
    congr 1
    apply List.ext_getElem
    · simp
    · intro i h1 h2
      simp [dirty, DirichletCategorical.mk', DirichletCategorical.rep, DirichletCategorical.of]⟩
  supported := fun h hx => h.2 _ hx
  inc := by
    rintro h m s x ⟨rfl, hm⟩ hx
    refine ⟨_, inc_rep hx, rfl, ?_⟩
    intro y hy
    rcases Multiset.mem_cons.1 hy with rfl | hy
    · exact hx
    · exact hm _ hy
  dec := by
    rintro h m s x ⟨rfl, hm⟩
    exact ⟨_, dec_rep (hm _ (Multiset.mem_cons_self _ _)), rfl, fun y hy => hm _ (Multiset.mem_cons_of_mem hy)⟩
  count := by rintro h m s ⟨rfl, _⟩; rfl
  logp := by
    rintro h m s x ⟨rfl, hm⟩ hx
    refine ⟨Real.log (h.1 x.1.toNat + (dirty m x.1.toNat).count x.2) -
        Real.log (Multiset.card (dirty m x.1.toNat) + h.1 x.1.toNat * k), rep k h.1 m, ?_, rfl, hm⟩
    show (logp _ _).bind _ = _
    rw [logp_rep hx]; rfl
  trans := by
    rintro h m s ⟨rfl, hm⟩ t
    obtain ⟨a, ha, he⟩ := trans_rep (k := k) (m := m) t h.2
    refine ⟨⟨a, ha⟩, ?_, hm⟩
    show ({ N := _, dists := _ } : St) = _
    rw [he]; rfl

theorem scored (k : Nat) : (lawful k).Scored := by rintro h m s s' ⟨rfl, _⟩ ⟨rfl, _⟩; rfl

theorem exact (k) : (lawful k).Exact := by rintro h m s s' ⟨rfl, _⟩ ⟨rfl, _⟩; rfl

theorem coherent (k) : Coherent (lawful k) := by
  rintro ⟨a, ha⟩ m s x s1 hs hx h1
  obtain ⟨rfl, hm⟩ := hs
  have h1' : incorporate (rep k a m) x 1 = .ok s1 := h1
  rw [inc_rep hx] at h1'
  injection h1' with h1'
  subst h1'
  refine ⟨rep k a m, ?_⟩
  show (logp (rep k a m) x).bind _ = .ok (logpScore (rep k a (x ::ₘ m)) - logpScore (rep k a m), _)
  rw [logp_rep hx, DirichletCategorical.coherent_rep (ha _) hx.2, score_rep, score_rep]
  have h0 := hx.1.1
  have hk : x.1.toNat ∈ Finset.range k := by have := hx.1.2; rw [Finset.mem_range]; omega
  rw [← Finset.add_sum_erase _ _ hk, ← Finset.add_sum_erase _ (fun i => (DirichletCategorical.rep (a i) k (dirty m i)).logpScore) hk]
  have : ∑ i ∈ (Finset.range k).erase x.1.toNat, (DirichletCategorical.rep (a i) k (dirty (x ::ₘ m) i)).logpScore =
      ∑ i ∈ (Finset.range k).erase x.1.toNat, (DirichletCategorical.rep (a i) k (dirty m i)).logpScore := by
    apply Finset.sum_congr rfl
    intro i hi
    rw [dirty_cons_ne]
    have := Finset.ne_of_mem_erase hi
    omega
  rw [this, dirty_cons_self (by omega)]
  simp only [Except.bind]
  congr 2
  ring

end CategoricalEmission

/-! ### SimpleStringEmission -/

/-- the coin after `n` more tosses, of which `k` true -/
def BetaBernoulli.add (d : BetaBernoulli) (n k : Int) : BetaBernoulli := { d with N := d.N + n, s := d.s + k }

theorem BetaBernoulli.incorporate_int (d : BetaBernoulli) (x : Bool) (w : Int) :
    d.incorporate x w = d.add w (if x then w else 0) := by
  unfold incorporate add
  congr 1
  cases x
  · simpa using truncInt_int d.s
  · have := truncInt_int (d.s + w)
    push_cast at this
    simpa using this

theorem BetaBernoulli.add_add (d : BetaBernoulli) (a b a' b' : Int) : (d.add a b).add a' b' = d.add (a + a') (b + b') := by
  unfold add
  congr 1
  · push_cast; ring
  · simp only; ring

theorem BetaBernoulli.add_zero (d : BetaBernoulli) : d.add 0 0 = d := by
  unfold add; simp

namespace SimpleString

/-- the edits counted for a pair: tosses and successes of the three coins -/
structure Tally where
  subN : Int
  subS : Int
  insN : Int
  insS : Int
  delN : Int
  delS : Int

def Tally.plus (a b : Tally) : Tally :=
  ⟨a.subN + b.subN, a.subS + b.subS, a.insN + b.insN, a.insS + b.insS, a.delN + b.delN, a.delS + b.delS⟩

def tally (clean dirty : List Char) : Tally :=
  match clean, dirty with
  | [], [] => ⟨0, 0, 1, 0, 0, 0⟩
  | [], d => ⟨0, 0, d.length, d.length, 0, 0⟩
  | c, [] => ⟨0, 0, c.length, 0, c.length, c.length⟩
  | c :: cs, d :: ds =>
    if c = d then Tally.plus ⟨1, 0, 1, 0, 1, 0⟩ (tally cs ds)
    else if (c :: cs).getLast? = (d :: ds).getLast? then
      Tally.plus ⟨1, 0, 1, 0, 1, 0⟩ (tally (c :: cs).dropLast (d :: ds).dropLast)
    else if cs.length < ds.length then Tally.plus ⟨0, 0, 1, 1, 0, 0⟩ (tally (c :: cs) ds)
    else if ds.length < cs.length then Tally.plus ⟨0, 0, 1, 0, 1, 1⟩ (tally cs (d :: ds))
    else Tally.plus ⟨1, 1, 1, 0, 1, 0⟩ (tally cs ds)
termination_by clean.length + dirty.length
decreasing_by all_goals (simp; try omega)

/-- the state after the edits `a`, `w` times -/
def St.add (s : St) (w : Int) (a : Tally) : St :=
  { s with sub := s.sub.add (w * a.subN) (w * a.subS), ins := s.ins.add (w * a.insN) (w * a.insS),
           del := s.del.add (w * a.delN) (w * a.delS) }

theorem St.add_plus (s : St) (w : Int) (a b : Tally) : (s.add w a).add w b = s.add w (a.plus b) := by
  simp [St.add, Tally.plus, BetaBernoulli.add_add, mul_add]

theorem corporate_eq (s : St) (clean dirty : List Char) (w : Int) :
    corporate s clean dirty (w : ℝ) = s.add w (tally clean dirty) := by
  have hi := fun (d : BetaBernoulli) (x : Bool) => BetaBernoulli.incorporate_int d x w
  induction clean, dirty using tally.induct generalizing s with
  | case1 =>
    unfold corporate tally
    simp [hi, St.add, BetaBernoulli.add_zero]
  | case2 d hd =>
    unfold corporate tally
    have hi' := fun (b : BetaBernoulli) (x : Bool) => BetaBernoulli.incorporate_int b x (w * d.length)
    push_cast at hi'
    cases d with
    | nil => exact absurd rfl hd
    | cons a l => simp [St.add, BetaBernoulli.add_zero] at *; simp [hi']
  | case3 c hc =>
    have hi' := fun (b : BetaBernoulli) (x : Bool) => BetaBernoulli.incorporate_int b x (w * c.length)
    push_cast at hi'
    cases c with
    | nil => exact absurd rfl hc
    | cons a l =>
      unfold corporate tally
      simp [St.add, BetaBernoulli.add_zero] at *; simp [hi']
  | case4 cs d ds ih =>
    unfold corporate tally
    rw [if_pos rfl, if_pos rfl, ih, ← St.add_plus]
    simp [hi, St.add]
  | case5 c cs d ds h1 h2 ih =>
    unfold corporate tally
    rw [if_neg h1, if_pos h2, if_neg h1, if_pos h2, ih, ← St.add_plus]
    simp [hi, St.add]
  | case6 c cs d ds h1 h2 h3 ih =>
    unfold corporate tally
    rw [if_neg h1, if_neg h2, if_pos h3, if_neg h1, if_neg h2, if_pos h3, ih, ← St.add_plus]
    simp [hi, St.add, BetaBernoulli.add_zero]
  | case7 c cs d ds h1 h2 h3 h4 ih =>
    unfold corporate tally
    rw [if_neg h1, if_neg h2, if_neg h3, if_pos h4, if_neg h1, if_neg h2, if_neg h3, if_pos h4, ih, ← St.add_plus]
    simp [hi, St.add, BetaBernoulli.add_zero]
  | case8 c cs d ds h1 h2 h3 h4 ih =>
    unfold corporate tally
    rw [if_neg h1, if_neg h2, if_neg h3, if_neg h4, if_neg h1, if_neg h2, if_neg h3, if_neg h4, ih, ← St.add_plus]
    simp [hi, St.add]

theorem tally_lengths (clean dirty : List Char) :
    (tally clean dirty).insS = ((dirty.length - clean.length : Nat) : Int) ∧
    (tally clean dirty).delS = ((clean.length - dirty.length : Nat) : Int) := by
  induction clean, dirty using tally.induct with
  | case1 => unfold tally; simp
  | case2 d hd => cases d with
    | nil => exact absurd rfl hd
    | cons a l => unfold tally; simp
  | case3 c hc => cases c with
    | nil => exact absurd rfl hc
    | cons a l => unfold tally; simp
  | case4 cs d ds ih => unfold tally; simp [Tally.plus, ih]
  | case5 c cs d ds h1 h2 ih =>
    unfold tally
    rw [if_neg h1, if_pos h2]
    simp [Tally.plus, ih]
  | case6 c cs d ds h1 h2 h3 ih =>
    unfold tally
    rw [if_neg h1, if_neg h2, if_pos h3]
    simp only [Tally.plus, ih, List.length_cons]
    omega
  | case7 c cs d ds h1 h2 h3 h4 ih =>
    unfold tally
    rw [if_neg h1, if_neg h2, if_neg h3, if_pos h4]
    simp only [Tally.plus, ih, List.length_cons]
    omega
  | case8 c cs d ds h1 h2 h3 h4 ih =>
    unfold tally
    rw [if_neg h1, if_neg h2, if_neg h3, if_neg h4]
    simp only [Tally.plus, ih, List.length_cons]
    omega

/-- the edits of all pairs -/
def total (m : Multiset (List Char × List Char)) : Tally where
  subN := (m.map (fun x => (tally x.1 x.2).subN)).sum
  subS := (m.map (fun x => (tally x.1 x.2).subS)).sum
  insN := (m.map (fun x => (tally x.1 x.2).insN)).sum
  insS := (m.map (fun x => (tally x.1 x.2).insS)).sum
  delN := (m.map (fun x => (tally x.1 x.2).delN)).sum
  delS := (m.map (fun x => (tally x.1 x.2).delS)).sum

theorem total_cons (x m) : total (x ::ₘ m) = (total m).plus (tally x.1 x.2) := by
  simp [total, Tally.plus, add_comm]

/-- the empty state with the given hyperparameters -/
def base (h : BetaBernoulli.PosH × BetaBernoulli.PosH × BetaBernoulli.PosH) (n : ℝ) : St where
  N := n
  sub := { alpha := h.1.1.1, beta := h.1.1.2 }
  ins := { alpha := h.2.1.1.1, beta := h.2.1.1.2 }
  del := { alpha := h.2.2.1.1, beta := h.2.2.1.2 }

def rep (h : BetaBernoulli.PosH × BetaBernoulli.PosH × BetaBernoulli.PosH) (m : Multiset (List Char × List Char)) : St :=
  (base h (Multiset.card m)).add 1 (total m)

theorem incorporate_one (s : St) (x) : incorporate s x 1 = St.add { s with N := s.N + 1 } 1 (tally x.1 x.2) := by
  have := corporate_eq { s with N := s.N + 1 } x.1 x.2 1
  simpa [incorporate] using this

theorem incorporate_neg (s : St) (x) : incorporate s x (-1) = St.add { s with N := s.N + -1 } (-1) (tally x.1 x.2) := by
  have := corporate_eq { s with N := s.N + -1 } x.1 x.2 (-1)
  simpa [incorporate] using this

theorem undo (s : St) (x) : incorporate (incorporate s x 1) x (-1) = s := by
  rw [incorporate_neg, incorporate_one]
  obtain ⟨N, sub, ins, del⟩ := s
  simp [St.add, BetaBernoulli.add_add, BetaBernoulli.add_zero]

theorem logp_eq (s : St) (x) : logp s x = (logpScore (incorporate s x 1) - logpScore s, s) := by
  simp only [logp, undo]

theorem inc_rep (h m x) : incorporate (rep h m) x 1 = rep h (x ::ₘ m) := by
  rw [incorporate_one]
  unfold rep
  rw [total_cons, ← St.add_plus]
  simp [St.add, base]

theorem dec_rep (h m x) : incorporate (rep h (x ::ₘ m)) x (-1) = rep h m := by
  rw [← inc_rep, undo]

/-- SimpleStringEmission stores the multiset of its data, as edit counts. -/
def lawful : Lawful SimpleStringEmission.ops.toDistOps (fun _ => True) where
  H := BetaBernoulli.PosH × BetaBernoulli.PosH × BetaBernoulli.PosH
  Rep := fun h m s => s = rep h m
  fresh := fun t => ⟨(⟨(1, 1), by norm_num, by norm_num⟩, ⟨(1, 1), by norm_num, by norm_num⟩, ⟨(1, 1), by norm_num, by norm_num⟩), by
    show ({} : St) = _
    simp [rep, base, total, St.add, BetaBernoulli.add]⟩
  supported := fun _ _ => trivial
  inc := by rintro h m s x rfl _; exact ⟨_, rfl, inc_rep _ _ _⟩
  dec := by rintro h m s x rfl; exact ⟨_, rfl, dec_rep _ _ _⟩
  count := by rintro h m s rfl; rfl
  logp := by rintro h m s x rfl _; exact ⟨_, _, rfl, undo _ _⟩
  trans := by
    rintro h m s rfl t
    obtain ⟨h1, h2, h3⟩ := BetaBernoulli.trans_mem (rep h m).sub t
    obtain ⟨h4, h5, h6⟩ := BetaBernoulli.trans_mem (rep h m).ins ((rep h m).sub.transitionHyperparameters t).2
    obtain ⟨h7, h8, h9⟩ := BetaBernoulli.trans_mem (rep h m).del
      ((rep h m).ins.transitionHyperparameters ((rep h m).sub.transitionHyperparameters t).2).2
    exact ⟨(⟨(_, _), BetaBernoulli.grid_pos h1, BetaBernoulli.grid_pos h2⟩,
      ⟨(_, _), BetaBernoulli.grid_pos h4, BetaBernoulli.grid_pos h5⟩,
      ⟨(_, _), BetaBernoulli.grid_pos h7, BetaBernoulli.grid_pos h8⟩), rfl⟩

theorem scored : lawful.Scored := by rintro h m s s' rfl rfl; rfl

theorem exact : lawful.Exact := by rintro h m s s' rfl rfl; rfl

theorem coherent : Coherent lawful := by
  rintro h m s x s1 hs _ h1
  have h1 : Except.ok (incorporate s x 1) = Except.ok s1 := h1
  injection h1 with h1
  subst h1
  refine ⟨s, ?_⟩
  exact congrArg Except.ok (logp_eq s x)

end SimpleString
end
end Verif

namespace Verif.SimpleString

theorem tally_tosses (clean dirty : List Char) :
    (tally clean dirty).delN = clean.length ∧ (tally clean dirty).subN = ((min clean.length dirty.length : Nat) : Int) ∧
    0 ≤ (tally clean dirty).subS ∧ (tally clean dirty).subS ≤ ((min clean.length dirty.length : Nat) : Int) := by
  induction clean, dirty using tally.induct with
  | case1 => unfold tally; simp
  | case2 d hd => cases d with
    | nil => exact absurd rfl hd
    | cons a l => unfold tally; simp
  | case3 c hc => cases c with
    | nil => exact absurd rfl hc
    | cons a l => unfold tally; simp
  | case4 cs d ds ih =>
    unfold tally
    rw [if_pos rfl]
    simp only [Tally.plus, List.length_cons]
    omega
  | case5 c cs d ds h1 h2 ih =>
    unfold tally
    rw [if_neg h1, if_pos h2]
    simp only [List.length_dropLast, List.length_cons] at ih
    simp only [Tally.plus, List.length_cons]
    omega
  | case6 c cs d ds h1 h2 h3 ih =>
    unfold tally
    rw [if_neg h1, if_neg h2, if_pos h3]
    simp only [List.length_cons] at ih
    simp only [Tally.plus, List.length_cons]
    omega
  | case7 c cs d ds h1 h2 h3 h4 ih =>
    unfold tally
    rw [if_neg h1, if_neg h2, if_neg h3, if_pos h4]
    simp only [List.length_cons] at ih
    simp only [Tally.plus, List.length_cons]
    omega
  | case8 c cs d ds h1 h2 h3 h4 ih =>
    unfold tally
    rw [if_neg h1, if_neg h2, if_neg h3, if_neg h4]
    simp only [Tally.plus, List.length_cons]
    omega

end Verif.SimpleString
