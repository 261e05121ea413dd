import Verif.Spec.PCleanIO
import Verif.Lemmas.SchemaFile
import Verif.Props.Parse
/-!
Lemmas about PClean schema files.
-/
namespace Verif
namespace PClean
open Text Verif.Lex

theorem Is.nn {t : Token} {s : String} (h : Is t s) : ¬ (t.val ≠ s.toList) := not_not.mpr h

theorem seps {t : Token} (h : Is t "," ∨ Is t ")") : ¬ (t.val ≠ ",".toList ∧ t.val ≠ ")".toList) := fun g => h.elim g.1 g.2

theorem readParams_iff : ∀ (ts : List Token) (m m' : FMap String String), readParams ts m = .ok (some m') ↔ VarParams m ts m'
  | [], m, m' => ⟨fun h => (by cases h; exact .nil), fun h => (by cases h; rfl)⟩
  | [t], m, m' => ⟨fun h => (by cases h; exact .one), fun h => (by cases h; rfl)⟩
  | [_, _], m, m' => ⟨fun h => (by cases h), fun h => (by cases h)⟩
  | [_, eq, _], m, m' => ⟨fun h => (by unfold readParams at h; split at h <;> cases h), fun h => (by cases h)⟩
  | k :: eq :: v :: sep :: ts, m, m' => by
    constructor
    · intro h
      unfold readParams at h
      split at h
      · cases h
      · next h1 =>
        split at h
        · cases h
        · next h2 =>
          refine .more (not_not.mp h1) ?_ ((readParams_iff ts _ m').mp h)
          by_cases hc : sep.val = ",".toList
          · exact .inl hc
          · exact .inr (not_not.mp (fun h3 => h2 ⟨hc, h3⟩))
    · intro h
      cases h with
      | more h1 h2 h3 =>
        unfold readParams
        rw [if_neg (Is.nn h1), if_neg (seps h2)]
        exact (readParams_iff ts _ m').mpr h3

theorem readParams_ub : ∀ (ts : List Token) (m : FMap String String), readParams ts m = .error .ub ↔ VarParamsCut ts
  | [], m => ⟨fun h => (by cases h), fun h => (by cases h)⟩
  | [t], m => ⟨fun h => (by cases h), fun h => (by cases h)⟩
  | [_, _], m => ⟨fun h => (by cases h), fun h => (by cases h)⟩
  | [_, eq, _], m => ⟨fun h => (by
      unfold readParams at h
      split at h
      · cases h
      · next h1 => exact .here (not_not.mp h1)), fun h => (by
      cases h with
      | here h => unfold readParams; rw [if_neg (Is.nn h)])⟩
  | k :: eq :: v :: sep :: ts, m => by
    constructor
    · intro h
      unfold readParams at h
      split at h
      · cases h
      · next h1 =>
        split at h
        · cases h
        · next h2 =>
          refine .more (not_not.mp h1) ?_ ((readParams_ub ts _).mp h)
          by_cases hc : sep.val = ",".toList
          · exact .inl hc
          · exact .inr (not_not.mp (fun h3 => h2 ⟨hc, h3⟩))
    · intro h
      cases h with
      | more h1 h2 h3 =>
        unfold readParams
        rw [if_neg (Is.nn h1), if_neg (seps h2)]
        exact (readParams_ub ts _).mpr h3

/-- the parameters are read, refused or read past the end; there is no other outcome -/
theorem readParams_err : ∀ (ts : List Token) (m : FMap String String) (e : Err), readParams ts m = .error e → e = .ub
  | [], m, e, h => by cases h
  | [t], m, e, h => by cases h
  | [_, _], m, e, h => by cases h
  | [_, eq, _], m, e, h => by
    unfold readParams at h
    split at h <;> cases h
    rfl
  | k :: eq :: v :: sep :: ts, m, e, h => by
    unfold readParams at h
    split at h
    · cases h
    · split at h
      · cases h
      · exact readParams_err ts _ e h

theorem startsUpper_iff {s : List Char} : startsUpper s = true ↔ Capital s := by
  cases s with
  | nil => exact ⟨fun h => (by cases h), fun ⟨c, cs, h, _⟩ => (by cases h)⟩
  | cons c cs =>
    unfold startsUpper
    simp only [List.contains_iff_mem]
    exact ⟨fun h => ⟨c, cs, rfl, h⟩, fun ⟨c', cs', h1, h2⟩ => by cases h1; exact h2⟩

theorem readVariable_iff (ts : List Token) (v : Variable) : readVariable ts = .ok (some v) ↔ VarLine ts v := by
  match ts with
  | [] => exact ⟨fun h => (by cases h), fun h => (by cases h)⟩
  | [_] => exact ⟨fun h => (by cases h), fun h => (by cases h)⟩
  | [_, _] => exact ⟨fun h => (by cases h), fun h => (by cases h)⟩
  | [n, tilde, j] =>
    unfold readVariable resolveVariable
    dsimp only
    constructor
    · intro h
      split at h
      · cases h
      · next h1 =>
        have h1 : Is tilde "~" := not_not.mp h1
        obtain ⟨spec, h2, h⟩ := bind_ok.mp h
        obtain ⟨t2, h3, h2⟩ := bind_ok.mp h2
        cases h3
        split at h2
        · next h4 =>
          cases h2
          cases h
          exact .cls h1 (startsUpper_iff.mp h4.2)
        · next h4 =>
          cases h2
          cases h
          exact .plain h1 (fun hc => h4 ⟨rfl, startsUpper_iff.mpr hc⟩)
    · intro h
      cases h with
      | cls h1 h2 =>
        rw [if_neg (Is.nn h1)]
        refine bind_ok.mpr ⟨some (.cls (String.ofList j.val)), bind_ok.mpr ⟨j, rfl, ?_⟩, rfl⟩
        rw [if_pos ⟨rfl, startsUpper_iff.mpr h2⟩]
      | plain h1 h2 =>
        rw [if_neg (Is.nn h1)]
        refine bind_ok.mpr ⟨some (.scalar (String.ofList j.val) ∅), bind_ok.mpr ⟨j, rfl, ?_⟩, rfl⟩
        rw [if_neg (fun h => h2 (startsUpper_iff.mp h.2))]
        rfl
  | n :: tilde :: j :: par :: ts =>
    unfold readVariable resolveVariable
    dsimp only
    have hlen : ¬ ((n :: tilde :: j :: par :: ts).length = 3 ∧ startsUpper j.val = true) := by simp
    constructor
    · intro h
      split at h
      · cases h
      · next h1 =>
        obtain ⟨spec, h2, h⟩ := bind_ok.mp h
        obtain ⟨t2, h3, h2⟩ := bind_ok.mp h2
        cases h3
        rw [if_neg hlen] at h2
        obtain ⟨m, h5, h2⟩ := bind_ok.mp h2
        cases h2
        cases m with
        | none => cases h
        | some m =>
          cases h
          exact .scalar (not_not.mp h1) ((readParams_iff ts ∅ m).mp h5)
    · intro h
      cases h with
      | @scalar _ _ _ _ _ m h1 h2 =>
        rw [if_neg (Is.nn h1)]
        refine bind_ok.mpr ⟨some (.scalar (String.ofList j.val) m), bind_ok.mpr ⟨j, rfl, ?_⟩, rfl⟩
        rw [if_neg hlen]
        exact bind_ok.mpr ⟨some m, (readParams_iff ts ∅ m).mpr h2, rfl⟩

theorem readVariable_ub (ts : List Token) (e : Err) : readVariable ts = .error e ↔ e = .ub ∧ VarCut ts := by
  match ts with
  | [] => exact ⟨fun h => (by cases h), fun h => (by cases h.2)⟩
  | [_] => exact ⟨fun h => (by cases h), fun h => (by cases h.2)⟩
  | [_, _] => exact ⟨fun h => (by cases h), fun h => (by cases h.2)⟩
  | [n, tilde, j] =>
    refine ⟨fun h => ?_, fun h => (by cases h.2)⟩
    unfold readVariable resolveVariable at h
    dsimp only at h
    split at h
    · cases h
    · rcases UtilIO.bind_error_iff.mp h with h | ⟨_, _, h⟩
      · rcases UtilIO.bind_error_iff.mp h with h | ⟨t2, h3, h⟩
        · cases h
        · cases h3
          split at h <;> cases h
      · cases h
  | n :: tilde :: j :: par :: ts =>
    unfold readVariable resolveVariable
    dsimp only
    have hlen : ¬ ((n :: tilde :: j :: par :: ts).length = 3 ∧ startsUpper j.val = true) := by simp
    constructor
    · intro h
      split at h
      · cases h
      · next h1 =>
        rcases UtilIO.bind_error_iff.mp h with h | ⟨_, _, h⟩
        · rcases UtilIO.bind_error_iff.mp h with h | ⟨t2, h3, h⟩
          · cases h
          · cases h3
            rw [if_neg hlen] at h
            rcases UtilIO.bind_error_iff.mp h with h | ⟨_, _, h⟩
            · obtain rfl := readParams_err _ _ _ h
              exact ⟨rfl, .mk (not_not.mp h1) ((readParams_ub ts ∅).mp h)⟩
            · cases h
        · cases h
    · rintro ⟨rfl, h⟩
      cases h with
      | mk h1 h2 =>
        rw [if_neg (Is.nn h1)]
        refine UtilIO.bind_error_iff.mpr (.inl (UtilIO.bind_error_iff.mpr (.inr ⟨j, rfl, ?_⟩)))
        rw [if_neg hlen]
        exact UtilIO.bind_error_iff.mpr (.inl ((readParams_ub ts ∅).mpr h2))

theorem VarLine.ne_nil {ts : List Token} {v : Variable} (h : VarLine ts v) : ts ≠ [] := by cases h <;> simp

theorem readClass_iff (ls : List (List Char)) (h0 : ∀ l ∈ ls, Char.ofNat 0 ∉ l) : ∀ (m m' : FMap String Variable) (rest : List (List Char)),
    readClass ls m = .ok (some (m', rest)) ↔ ClassBody m ls m' rest := by
  induction ls with
  | nil => exact fun m m' rest => ⟨fun h => (by cases h; exact .eof), fun h => (by cases h; rfl)⟩
  | cons line ls ih =>
    intro m m' rest
    have ih := ih (fun l hl => h0 l (by simp [hl]))
    have htok := C36_tokenize (h0 line (by simp))
    cases line with
    | nil =>
      constructor
      · intro h; cases h; exact .empty
      · intro h
        cases h with
        | empty => rfl
        | skip h => exact absurd rfl h
        | var h1 h2 =>
          cases h1
          exact absurd rfl h2.ne_nil
    | cons c cs =>
      unfold readClass
      constructor
      · intro h
        cases ht : tokenize (c :: cs) with
        | none => rw [ht] at h; cases h
        | some ts =>
          rw [ht] at h
          have hl := (htok ts).mp ht
          cases ts with
          | nil => exact .skip (by simp) hl ((ih _ _ _).mp h)
          | cons t ts =>
            obtain ⟨v, hv, h⟩ := bind_ok.mp h
            cases v with
            | none => cases h
            | some v => exact .var hl ((readVariable_iff _ _).mp hv) ((ih _ _ _).mp h)
      · intro h
        cases h with
        | skip _ h1 h2 =>
          rw [(htok _).mpr h1]
          exact (ih _ _ _).mpr h2
        | @var _ _ ts v _ _ _ h1 h2 h3 =>
          rw [(htok _).mpr h1]
          cases ts with
          | nil => exact absurd rfl h2.ne_nil
          | cons t ts => exact bind_ok.mpr ⟨some v, (readVariable_iff _ _).mpr h2, (ih _ _ _).mpr h3⟩

theorem readPath_iff : ∀ (ts : List Token) (p : List String), readPath ts = some p ↔ Path ts p
  | [], p => ⟨fun h => (by cases h; exact .nil), fun h => (by cases h; rfl)⟩
  | [t], p => ⟨fun h => (by cases h; exact .one), fun h => (by cases h; rfl)⟩
  | t :: dot :: ts, p => by
    unfold readPath
    constructor
    · intro h
      split at h
      · cases h
      · next h1 =>
        obtain ⟨q, h2, rfl⟩ := Option.map_eq_some_iff.mp h
        exact .more (not_not.mp h1) ((readPath_iff ts q).mp h2)
    · intro h
      cases h with
      | more h1 h2 =>
        rw [if_neg (Is.nn h1), (readPath_iff ts _).mpr h2]
        rfl

/-- the lines of a query -/
inductive QLine : Query → List Token → Query → Prop
  | skip {q} : QLine q [] q
  | from {q kw cl} : Is kw "from" → q.recordClass = "" → QLine q [kw, cl] { q with recordClass := String.ofList cl.val }
  | field {q t ts kw n p} : ¬ Is t "from" → Path (t :: ts) p →
      QLine q (t :: ts ++ [kw, n]) { q with fields := q.fields.set (String.ofList n.val) ⟨String.ofList n.val, p⟩ }

theorem readQueryLine_iff (ts : List Token) (q q' : Query) : readQueryLine ts q = some q' ↔ QLine q ts q' := by
  constructor
  · intro h
    cases ts with
    | nil => cases h; exact .skip
    | cons t0 rest =>
      unfold readQueryLine at h
      dsimp only at h
      split at h
      · next h1 =>
        match rest, h with
        | [t1], h =>
          dsimp only at h
          split at h
          · cases h
          · next h2 =>
            cases h
            exact .from h1 (not_not.mp h2)
      · next h1 =>
        split at h
        · cases h
        · next h2 =>
          obtain ⟨front, hf⟩ : ∃ front kw n, t0 :: rest = front ++ [kw, n] ∧ front ≠ [] := by
            have hl : 3 ≤ (t0 :: rest).length := by omega
            cases hr : rest using List.reverseRecOn with
            | nil => rw [hr] at hl; simp at hl
            | append_singleton r n _ =>
              cases hr' : r using List.reverseRecOn with
              | nil => rw [hr, hr'] at hl; simp at hl
              | append_singleton r' kw _ => exact ⟨t0 :: r', kw, n, by simp, by simp⟩
          obtain ⟨kw, n, hf, hne⟩ := hf
          obtain ⟨t, ts, rfl⟩ := List.exists_cons_of_ne_nil hne
          rw [hf] at h
          obtain ⟨h7, h8⟩ := List.cons.inj hf
          have h1 : ¬ Is t "from" := by rw [← h7]; exact h1
          rw [hf]
          clear hf h7 h8 hne h2
          rw [List.cons_append] at h ⊢
          have e1 : (t :: (ts ++ [kw, n])).take ((t :: (ts ++ [kw, n])).length - 2) = t :: ts := by
            rw [← List.cons_append]
            simp
          have e2 : (t :: (ts ++ [kw, n])).getLast? = some n := by
            rw [← List.cons_append, show [kw, n] = [kw] ++ [n] from rfl, ← List.append_assoc]
            exact List.getLast?_concat
          rw [e1, e2] at h
          cases hp : readPath (t :: ts) with
          | none => rw [hp] at h; cases h
          | some p =>
            rw [hp] at h
            cases h
            exact .field h1 ((readPath_iff _ _).mp hp)
  · intro h
    cases h with
    | skip => rfl
    | «from» h1 h2 =>
      unfold readQueryLine
      dsimp only
      rw [if_pos (show _ = "from".toList from h1), if_neg (not_not.mpr h2)]
    | @field t ts kw n p h1 h2 =>
      unfold readQueryLine
      rw [List.cons_append]
      dsimp only
      have e1 : (t :: (ts ++ [kw, n])).take ((t :: (ts ++ [kw, n])).length - 2) = t :: ts := by
        rw [← List.cons_append]
        simp
      have e2 : (t :: (ts ++ [kw, n])).getLast? = some n := by
        rw [← List.cons_append, show [kw, n] = [kw] ++ [n] from rfl, ← List.append_assoc]
        exact List.getLast?_concat
      rw [if_neg (show ¬ t.val = "from".toList from h1), if_neg (by simp), e1, e2, (readPath_iff _ _).mpr h2]

theorem readQuery_iff (ls : List (List Char)) (h0 : ∀ l ∈ ls, Char.ofNat 0 ∉ l) : ∀ (q q' : Query) (rest : List (List Char)),
    readQuery ls q = (true, q', rest) ↔ QueryBody q ls q' rest := by
  induction ls with
  | nil => exact fun m m' rest => ⟨fun h => (by cases h; exact .eof), fun h => (by cases h; rfl)⟩
  | cons line ls ih =>
    intro q q' rest
    have ih := ih (fun l hl => h0 l (by simp [hl]))
    have htok := C36_tokenize (h0 line (by simp))
    cases line with
    | nil =>
      constructor
      · intro h; cases h; exact .empty
      · intro h
        cases h with
        | empty => rfl
        | skip h => exact absurd rfl h
        | «from» h1 => cases h1
        | field h1 => cases h1
    | cons c cs =>
      unfold readQuery
      constructor
      · intro h
        cases ht : tokenize (c :: cs) with
        | none => rw [ht] at h; cases h
        | some ts =>
          rw [ht] at h
          have hl := (htok ts).mp ht
          dsimp only at h
          cases hq : readQueryLine ts q with
          | none => rw [hq] at h; cases h
          | some q1 =>
            rw [hq] at h
            have h := (ih _ _ _).mp h
            have hq := (readQueryLine_iff _ _ _).mp hq
            cases hq with
            | skip => exact .skip (by simp) hl h
            | «from» h1 h2 => exact .from hl h1 h2 h
            | field h1 h2 => exact .field hl h1 h2 h
      · intro h
        have key : ∀ {ts q1}, Lexed (c :: cs) ts → QLine q ts q1 → QueryBody q1 ls q' rest →
            (match tokenize (c :: cs) with
              | none => (false, q, ls)
              | some tokens =>
                match readQueryLine tokens q with
                | none => (false, q, ls)
                | some q => readQuery ls q) = (true, q', rest) := by
          intro ts q1 h1 h2 h3
          rw [(htok _).mpr h1]
          dsimp only
          rw [(readQueryLine_iff _ _ _).mpr h2]
          exact (ih _ _ _).mpr h3
        cases h with
        | skip _ h1 h2 => exact key h1 .skip h2
        | «from» h1 h2 h3 h4 => exact key h1 (.from h2 h3) h4
        | field h1 h2 h3 h4 => exact key h1 (.field h2 h3) h4

theorem readClass_rest (ls : List (List Char)) : ∀ (m m' : FMap String Variable) (rest : List (List Char)),
    readClass ls m = .ok (some (m', rest)) → rest <:+ ls := by
  induction ls with
  | nil => intro m m' rest h; cases h; exact List.suffix_refl _
  | cons line ls ih =>
    intro m m' rest h
    cases line with
    | nil => cases h; exact List.suffix_cons _ _
    | cons c cs =>
      unfold readClass at h
      cases ht : tokenize (c :: cs) with
      | none => rw [ht] at h; cases h
      | some ts =>
        rw [ht] at h
        cases ts with
        | nil => exact (ih _ _ _ h).trans (List.suffix_cons _ _)
        | cons t ts =>
          obtain ⟨v, hv, h⟩ := bind_ok.mp h
          cases v with
          | none => cases h
          | some v => exact (ih _ _ _ h).trans (List.suffix_cons _ _)

theorem readQuery_rest (ls : List (List Char)) : ∀ (q q' : Query) (b : Bool) (rest : List (List Char)),
    readQuery ls q = (b, q', rest) → rest <:+ ls := by
  induction ls with
  | nil => intro q q' b rest h; cases h; exact List.suffix_refl _
  | cons line ls ih =>
    intro q q' b rest h
    cases line with
    | nil => cases h; exact List.suffix_cons _ _
    | cons c cs =>
      unfold readQuery at h
      cases ht : tokenize (c :: cs) with
      | none => rw [ht] at h; cases h; exact List.suffix_cons _ _
      | some ts =>
        rw [ht] at h
        dsimp only at h
        cases hq : readQueryLine ts q with
        | none => rw [hq] at h; cases h; exact List.suffix_cons _ _
        | some q1 =>
          rw [hq] at h
          exact (ih _ _ _ _ h).trans (List.suffix_cons _ _)

theorem schemaLoop_iff : ∀ (fuel : Nat) (ls : List (List Char)), ls.length ≤ fuel → (∀ l ∈ ls, Char.ofNat 0 ∉ l) →
    ∀ (s s' : Schema), schemaLoop fuel ls s = .ok (true, s') ↔ File s ls s' := by
  intro fuel
  induction fuel with
  | zero =>
    intro ls hl _ s s'
    cases ls with
    | nil => exact ⟨fun h => (by cases h; exact .eof), fun h => (by cases h; rfl)⟩
    | cons _ _ => simp at hl
  | succ fuel ih =>
    intro ls hl h0 s s'
    cases ls with
    | nil => exact ⟨fun h => (by cases h; exact .eof), fun h => (by cases h; rfl)⟩
    | cons line ls =>
      have hl : ls.length ≤ fuel := by simpa using hl
      have h0' : ∀ l ∈ ls, Char.ofNat 0 ∉ l := fun l hl => h0 l (by simp [hl])
      have htok := C36_tokenize (h0 line (by simp))
      have ihr : ∀ {rest}, rest <:+ ls → ∀ (s s' : Schema), schemaLoop fuel rest s = .ok (true, s') ↔ File s rest s' :=
        fun hr s s' => ih _ (hr.length_le.trans hl) (fun l hl => h0' l (hr.subset hl)) s s'
      unfold schemaLoop
      constructor
      · intro h
        cases ht : tokenize line with
        | none => rw [ht] at h; cases h
        | some ts =>
          rw [ht] at h
          have hx := (htok ts).mp ht
          cases ts with
          | nil => exact .skip hx ((ihr (List.suffix_refl _) _ _).mp h)
          | cons t0 ts =>
            dsimp only at h
            split at h
            · cases h
            · next h1 =>
              have h1 := not_not.mp h1
              split at h
              · next h2 =>
                match ts, h, hx with
                | [], h, _ => cases h
                | _ :: _ :: _, h, _ => cases h
                | [t1], h, hx =>
                  obtain ⟨r, h3, h⟩ := bind_ok.mp h
                  cases r with
                  | none => cases h
                  | some r =>
                    obtain ⟨vars, rest⟩ := r
                    exact .cls hx h1 h2 ((readClass_iff ls h0' _ _ _).mp h3) ((ihr (readClass_rest _ _ _ _ h3) _ _).mp h)
              · next h2 =>
                split at h
                · next h3 =>
                  split at h
                  · cases h
                  · next h4 =>
                    split at h
                    · cases h
                    · next h5 =>
                      have h5 := not_not.mp h5
                      subst h5
                      cases hq : readQuery ls s.query with
                      | mk b r =>
                        obtain ⟨q, rest⟩ := r
                        rw [hq] at h
                        cases b with
                        | false => cases h
                        | true =>
                          exact .query hx h1 h3 (not_not.mp h4) ((readQuery_iff ls h0' _ _ _).mp hq) ((ihr (readQuery_rest _ _ _ _ _ hq) _ _).mp h)
                · cases h
      · intro h
        cases h with
        | skip h1 h2 =>
          rw [(htok _).mpr h1]
          exact (ihr (List.suffix_refl _) _ _).mpr h2
        | @cls _ _ kw n _ vars rest _ h1 h2 h3 h4 h5 =>
          rw [(htok _).mpr h1]
          dsimp only
          have h4 := (readClass_iff ls h0' _ _ _).mpr h4
          rw [if_neg (not_not.mpr h2), if_pos (show kw.val = "class".toList from h3)]
          exact bind_ok.mpr ⟨_, h4, (ihr (readClass_rest _ _ _ _ h4) _ _).mpr h5⟩
        | @query _ _ kw _ q rest _ h1 h2 h3 h4 h5 h6 =>
          rw [(htok _).mpr h1]
          dsimp only
          have h5 := (readQuery_iff ls h0' _ _ _).mpr h5
          rw [if_neg (not_not.mpr h2), if_neg (show ¬ kw.val = "class".toList by rw [show kw.val = "observe".toList from h3]; decide), if_pos (show kw.val = "observe".toList from h3), if_neg (not_not.mpr h4), if_neg (by simp), h5]
          exact (ihr (readQuery_rest _ _ _ _ _ h5) _ _).mpr h6

theorem VarCut.ne_nil {ts : List Token} (h : VarCut ts) : ts ≠ [] := by cases h; simp

theorem readClass_ub (ls : List (List Char)) (h0 : ∀ l ∈ ls, Char.ofNat 0 ∉ l) : ∀ (m : FMap String Variable) (e : Err),
    readClass ls m = .error e ↔ e = .ub ∧ ClassCut ls := by
  induction ls with
  | nil => exact fun m e => ⟨fun h => (by cases h), fun h => (by cases h.2)⟩
  | cons line ls ih =>
    intro m e
    have ih := ih (fun l hl => h0 l (by simp [hl]))
    have htok := C36_tokenize (h0 line (by simp))
    cases line with
    | nil =>
      refine ⟨fun h => (by cases h), fun h => ?_⟩
      obtain ⟨rfl, h⟩ := h
      cases h with
      | here h1 h2 =>
        cases h1
        exact absurd rfl h2.ne_nil
      | skip h => exact absurd rfl h
      | var h1 h2 =>
        cases h1
        exact absurd rfl h2.ne_nil
    | cons c cs =>
      unfold readClass
      constructor
      · intro h
        cases ht : tokenize (c :: cs) with
        | none => rw [ht] at h; cases h
        | some ts =>
          rw [ht] at h
          have hl := (htok ts).mp ht
          cases ts with
          | nil =>
            obtain ⟨h1, h2⟩ := (ih _ _).mp h
            exact ⟨h1, .skip (by simp) hl h2⟩
          | cons t ts =>
            rcases UtilIO.bind_error_iff.mp h with h | ⟨v, hv, h⟩
            · obtain ⟨h1, h2⟩ := (readVariable_ub _ _).mp h
              exact ⟨h1, .here hl h2⟩
            · cases v with
              | none => cases h
              | some v =>
                obtain ⟨h1, h2⟩ := (ih _ _).mp h
                exact ⟨h1, .var hl ((readVariable_iff _ _).mp hv) h2⟩
      · rintro ⟨rfl, h⟩
        cases h with
        | @here _ ts _ h1 h2 =>
          rw [(htok _).mpr h1]
          cases ts with
          | nil => exact absurd rfl h2.ne_nil
          | cons t ts => exact UtilIO.bind_error_iff.mpr (.inl ((readVariable_ub _ _).mpr ⟨rfl, h2⟩))
        | skip _ h1 h2 =>
          rw [(htok _).mpr h1]
          exact (ih _ _).mpr ⟨rfl, h2⟩
        | @var _ ts v _ h1 h2 h3 =>
          rw [(htok _).mpr h1]
          cases ts with
          | nil => exact absurd rfl h2.ne_nil
          | cons t ts => exact UtilIO.bind_error_iff.mpr (.inr ⟨some v, (readVariable_iff _ _).mpr h2, (ih _ _).mpr ⟨rfl, h3⟩⟩)

theorem schemaLoop_ub : ∀ (fuel : Nat) (ls : List (List Char)), ls.length ≤ fuel → (∀ l ∈ ls, Char.ofNat 0 ∉ l) →
    ∀ (s : Schema) (e : Err), schemaLoop fuel ls s = .error e ↔ e = .ub ∧ FileCut s ls := by
  intro fuel
  induction fuel with
  | zero =>
    intro ls hl _ s e
    cases ls with
    | nil => exact ⟨fun h => (by cases h), fun h => (by cases h.2)⟩
    | cons _ _ => simp at hl
  | succ fuel ih =>
    intro ls hl h0 s e
    cases ls with
    | nil => exact ⟨fun h => (by cases h), fun h => (by cases h.2)⟩
    | cons line ls =>
      have hl : ls.length ≤ fuel := by simpa using hl
      have h0' : ∀ l ∈ ls, Char.ofNat 0 ∉ l := fun l hl => h0 l (by simp [hl])
      have htok := C36_tokenize (h0 line (by simp))
      have ihr : ∀ {rest}, rest <:+ ls → ∀ (s : Schema) (e : Err), schemaLoop fuel rest s = .error e ↔ e = .ub ∧ FileCut s rest :=
        fun hr s e => ih _ (hr.length_le.trans hl) (fun l hl => h0' l (hr.subset hl)) s e
      unfold schemaLoop
      constructor
      · intro h
        cases ht : tokenize line with
        | none => rw [ht] at h; cases h
        | some ts =>
          rw [ht] at h
          have hx := (htok ts).mp ht
          cases ts with
          | nil =>
            obtain ⟨g1, g2⟩ := (ihr (List.suffix_refl _) _ _).mp h
            exact ⟨g1, .skip hx g2⟩
          | cons t0 ts =>
            dsimp only at h
            split at h
            · cases h
            · next h1 =>
              have h1 := not_not.mp h1
              split at h
              · next h2 =>
                match ts, h, hx with
                | [], h, _ => cases h
                | _ :: _ :: _, h, _ => cases h
                | [t1], h, hx =>
                  rcases UtilIO.bind_error_iff.mp h with h | ⟨r, h3, h⟩
                  · obtain ⟨g1, g2⟩ := (readClass_ub ls h0' _ _).mp h
                    exact ⟨g1, .here hx h1 h2 g2⟩
                  · cases r with
                    | none => cases h
                    | some r =>
                      obtain ⟨vars, rest⟩ := r
                      obtain ⟨g1, g2⟩ := (ihr (readClass_rest _ _ _ _ h3) _ _).mp h
                      exact ⟨g1, .cls hx h1 h2 ((readClass_iff ls h0' _ _ _).mp h3) g2⟩
              · next h2 =>
                split at h
                · next h3 =>
                  split at h
                  · cases h
                  · next h4 =>
                    split at h
                    · cases h
                    · next h5 =>
                      have h5 := not_not.mp h5
                      subst h5
                      cases hq : readQuery ls s.query with
                      | mk b r =>
                        obtain ⟨q, rest⟩ := r
                        rw [hq] at h
                        cases b with
                        | false => cases h
                        | true =>
                          obtain ⟨g1, g2⟩ := (ihr (readQuery_rest _ _ _ _ _ hq) _ _).mp h
                          exact ⟨g1, .query hx h1 h3 (not_not.mp h4) ((readQuery_iff ls h0' _ _ _).mp hq) g2⟩
                · cases h
      · rintro ⟨rfl, h⟩
        cases h with
        | @here _ _ kw n _ h1 h2 h3 h4 =>
          rw [(htok _).mpr h1]
          dsimp only
          rw [if_neg (not_not.mpr h2), if_pos (show kw.val = "class".toList from h3)]
          exact UtilIO.bind_error_iff.mpr (.inl ((readClass_ub ls h0' _ _).mpr ⟨rfl, h4⟩))
        | skip h1 h2 =>
          rw [(htok _).mpr h1]
          exact (ihr (List.suffix_refl _) _ _).mpr ⟨rfl, h2⟩
        | @cls _ _ kw n _ vars rest h1 h2 h3 h4 h5 =>
          rw [(htok _).mpr h1]
          dsimp only
          have h4 := (readClass_iff ls h0' _ _ _).mpr h4
          rw [if_neg (not_not.mpr h2), if_pos (show kw.val = "class".toList from h3)]
          exact UtilIO.bind_error_iff.mpr (.inr ⟨_, h4, (ihr (readClass_rest _ _ _ _ h4) _ _).mpr ⟨rfl, h5⟩⟩)
        | @query _ _ kw _ q rest h1 h2 h3 h4 h5 h6 =>
          rw [(htok _).mpr h1]
          dsimp only
          have h5 := (readQuery_iff ls h0' _ _ _).mpr h5
          rw [if_neg (not_not.mpr h2), if_neg (show ¬ kw.val = "class".toList by rw [show kw.val = "observe".toList from h3]; decide), if_pos (show kw.val = "observe".toList from h3), if_neg (not_not.mpr h4), if_neg (by simp), h5]
          exact (ihr (readQuery_rest _ _ _ _ _ h5) _ _).mpr ⟨rfl, h6⟩

/-! ### A schema that is written out -/

/-- tokens that can be written on a line -/
def Spelled (t : Token) : Prop := Writable t ∧ '\n' ∉ t.val ∧ Char.ofNat 0 ∉ t.val

theorem Spelled.name {s : String} (h : Name s) : Spelled (idTok s) := by
  obtain ⟨c, w, h1, h2, h3⟩ := h
  have hno : ∀ x : Char, (¬ Letter x ∧ ¬ Digit x ∧ x ≠ '_') → x ∉ s.toList := by
    rintro x ⟨g1, g2, g3⟩ hx
    rw [h1] at hx
    rcases List.mem_cons.mp hx with rfl | hx
    · rcases h2 with h2 | h2
      · exact g1 h2
      · exact g3 h2
    · rcases h3 x hx with h | h | h
      · exact g1 h
      · exact g2 h
      · exact g3 h
  refine ⟨⟨c, w, h1, h2, h3⟩, hno _ ⟨?_, ?_, ?_⟩, hno _ ⟨?_, ?_, ?_⟩⟩ <;> first | (unfold Letter; decide) | (unfold Digit; decide) | decide

theorem Spelled.sym {c : Char} (h : c ∈ "~().,=".toList) : Spelled (symTok c) := by
  have h : c = '~' ∨ c = '(' ∨ c = ')' ∨ c = '.' ∨ c = ',' ∨ c = '=' := by simpa using h
  refine ⟨⟨c, ?_, rfl⟩, ?_, ?_⟩
  · unfold Symbol; rcases h with rfl | rfl | rfl | rfl | rfl | rfl <;> decide
  · show '\n' ∉ [c]; rcases h with rfl | rfl | rfl | rfl | rfl | rfl <;> decide
  · show Char.ofNat 0 ∉ [c]; rcases h with rfl | rfl | rfl | rfl | rfl | rfl <;> decide

theorem Spelled.str {s : String} (h : Quotable s) : Spelled (strTok s) := ⟨h.1, h.2.1, h.2.2⟩

theorem lineOf_lexed {ts : List Token} (h : ∀ t ∈ ts, Spelled t) : Lexed (lineOf ts) ts ∧ '\n' ∉ lineOf ts ∧ Char.ofNat 0 ∉ lineOf ts := by
  have hc : '\n' ∉ lineOf ts ∧ Char.ofNat 0 ∉ lineOf ts := by
    constructor <;> intro hc <;> obtain ⟨t, b, htb, hc⟩ := mem_writeLine hc <;> obtain ⟨t', ht, he⟩ := List.mem_map.mp htb <;> cases he
    · rcases hc with hc | hc | hc | hc
      · exact (h _ ht).2.1 hc
      all_goals revert hc; decide
    · rcases hc with hc | hc | hc | hc
      · exact (h _ ht).2.2 hc
      all_goals revert hc; decide
  refine ⟨?_, hc⟩
  have := C36_round_trip (ts.map (fun t => (t, [' ']))) ?_ [] [] (by simp) (.inl rfl)
  · rw [List.map_map] at this
    have he : (Prod.fst ∘ fun t : Token => (t, [' '])) = id := rfl
    rw [he, List.map_id] at this
    refine (C36_tokenize hc.2 _).mp ?_
    rw [List.append_nil] at this
    exact this
  · intro t b htb
    obtain ⟨t', ht, he⟩ := List.mem_map.mp htb
    cases he
    exact ⟨(h _ ht).1, by simp, fun c hc => by rw [List.mem_singleton] at hc; subst hc; unfold Blank; decide⟩

theorem spelled_params : ∀ (l : List (String × String)), (∀ p ∈ l, Name p.1 ∧ Quotable p.2) → ∀ t ∈ paramTokens l, Spelled t
  | [], _, t, ht => by
    rw [paramTokens, List.mem_singleton] at ht
    subst ht
    exact .sym (by decide)
  | [p], h, t, ht => by
    simp only [paramTokens, List.mem_cons, List.not_mem_nil, or_false] at ht
    rcases ht with rfl | rfl | rfl | rfl
    · exact .name (h p (by simp)).1
    · exact .sym (by decide)
    · exact .str (h p (by simp)).2
    · exact .sym (by decide)
  | p :: p' :: l, h, t, ht => by
    simp only [paramTokens, List.mem_cons] at ht
    rcases ht with rfl | rfl | rfl | rfl | ht
    · exact .name (h p (by simp)).1
    · exact .sym (by decide)
    · exact .str (h p (by simp)).2
    · exact .sym (by decide)
    · exact spelled_params (p' :: l) (fun q hq => h q (by simp only [List.mem_cons] at hq ⊢; exact .inr hq)) t (by simpa using ht)

theorem varParams_written : ∀ (l : List (String × String)) (m : FMap String String),
    VarParams m (paramTokens l) (l.foldl (fun m e => m.set e.1 e.2) m)
  | [], _ => .one
  | [p], m => by
    have h : VarParams m (paramTokens [p]) (m.set (String.ofList p.1.toList) (String.ofList p.2.toList)) := .more rfl (.inr rfl) .nil
    rw [String.ofList_toList, String.ofList_toList] at h
    exact h
  | p :: p' :: l, m => by
    refine .more (k := idTok p.1) (v := strTok p.2) rfl (.inl rfl) ?_
    show VarParams (m.set (String.ofList p.1.toList) (String.ofList p.2.toList)) _ _
    rw [String.ofList_toList, String.ofList_toList]
    exact varParams_written (p' :: l) _

theorem variable_written {v : Variable} (h : v.Ok) : VarLine v.tokens v ∧ ∀ t ∈ v.tokens, Spelled t := by
  obtain ⟨n, spec⟩ := v
  obtain ⟨h1, h2⟩ := h
  cases spec with
  | cls c =>
    dsimp only at h1 h2
    constructor
    · have : VarLine [idTok n, symTok '~', idTok c] ⟨String.ofList n.toList, .cls (String.ofList c.toList)⟩ := .cls rfl h2.2
      rw [String.ofList_toList, String.ofList_toList] at this
      exact this
    · intro t ht
      simp only [Variable.tokens, List.mem_cons, List.not_mem_nil, or_false] at ht
      rcases ht with rfl | rfl | rfl
      · exact .name h1
      · exact .sym (by decide)
      · exact .name h2.1
  | scalar j ps =>
    dsimp only at h1 h2
    constructor
    · have : VarLine ([idTok n, symTok '~', idTok j, symTok '('] ++ paramTokens ps.entries)
          ⟨String.ofList n.toList, .scalar (String.ofList j.toList) (ps.entries.foldl (fun m e => m.set e.1 e.2) ∅)⟩ :=
        .scalar rfl (varParams_written _ _)
      rw [String.ofList_toList, String.ofList_toList, foldl_entries] at this
      exact this
    · intro t ht
      simp only [Variable.tokens, List.mem_append, List.mem_cons, List.not_mem_nil, or_false] at ht
      rcases ht with (rfl | rfl | rfl | rfl) | ht
      · exact .name h1
      · exact .sym (by decide)
      · exact .name h2.1
      · exact .sym (by decide)
      · exact spelled_params _ (fun p hp => h2.2 p.1 p.2 (FMap.mem_entries.mp hp)) t ht

theorem body_written (rest : List (List Char)) : ∀ (l : List (String × Variable)) (m : FMap String Variable), (∀ e ∈ l, e.2.name = e.1 ∧ e.2.Ok) →
    ClassBody m (l.map (fun e => lineOf e.2.tokens) ++ [] :: rest) (l.foldl (fun m e => m.set e.1 e.2) m) rest
  | [], _, _ => .empty
  | e :: l, m, h => by
    obtain ⟨h1, h2⟩ := h e (by simp)
    obtain ⟨h3, h4⟩ := variable_written h2
    refine .var (lineOf_lexed h4).1 h3 ?_
    rw [h1]
    exact body_written rest l _ (fun e he => h e (by simp [he]))

theorem name_class : Name "class" := ⟨'c', "lass".toList, rfl, by unfold Letter; decide, by unfold InName Letter Digit; decide⟩
theorem name_observe : Name "observe" := ⟨'o', "bserve".toList, rfl, by unfold Letter; decide, by unfold InName Letter Digit; decide⟩
theorem name_from : Name "from" := ⟨'f', "rom".toList, rfl, by unfold Letter; decide, by unfold InName Letter Digit; decide⟩
theorem name_as : Name "as" := ⟨'a', "s".toList, rfl, by unfold Letter; decide, by unfold InName Letter Digit; decide⟩

theorem spelled_names {l : List String} (h : ∀ s ∈ l, Name s) : ∀ t ∈ l.map idTok, Spelled t := by
  intro t ht
  obtain ⟨s, hs, rfl⟩ := List.mem_map.mp ht
  exact .name (h s hs)

theorem spelled_path : ∀ (l : List String), (∀ s ∈ l, Name s) → ∀ t ∈ pathTokens l, Spelled t
  | [], _, t, ht => by cases ht
  | [a], h, t, ht => by
    rw [pathTokens, List.mem_singleton] at ht
    subst ht
    exact .name (h a (by simp))
  | a :: b :: l, h, t, ht => by
    simp only [pathTokens, List.mem_cons] at ht
    rcases ht with rfl | rfl | ht
    · exact .name (h a (by simp))
    · exact .sym (by decide)
    · exact spelled_path (b :: l) (fun q hq => h q (by simp only [List.mem_cons] at hq ⊢; exact .inr hq)) t (by simpa using ht)

theorem path_written : ∀ (l : List String), Path (pathTokens l) l
  | [] => .nil
  | [a] => by
    have : Path [idTok a] [String.ofList a.toList] := .one
    rw [String.ofList_toList] at this
    exact this
  | a :: b :: l => by
    have : Path (idTok a :: symTok '.' :: pathTokens (b :: l)) (String.ofList a.toList :: (b :: l)) := .more rfl (path_written (b :: l))
    rw [String.ofList_toList] at this
    exact this

/-- a field that can be written -/
def FieldOk (f : QueryField) : Prop := Name f.name ∧ (∀ a ∈ f.classPath, Name a) ∧ f.classPath ≠ [] ∧ f.classPath.head? ≠ some "from"

theorem spelled_field {f : QueryField} (h : FieldOk f) : ∀ t ∈ f.tokens, Spelled t := by
  intro t ht
  simp only [QueryField.tokens, List.mem_append, List.mem_cons, List.not_mem_nil, or_false] at ht
  rcases ht with ht | rfl | rfl
  · exact spelled_path _ h.2.1 t ht
  · exact .name name_as
  · exact .name h.1

theorem query_written (rest : List (List Char)) (rc : String) (hrc : Name rc) : ∀ (l : List (String × QueryField)) (q : Query), q.recordClass = "" →
    (∀ e ∈ l, e.2.name = e.1 ∧ FieldOk e.2) →
    QueryBody q (l.map (fun e => lineOf e.2.tokens) ++ lineOf [idTok "from", idTok rc] :: [] :: rest)
      ⟨rc, l.foldl (fun m e => m.set e.1 e.2) q.fields⟩ rest
  | [], q, hq, _ => by
    refine .from (lineOf_lexed (spelled_names (l := ["from", rc]) ?_)).1 rfl hq ?_
    · intro s hs
      simp only [List.mem_cons, List.not_mem_nil, or_false] at hs
      rcases hs with rfl | rfl
      · exact name_from
      · exact hrc
    · show QueryBody ⟨String.ofList rc.toList, q.fields⟩ ([] :: rest) ⟨rc, q.fields⟩ rest
      rw [String.ofList_toList]
      exact .empty
  | e :: l, q, hq, h => by
    obtain ⟨h1, h2⟩ := h e (by simp)
    obtain ⟨n, f⟩ := e
    obtain ⟨fn, path⟩ := f
    dsimp only at h1
    subst h1
    obtain ⟨a, p, hp⟩ := List.exists_cons_of_ne_nil h2.2.2.1
    dsimp only at hp
    subst hp
    have hx := (lineOf_lexed (spelled_field h2)).1
    obtain ⟨ts, hts⟩ : ∃ ts, pathTokens (a :: p) = idTok a :: ts := by
      cases p with
      | nil => exact ⟨[], rfl⟩
      | cons b p => exact ⟨_, rfl⟩
    have hpath := path_written (a :: p)
    unfold QueryField.tokens at hx
    dsimp only at hx
    rw [hts] at hx hpath
    have hfrom : ¬ Is (idTok a) "from" := by
      intro hi
      refine h2.2.2.2 ?_
      have : a = "from" := String.toList_inj.mp hi
      rw [this]
      rfl
    have key := query_written rest rc hrc l { q with fields := q.fields.set fn ⟨fn, a :: p⟩ } hq (fun e he => h e (by simp [he]))
    have heq : lineOf (QueryField.tokens ⟨fn, a :: p⟩) = lineOf (idTok a :: ts ++ [idTok "as", idTok fn]) := by
      unfold QueryField.tokens
      dsimp only
      rw [hts]
    rw [List.map_cons, List.cons_append]
    dsimp only
    rw [heq]
    refine .field hx hfrom hpath ?_
    show QueryBody { q with fields := q.fields.set (String.ofList fn.toList) ⟨String.ofList fn.toList, a :: p⟩ } _ _ _
    rw [String.ofList_toList]
    exact key

theorem classes_written (rest : List (List Char)) (s' : Schema) : ∀ (l : List (String × Class)) (s : Schema),
    (∀ e ∈ l, e.2.name = e.1 ∧ Name e.1 ∧ ∀ m v, e.2.vars.find? m = some v → v.name = m ∧ v.Ok) →
    File { s with classes := l.foldl (fun m e => m.set e.1 e.2) s.classes } rest s' → File s (l.flatMap (fun e => e.2.lines) ++ rest) s'
  | [], _, _, h => h
  | e :: l, s, hl, h => by
    obtain ⟨h1, h2, h3⟩ := hl e (by simp)
    obtain ⟨n, c⟩ := e
    obtain ⟨cn, vars⟩ := c
    dsimp only at h1
    subst h1
    rw [List.flatMap_cons, List.append_assoc]
    have hx := (lineOf_lexed (spelled_names (l := ["class", cn]) (by
      intro s hs
      simp only [List.mem_cons, List.not_mem_nil, or_false] at hs
      rcases hs with rfl | rfl
      · exact name_class
      · exact h2))).1
    have hb := body_written (l.flatMap (fun e => e.2.lines) ++ rest) vars.entries ∅ (fun e he => h3 e.1 e.2 (FMap.mem_entries.mp he))
    rw [foldl_entries] at hb
    unfold Class.lines
    dsimp only
    rw [List.append_assoc, List.cons_append]
    refine .cls hx rfl rfl hb ?_
    show File { s with classes := s.classes.set (String.ofList cn.toList) ⟨String.ofList cn.toList, vars⟩ } _ _
    rw [String.ofList_toList]
    exact classes_written rest s' l _ (fun e he => hl e (by simp [he])) h

theorem schema_written {s : Schema} (h : s.Ok) : File Schema.empty s.lines s := by
  unfold Schema.lines
  refine classes_written _ _ _ _ (fun e he => ?_) ?_
  · obtain ⟨h1, h2, h3⟩ := h.classes e.1 e.2 (FMap.mem_entries.mp he)
    exact ⟨h1, h2, h3⟩
  · show File ⟨s.classes.entries.foldl (fun m e => m.set e.1 e.2) ∅, ⟨"", ∅⟩⟩ _ _
    rw [foldl_entries]
    unfold Query.lines
    rw [List.cons_append]
    have hx := (lineOf_lexed (spelled_names (l := ["observe"]) (by simpa using name_observe))).1
    have hb := query_written [] s.query.recordClass h.query s.query.fields.entries ⟨"", ∅⟩ rfl
      (fun e he => by
        obtain ⟨h1, h2, h3⟩ := h.fields e.1 e.2 (FMap.mem_entries.mp he)
        exact ⟨h1, by rw [FieldOk, h1]; exact ⟨h2, h3⟩⟩)
    rw [foldl_entries] at hb
    exact .query hx rfl rfl rfl hb .eof

theorem lines_written {s : Schema} (h : s.Ok) : ∀ l ∈ s.lines, '\n' ∉ l ∧ Char.ofNat 0 ∉ l := by
  intro l hl
  have hnil : l = [] → '\n' ∉ l ∧ Char.ofNat 0 ∉ l := by rintro rfl; simp
  unfold Schema.lines Query.lines at hl
  rcases List.mem_append.mp hl with hl | hl
  · obtain ⟨e, he, hl⟩ := List.mem_flatMap.mp hl
    obtain ⟨h1, h2, h3⟩ := h.classes e.1 e.2 (FMap.mem_entries.mp he)
    unfold Class.lines at hl
    simp only [List.cons_append, List.mem_cons, List.mem_append, List.not_mem_nil, or_false] at hl
    rcases hl with rfl | hl | hl
    · refine (lineOf_lexed (spelled_names (l := ["class", e.2.name]) ?_)).2
      intro s hs
      simp only [List.mem_cons, List.not_mem_nil, or_false] at hs
      rcases hs with rfl | rfl
      · exact name_class
      · rw [h1]; exact h2
    · obtain ⟨v, hv, rfl⟩ := List.mem_map.mp hl
      exact (lineOf_lexed (variable_written (h3 v.1 v.2 (FMap.mem_entries.mp hv)).2).2).2
    · exact hnil hl
  · simp only [List.cons_append, List.mem_cons, List.mem_append, List.not_mem_nil, or_false] at hl
    rcases hl with rfl | hl | rfl | hl
    · exact (lineOf_lexed (spelled_names (l := ["observe"]) (by simpa using name_observe))).2
    · obtain ⟨f, hf, rfl⟩ := List.mem_map.mp hl
      obtain ⟨h1, h2, h3⟩ := h.fields f.1 f.2 (FMap.mem_entries.mp hf)
      exact (lineOf_lexed (spelled_field (by rw [FieldOk, h1]; exact ⟨h2, h3⟩))).2
    · refine (lineOf_lexed (spelled_names (l := ["from", s.query.recordClass]) ?_)).2
      intro x hx
      simp only [List.mem_cons, List.not_mem_nil, or_false] at hx
      rcases hx with rfl | rfl
      · exact name_from
      · exact h.query
    · exact hnil hl

end PClean
end Verif
