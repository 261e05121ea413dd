import Verif.Lemmas.PCleanIO
/-!
PClean schema files: the part of C53 about `read_schema`.
-/
namespace Verif
namespace PClean
open Text Verif.Lex

/-- C53: exactly the lines of the grammar `VarLine` are accepted in a class, and they are read as the variable that they declare. -/
theorem C53_variable (ts : List Token) (v : Variable) : readVariable ts = .ok (some v) ↔ VarLine ts v := readVariable_iff ts v

/-- C53: exactly the files of the grammar `File` are accepted, and they are read as the schema that they declare. -/
theorem C53_read_schema {text : List Char} (h0 : Char.ofNat 0 ∉ text) (s : Schema) :
    readSchema text Schema.empty = .ok (true, s) ↔ File Schema.empty (lines text) s :=
  schemaLoop_iff _ _ (Nat.le_refl _) (fun _ hl hm => h0 (parts_subset hl hm)) _ _

/-- C53: a schema that is written out is read back. -/
theorem C53_pclean_round_trip (s : Schema) (h : s.Ok) : readSchema s.text Schema.empty = .ok (true, s) := by
  have hl : lines s.text = s.lines := lines_flatMap _ (fun l hl => (lines_written h l hl).1)
  unfold readSchema
  rw [hl]
  exact (schemaLoop_iff _ _ (Nat.le_refl _) (fun l hl => (lines_written h l hl).2) _ _).mpr (schema_written h)

/-- C53 is false: exactly for the files in which a line of a class breaks off after the value of a parameter, `read_schema` reads past the end
of the tokens of that line. -/
theorem C53_pclean_past_end_false {text : List Char} (h0 : Char.ofNat 0 ∉ text) (s : Schema) (e : Err) :
    readSchema text s = .error e ↔ e = .ub ∧ FileCut s (lines text) :=
  schemaLoop_ub _ _ (Nat.le_refl _) (fun _ hl hm => h0 (parts_subset hl hm)) _ _

/-- C53: every other file is refused: `read_schema` always returns, unless it reads past the end. -/
theorem C53_pclean_refused {text : List Char} (h0 : Char.ofNat 0 ∉ text) (h1 : ¬ ∃ s, File Schema.empty (lines text) s)
    (h2 : ¬ FileCut Schema.empty (lines text)) : ∃ s, readSchema text Schema.empty = .ok (false, s) := by
  cases h : readSchema text Schema.empty with
  | error e => exact absurd ((C53_pclean_past_end_false h0 _ _).mp h).2 h2
  | ok r =>
    obtain ⟨b, s⟩ := r
    cases b with
    | false => exact ⟨s, rfl⟩
    | true => exact absurd ⟨s, (C53_read_schema h0 s).mp h⟩ h1

/-- C53 is false: `name ~ stringcat(strings="a b"`, without the closing parenthesis, makes `read_schema` read past the end of the tokens. -/
theorem C53_open_parameters_false : readVariable [idTok "name", symTok '~', idTok "stringcat", symTok '(', idTok "strings", symTok '=', strTok "a b"] =
    .error .ub := rfl

/-- C53 is false: malformed lines are accepted.  The token before the parameters may be anything, and so may one token after them, and
the commas may be parentheses. -/
theorem C53_malformed_false : ∃ v, readVariable [idTok "x", symTok '~', idTok "bool", symTok '+', symTok '*'] = .ok (some v) ∧
    readVariable [idTok "x", symTok '~', idTok "bool", symTok '('] = .ok (some v) ∧ v = ⟨"x", .scalar "bool" ∅⟩ ∧
    (∃ w, readVariable [idTok "x", symTok '~', idTok "c", symTok '=', idTok "k", symTok '=', idTok "v", symTok ')', idTok "l", symTok '=', idTok "w", symTok ','] =
      .ok (some w) ∧ w = ⟨"x", .scalar "c" (((∅ : FMap String String).set "k" "v").set "l" "w")⟩) :=
  ⟨_, rfl, rfl, rfl, _, rfl, rfl⟩

/-- C53 is false: when a query is refused, its earlier lines have already changed the schema; pclean.cc:75-77 goes on with it. -/
theorem C53_refused_query_false : ∃ q ls, readQuery ["a as A".toList, "b".toList] ⟨"", ∅⟩ = (false, q, ls) ∧
    q = ⟨"", (∅ : FMap String QueryField).set "A" ⟨"A", ["a"]⟩⟩ := ⟨_, _, rfl, rfl⟩

/-! ### concrete cases -/

def exSchema : Schema :=
  { classes := ((∅ : FMap String Class).set "City" ⟨"City", (∅ : FMap String Variable).set "name" ⟨"name", .scalar "string" ((∅ : FMap String String).set "maxlength" "9")⟩⟩).set
      "Record" ⟨"Record", (∅ : FMap String Variable).set "city" ⟨"city", .cls "City"⟩⟩
    query := ⟨"Record", (∅ : FMap String QueryField).set "C" ⟨"C", ["city", "name"]⟩⟩ }

/-- a test for identifiers -/
def nameB (s : String) : Bool :=
  match s.toList with
  | [] => false
  | c :: w => "abcdefghijklmnopqrstuvwxyzABCDEFGHIJKLMNOPQRSTUVWXYZ".toList.contains c &&
      w.all (fun x => "abcdefghijklmnopqrstuvwxyzABCDEFGHIJKLMNOPQRSTUVWXYZ".toList.contains x)

theorem nameB_sound {s : String} (h : nameB s = true) : Name s := by
  unfold nameB at h
  unfold Name
  cases hs : s.toList with
  | nil => rw [hs] at h; cases h
  | cons c w =>
    rw [hs] at h
    simp only [Bool.and_eq_true, List.all_eq_true, List.contains_iff_mem] at h
    exact ⟨c, w, rfl, .inl h.1, fun x hx => .inl (h.2 x hx)⟩

/-- C53_pclean_round_trip: two classes and a query -/
theorem exSchema_ok : exSchema.Ok where
  classes := by
    intro n c h
    have h : (n, c) ∈ [("City", (⟨"City", (∅ : FMap String Variable).set "name" ⟨"name", .scalar "string" ((∅ : FMap String String).set "maxlength" "9")⟩⟩ : Class)),
      ("Record", ⟨"Record", (∅ : FMap String Variable).set "city" ⟨"city", .cls "City"⟩⟩)] := FMap.mem_entries.mpr h
    simp only [List.mem_cons, Prod.mk.injEq, List.not_mem_nil, or_false] at h
    rcases h with ⟨rfl, rfl⟩ | ⟨rfl, rfl⟩
    · refine ⟨rfl, nameB_sound rfl, fun m v h => ?_⟩
      dsimp only at h
      rw [FMap.find?_set, FMap.find?_empty] at h
      split at h
      · next hm =>
        cases h
        refine ⟨hm.symm, nameB_sound rfl, nameB_sound rfl, fun k v h => ?_⟩
        rw [FMap.find?_set, FMap.find?_empty] at h
        split at h
        · next hk =>
          cases h
          subst hk
          exact ⟨nameB_sound rfl, .inl (by decide), by decide, by decide⟩
        · cases h
      · cases h
    · refine ⟨rfl, nameB_sound rfl, fun m v h => ?_⟩
      dsimp only at h
      rw [FMap.find?_set, FMap.find?_empty] at h
      split at h
      · next hm =>
        cases h
        exact ⟨hm.symm, nameB_sound rfl, nameB_sound rfl, 'C', "ity".toList, rfl, by decide⟩
      · cases h
  fields := by
    intro n f h
    have h : ((∅ : FMap String QueryField).set "C" ⟨"C", ["city", "name"]⟩).find? n = some f := h
    rw [FMap.find?_set, FMap.find?_empty] at h
    split at h
    · next hn =>
      cases h
      subst hn
      refine ⟨rfl, nameB_sound rfl, ?_, by simp, by simp⟩
      intro a ha
      simp only [List.mem_cons, List.not_mem_nil, or_false] at ha
      rcases ha with rfl | rfl <;> exact nameB_sound rfl
    · cases h
  query := nameB_sound rfl

example : readSchema exSchema.text Schema.empty = .ok (true, exSchema) := C53_pclean_round_trip _ exSchema_ok
set_option maxRecDepth 4000 in
example : exSchema.text = ("class City \nname ~ string ( maxlength = \"9\" ) \n\nclass Record \ncity ~ City \n\n" ++
    "observe \ncity . name as C \nfrom Record \n\n").toList := rfl

/-- C53_read_schema, C53_pclean_past_end_false: a file that breaks off -/
example : ∃ text, FileCut Schema.empty (lines text) ∧ Char.ofNat 0 ∉ text := by
  refine ⟨"class A\nx ~ c(k=v".toList, ?_, by decide⟩
  have h : lines "class A\nx ~ c(k=v".toList = ["class A".toList, "x ~ c(k=v".toList] := rfl
  rw [h]
  refine .here (kw := idTok "class") (n := idTok "A") ((C36_tokenize (by decide) _).mp rfl) rfl rfl (.here (ts := [idTok "x", symTok '~', idTok "c", symTok '(', idTok "k", symTok '=', idTok "v"]) ((C36_tokenize (by decide) _).mp rfl) (.mk rfl (.here rfl)))

end PClean
end Verif
