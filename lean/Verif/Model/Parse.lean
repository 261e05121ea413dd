import Verif.Model.Text
/-!
Model of util_parse.cc: the tokenizer.
-/
namespace Verif
open Text

/-- util_parse.hh:6 `TokenType`. -/
inductive TokenType where
  | identifier | symbol | number | string
  deriving DecidableEq, Repr

/-- util_parse.hh:8-11 `Token`. -/
structure Token where
  type : TokenType
  val : List Char
  deriving DecidableEq, Repr

/-- util_parse.cc:6 and 20: `strchr(SYMBOL_CHARS, c) != NULL`; `strchr` also finds the terminating NUL character. -/
def isSymbol (c : Char) : Bool := "~()[]{}<>.,:;=+*-/".toList.contains c || c.toNat == 0

/-- util_parse.cc:43: a character of a number after its first. -/
def numberChar (c : Char) : Bool := isDigit c || c == '.' || c == '_'

/-- util_parse.cc:55: a character of an identifier. -/
def idChar (c : Char) : Bool := isAlnum c || c == '_'

/-- util_parse.cc:25-36: the characters up to the closing quote and those after it; `none` for an unclosed string. -/
def stringBody (q : Char) : List Char → Option (List Char × List Char)
  | [] => none
  | c :: cs => if c = q then some ([], cs) else (stringBody q cs).map fun (b, r) => (c :: b, r)

/-- util_parse.cc:7-70: the loop of `tokenize` over the rest of the line; `none` models the result `false`.  `fuel` is a bound on the number of
iterations; the length of the line is one. -/
def tokenizeLoop : Nat → List Char → Option (List Token)
  | _, [] => some []
  | 0, _ :: _ => none
  | fuel + 1, c :: cs =>
    if c = '#' then some []
    else if isSpace c then tokenizeLoop fuel cs
    else if isSymbol c then (tokenizeLoop fuel cs).map (⟨.symbol, [c]⟩ :: ·)
    else if c = '"' ∨ c = '\'' then
      match stringBody c cs with
      | none => none
      | some (b, r) => (tokenizeLoop fuel r).map (⟨.string, b⟩ :: ·)
    else if isDigit c || c == '.' then
      (tokenizeLoop fuel (cs.dropWhile numberChar)).map (⟨.number, c :: cs.takeWhile numberChar⟩ :: ·)
    else if isAlnum c || c == '_' then
      (tokenizeLoop fuel (cs.dropWhile idChar)).map (⟨.identifier, c :: cs.takeWhile idChar⟩ :: ·)
    else none

/-- util_parse.cc:7-70 `tokenize`.  Simplification: on failure the tokens found so far are not returned; no caller uses them. -/
def tokenize (line : List Char) : Option (List Token) := tokenizeLoop line.length line

end Verif
