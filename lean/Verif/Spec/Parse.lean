import Verif.Model.Parse
/-!
The lexical grammar of schema files, stated without reference to the tokenizer.
-/
namespace Verif
namespace Lex

/-- blank characters of the C locale -/
def Blank (c : Char) : Prop := c ∈ [' ', '\t', '\n', Char.ofNat 11, Char.ofNat 12, '\r']
def Symbol (c : Char) : Prop := c ∈ "~()[]{}<>.,:;=+*-/".toList
def Digit (c : Char) : Prop := c ∈ "0123456789".toList
def Letter (c : Char) : Prop := c ∈ "abcdefghijklmnopqrstuvwxyzABCDEFGHIJKLMNOPQRSTUVWXYZ".toList
def Quote (c : Char) : Prop := c = '"' ∨ c = '\''
def InNumber (c : Char) : Prop := Digit c ∨ c = '.' ∨ c = '_'
def InName (c : Char) : Prop := Letter c ∨ Digit c ∨ c = '_'

/-- the text does not start with such a character -/
def NoStart (P : Char → Prop) (text : List Char) : Prop := ∀ c cs, text = c :: cs → ¬ P c

/-- `Lexed line tokens`: the line is written with these tokens.  Numbers and identifiers are as long as possible; blanks may stand anywhere
between tokens, and a comment runs to the end of the line. -/
inductive Lexed : List Char → List Token → Prop
  | done : Lexed [] []
  | comment (cs) : Lexed ('#' :: cs) []
  | blank {c cs ts} : Blank c → Lexed cs ts → Lexed (c :: cs) ts
  | symbol {c cs ts} : Symbol c → Lexed cs ts → Lexed (c :: cs) (⟨.symbol, [c]⟩ :: ts)
  | string {q b cs ts} : Quote q → q ∉ b → Lexed cs ts → Lexed (q :: b ++ q :: cs) (⟨.string, b⟩ :: ts)
  | number {c w cs ts} : Digit c → (∀ x ∈ w, InNumber x) → NoStart InNumber cs → Lexed cs ts → Lexed (c :: w ++ cs) (⟨.number, c :: w⟩ :: ts)
  | name {c w cs ts} : Letter c ∨ c = '_' → (∀ x ∈ w, InName x) → NoStart InName cs → Lexed cs ts →
      Lexed (c :: w ++ cs) (⟨.identifier, c :: w⟩ :: ts)

/-- `Bad line`: reading tokens from the left, the line comes to a quote that is not closed or to a character that starts no token. -/
inductive Bad : List Char → Prop
  | stray {c cs} : c ≠ '#' → ¬ Blank c → ¬ Symbol c → ¬ Quote c → ¬ Digit c → ¬ Letter c → c ≠ '_' → Bad (c :: cs)
  | unclosed {q cs} : Quote q → q ∉ cs → Bad (q :: cs)
  | blank {c cs} : Blank c → Bad cs → Bad (c :: cs)
  | symbol {c cs} : Symbol c → Bad cs → Bad (c :: cs)
  | string {q b cs} : Quote q → q ∉ b → Bad cs → Bad (q :: b ++ q :: cs)
  | number {c w cs} : Digit c → (∀ x ∈ w, InNumber x) → NoStart InNumber cs → Bad cs → Bad (c :: w ++ cs)
  | name {c w cs} : Letter c ∨ c = '_' → (∀ x ∈ w, InName x) → NoStart InName cs → Bad cs → Bad (c :: w ++ cs)

/-- A token that can be written. -/
def Writable (t : Token) : Prop :=
  match t.type with
  | .symbol => ∃ c, Symbol c ∧ t.val = [c]
  | .string => '"' ∉ t.val ∨ '\'' ∉ t.val
  | .number => ∃ c w, t.val = c :: w ∧ Digit c ∧ ∀ x ∈ w, InNumber x
  | .identifier => ∃ c w, t.val = c :: w ∧ (Letter c ∨ c = '_') ∧ ∀ x ∈ w, InName x

/-- How a token is written. -/
def write (t : Token) : List Char :=
  match t.type with
  | .string => if '"' ∈ t.val then '\'' :: t.val ++ ['\''] else '"' :: t.val ++ ['"']
  | _ => t.val

/-- The tokens, each followed by some blanks. -/
def writeLine : List (Token × List Char) → List Char
  | [] => []
  | (t, b) :: l => write t ++ b ++ writeLine l

end Lex
end Verif
