import Verif.Spec.Priors
import Mathlib.Data.Nat.Digits.Defs
/-! Specification of numerals. -/
namespace Verif

/-- a decimal digit -/
def Digit (c : Char) : Prop := ∃ n < 10, c.toNat = 48 + n

/-- `Numeral text n`: the text starts with the decimal numeral of the number `n`: blanks, a sign or none, digits, the most significant one first, and then the end or something that
is not a digit. -/
def Numeral (text : List Char) (n : Int) : Prop := ∃ (blanks sign digits rest : List Char), text = blanks ++ sign ++ digits ++ rest ∧ (∀ c ∈ blanks, c = ' ' ∨ 9 ≤ c.toNat ∧ c.toNat ≤ 13) ∧
  digits ≠ [] ∧ (∀ c ∈ digits, Digit c) ∧ (∀ c, rest.head? = some c → ¬ Digit c) ∧
  ((sign = [] ∨ sign = ['+']) ∧ n = (Nat.ofDigits 10 (digits.reverse.map (fun c => c.toNat - 48)) : Nat) ∨ sign = ['-'] ∧ n = -((Nat.ofDigits 10 (digits.reverse.map (fun c => c.toNat - 48)) : Nat) : Int))

end Verif
