import Mathlib.Data.Rat.Defs
import Mathlib.Data.Rat.Cast.Defs
import Mathlib.Data.Real.Basic

/-!
# Specification: reading numbers in a text

A text is a list of characters.  Nothing in this file refers to the model of the code.
-/

namespace Verif.Spec

/-- The value of a decimal digit. -/
def digitVal (c : Char) : Option ℕ :=
  if '0' ≤ c ∧ c ≤ '9' then some (c.toNat - 48) else none

/-- The natural number written with the given digits. -/
def readDigits (l : List Char) : Option ℕ :=
  l.foldl (fun acc c => match acc, digitVal c with
    | some a, some d => some (10 * a + d)
    | _, _ => none) (some 0)

/-- Digits, possibly with a decimal point after the first of them. -/
def readDecimal (l : List Char) : Option ℚ :=
  let ip := l.takeWhile (· ≠ '.')
  let fr := (l.dropWhile (· ≠ '.')).tail
  if ip = [] then none else (readDigits (ip ++ fr)).map fun (n : ℕ) => (n : ℚ) / 10 ^ fr.length

/-- The exponent: a sign and digits. -/
def readExponent : List Char → Option ℤ
  | '+' :: c :: l => (readDigits (c :: l)).map fun (n : ℕ) => (n : ℤ)
  | '-' :: c :: l => (readDigits (c :: l)).map fun (n : ℕ) => -(n : ℤ)
  | _ => none

/-- A decimal number, possibly followed by `e` and an exponent. -/
def readUnsigned (l : List Char) : Option ℚ :=
  let m := l.takeWhile (· ≠ 'e')
  match l.dropWhile (· ≠ 'e') with
  | [] => readDecimal m
  | _ :: ex =>
    match readDecimal m, readExponent ex with
    | some q, some k => some (q * 10 ^ k)
    | _, _ => none

/-- A number, possibly with a minus sign. -/
def readNumber : List Char → Option ℚ
  | '-' :: l => (readUnsigned l).map fun q => -q
  | l => readUnsigned l

/-- A number, possibly at the end of a sentence. -/
def readToken (l : List Char) : Option ℚ :=
  if l.getLast? = some '.' then readNumber l.dropLast else readNumber l

/-- The pieces of a text between the characters that satisfy `p`. -/
def cut (p : Char → Bool) : List Char → List (List Char)
  | [] => [[]]
  | c :: l =>
    if p c then [] :: cut p l
    else match cut p l with
      | w :: ws => (c :: w) :: ws
      | [] => [[c]]

/-- Space, brackets, comma and colon separate the words. -/
def isSep (c : Char) : Bool := c == ' ' || c == '[' || c == ']' || c == ',' || c == ':'

/-- The numbers among the words of a line. -/
def numbersIn (l : List Char) : List ℚ := (cut isSep l).filterMap readToken

/-- The lines of a text. -/
def linesOf (l : List Char) : List (List Char) := cut (· == '\n') l

/-- The numbers of a text, line by line, without the lines that contain none. -/
def numberLines (l : List Char) : List (List ℚ) := ((linesOf l).map numbersIn).filter (· ≠ [])

example : numbersIn "    [ 1.00 -0.50  0.25] ==> [ 1 0 0 ]".toList = [1, -1 / 2, 1 / 4, 1, 0, 0] := by
  decide +kernel
example : numbersIn "lambda_1 = 0.95, lambda_2 = 1e+06, lambda_3 = 1.5.".toList = [95 / 100, 10 ^ 6, 3 / 2] := by
  decide +kernel
example : numberLines "Solution 2 out of 3:\n--------\n - Assigned distance (Cauchy distance)\n    dist = 1.5e-05\n \n".toList
    = [[2, 3], [3 / 200000]] := by decide +kernel

end Verif.Spec
