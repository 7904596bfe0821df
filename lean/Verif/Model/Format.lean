import Mathlib.Data.Nat.Digits.Defs
import Mathlib.Data.Int.Log
import Mathlib.Data.List.DropRight
import Verif.Model.MainHnf

/-!
# Model: the number formats used in the output

The conversions `%d`, `{:w.df}` and `{:g}` of Python, on exact real numbers.  Python strings are lists of
characters.  Simplification: a real number has no signed zero, so `-0.0` prints as `0.00`.
-/

namespace Verif.Model

/-- The character of a digit.  Used for `main_direct.py` lines 285-335. -/
def digit (n : ℕ) : Char := Char.ofNat (48 + n)

/-- `%d` of a natural number: `main_direct.py` lines 290, 301 and 321. -/
def fmtD (n : ℕ) : List Char := if n = 0 then ['0'] else (Nat.digits 10 n).reverse.map digit

/-- The last `d` digits of a number.  Part of the conversions `f` and `g`, `main_direct.py` lines 298-334. -/
def lastDigits : ℕ → ℕ → List Char
  | 0, _ => []
  | d + 1, n => lastDigits d (n / 10) ++ [digit (n % 10)]

/-- `-` for a negative number.  Part of the conversions `f` and `g`, `main_direct.py` lines 298-334. -/
noncomputable def signText (x : ℝ) : List Char := open Classical in if x < 0 then ['-'] else []

/-- `{:.df}`: rounded to `d` digits after the point, ties to even.  `main_direct.py` lines 298 and 312. -/
noncomputable def fmtF (d : ℕ) (x : ℝ) : List Char :=
  let m := (roundEven (|x| * 10 ^ d)).toNat
  signText x ++ fmtD (m / 10 ^ d) ++ '.' :: lastDigits d (m % 10 ^ d)

/-- Digits before and after the point; zeros at the end are removed, and the point if nothing follows it.
Part of the conversion `g`, `main_direct.py` lines 321 and 334. -/
def withFraction (ip fr : List Char) : List Char :=
  if fr.rdropWhile (· == '0') = [] then ip else ip ++ '.' :: fr.rdropWhile (· == '0')

/-- The exponent: a sign and at least two digits.  Part of the conversion `g`, `main_direct.py` lines 321
and 334. -/
def expText (e : ℤ) : List Char :=
  (if e < 0 then '-' else '+') :: (if e.natAbs < 10 then '0' :: fmtD e.natAbs else fmtD e.natAbs)

/-- The six significant digits of `|x|` and the power of ten of the first.  Part of the conversion `g`,
`main_direct.py` lines 321 and 334. -/
noncomputable def sixDigits (x : ℝ) : ℕ × ℤ :=
  let e := Int.log 10 |x|
  let m := (roundEven (|x| * 10 ^ (5 - e))).toNat
  if m = 10 ^ 6 then (10 ^ 5, e + 1) else (m, e)

/-- `{:g}`: six significant digits, fixed point for the powers from `-4` to `5`, otherwise with an exponent.
`main_direct.py` lines 321 and 334, `main_hnf.py` lines 363, 372 and 385. -/
noncomputable def fmtG (x : ℝ) : List Char :=
  open Classical in
  if x = 0 then ['0']
  else
    let m := (sixDigits x).1
    let e := (sixDigits x).2
    if -4 ≤ e ∧ e < 6 then
      let D := (5 - e).toNat
      signText x ++ withFraction (fmtD (m / 10 ^ D)) (lastDigits D (m % 10 ^ D))
    else
      signText x ++ withFraction (fmtD (m / 10 ^ 5)) (lastDigits 5 (m % 10 ^ 5)) ++ 'e' :: expText e

/-- `{:>w}`: spaces on the left up to the width `w`.  `main_direct.py` lines 298 and 312, `main_hnf.py` line
363. -/
def padLeft (w : ℕ) (s : List Char) : List Char := List.replicate (w - s.length) ' ' ++ s

end Verif.Model
