import Mathlib.LinearAlgebra.Matrix.Notation
import Mathlib.Data.Matrix.Basic
import Verif.Spec.Numeral

/-!
# Specification: what the printed solutions should say

The numbers that the text about one solution should contain, line by line, each with the error that is
allowed when it is read back.  Nothing in this file refers to the model of the code.
-/

namespace Verif.Spec

open Classical in
/-- With `d` digits after the point: none if `x` has no more digits, and otherwise half a unit of the last
digit. -/
noncomputable def errF (d : ℕ) (x : ℝ) : ℝ :=
  if ∃ k : ℤ, x * 10 ^ d = k then 0 else 1 / 2 / 10 ^ d

open Classical in
/-- With six significant digits: none for integers below a million, and otherwise half a unit of the sixth
digit. -/
noncomputable def errG (x : ℝ) : ℝ :=
  if ∃ k : ℤ, x = k ∧ |k| < 10 ^ 6 then 0 else 5 / 10 ^ 6 * |x|

/-- The number `q` that is read is the number `e.1` up to the error `e.2`. -/
def ReadsAs (q : ℚ) (e : ℝ × ℝ) : Prop := |(q : ℝ) - e.1| ≤ e.2

/-- The numbers read in the lines of a text are the given ones. -/
def Says (text : List Char) (ls : List (List (ℝ × ℝ))) : Prop :=
  List.Forall₂ (List.Forall₂ ReadsAs) (numberLines text) ls

/-- What should be printed for solution number `i + 1`: its number and the number of solutions asked for; the
columns of the correspondence, each with the vector it becomes; the stretch; the sublattice if there is one;
the principal stretches; the distance. -/
noncomputable def solutionSays {N : ℕ} (nsol i : ℕ) (cor u : Matrix (Fin N) (Fin N) ℝ)
    (h : Option (Matrix (Fin N) (Fin N) ℤ)) (lams : Fin N → ℝ) (d : ℝ) : List (List (ℝ × ℝ)) :=
  [[(((i + 1 : ℕ) : ℝ), 0), ((nsol : ℝ), 0)]] ++
  (List.ofFn fun j => (List.ofFn fun k => (cor k j, errF 2 (cor k j))) ++
    List.ofFn fun k => ((1 : Matrix (Fin N) (Fin N) ℝ) j k, 0)) ++
  (List.ofFn fun j => List.ofFn fun k => (u j k, errF 6 (u j k))) ++
  (match h with
    | none => []
    | some h => List.ofFn fun j => List.ofFn fun k => ((h j k : ℝ), errG (h j k))) ++
  [List.ofFn fun k => (lams k, errG (lams k))] ++
  [[(d, errG d)]]

end Verif.Spec
