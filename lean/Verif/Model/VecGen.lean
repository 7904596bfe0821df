import Mathlib.Analysis.SpecialFunctions.Pow.Real
import Verif.Model.Basic

/-!
# Model of `vec_generator`, `structrans/marttrans/lat_cor/main_direct.py` lines 14-43

A Python generator that is only ever consumed from the front is the list of the values it yields.
Radii are real numbers, `np.sqrt` is the real square root.
-/

namespace Verif.Model

/-- Enough iterations for the two `while` loops below (`vecLoop_eq` in `Verif.Lemmas.VecGen`): the counter
starts anywhere, then takes increasing positive values, and the loop ends as soon as it exceeds `maxlen`.
`main_direct.py` lines 20-43. -/
noncomputable def vecFuel (maxlen : ℝ) : ℕ := ⌊maxlen⌋₊ + 2

/-- `main_direct.py` lines 20-26: the `while` loop for `dim == 1`. -/
noncomputable def vec1Loop (maxlen : ℝ) : ℕ → ℤ → List (List ℤ)
  | 0, _ => []
  | fuel + 1, n =>
    if (n : ℝ) ≤ maxlen then
      [[n]] ++ (if n > 0 then [[-n]] else []) ++ vec1Loop maxlen fuel (|n| + 1)
    else []

/-- `main_direct.py` lines 30-43: the `while` loop for `dim > 1`.  `sub` is the recursive call
`vec_generator(_, dim - 1, _)`, `none` is Python's `None`. -/
noncomputable def vecLoop (sub : ℝ → Option (List ℤ) → List (List ℤ)) (maxlen : ℝ) :
    ℕ → ℤ → Option (List ℤ) → List (List ℤ)
  | 0, _, _ => []
  | fuel + 1, firstDigit, xs =>
    if (firstDigit : ℝ) ≤ maxlen then
      (sub (Real.sqrt (max 0 (maxlen ^ 2 - (firstDigit : ℝ) ^ 2))) xs).map (fun w => firstDigit :: w) ++
      (if firstDigit > 0 then
        (sub (Real.sqrt (max 0 (maxlen ^ 2 - (firstDigit : ℝ) ^ 2))) xs).map
          (fun w => -firstDigit :: w)
       else []) ++
      vecLoop sub maxlen fuel (|firstDigit| + 1) none
    else []

/-- `main_direct.py` lines 14-43, `vec_generator`.  `dim` is at least 1 and `x0`, when given, has
`dim` entries. -/
noncomputable def vecGen : ℕ → ℝ → Option (List ℤ) → List (List ℤ)
  | 0, _, _ => []
  | 1, maxlen, x0 =>
    let x0 := x0.getD (List.replicate 1 0)
    vec1Loop maxlen (vecFuel maxlen) (x0.headD 0)
  | d + 2, maxlen, x0 =>
    let x0 := x0.getD (List.replicate (d + 2) 0)
    vecLoop (vecGen (d + 1)) maxlen (vecFuel maxlen) (x0.headD 0) (some x0.tail)

end Verif.Model
