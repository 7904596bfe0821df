import Mathlib.LinearAlgebra.Matrix.NonsingularInverse
import Verif.Model.Dist

/-!
# Model of `structrans/marttrans/lat_cor/quartic_opt.py`

The random starting points are an argument (line 26 and 102: points with non-negative coordinates, divided by
their norm).  The value of the form at an index is in `Verif.Model.Dist`.
-/

namespace Verif.Model

open Matrix

variable {ι : Type} [Fintype ι]

/-- Lines 8-30, `quart_min` with scipy.  `minimize` is the call of `scipy.optimize.minimize` on line 28, which
returns a point; `res.fun` is the value of the form there.  `⊤` is `float('inf')`. -/
noncomputable def quartMin (T : ι → ι → ι → ι → ℝ) (minimize : (ι → ℝ) → ι → ℝ) (starts : List (ι → ℝ)) :
    WithTop ℝ :=
  starts.foldl (fun fmin l0 => min fmin (quartForm T (minimize l0) : ℝ)) ⊤

/-! ### Without scipy, lines 32-107 -/

/-- `T.dot(x).dot(x)`: contraction of the last two indices.  Lines 58-72. -/
def dot2 (T : ι → ι → ι → ι → ℝ) (x : ι → ℝ) (i j : ι) : ℝ := ∑ k, (∑ l, T i j k l * x l) * x k

/-- Lines 42-52, `func`: the last component is the constraint.  `xs` are the coordinates and the multiplier. -/
def rootFunc (T : ι → ι → ι → ι → ℝ) (xs : ι ⊕ Unit → ℝ) : ι ⊕ Unit → ℝ :=
  let x := fun i => xs (.inl i)
  let lam := xs (.inr ())
  Sum.elim (fun i => quartJac T x i - 2 * lam * x i) (fun _ => 1 - ∑ i, x i * x i)

/-- Lines 58-75: the first block of the matrix of `jac`.  `T.transpose(a, b, c, d)[p, q, r, s]` is the entry of `T`
with `p` at the place `a`, `q` at `b`, `r` at `c`, `s` at `d`. -/
def rootHess (T : ι → ι → ι → ι → ℝ) (x : ι → ℝ) (i j : ι) : ℝ :=
  dot2 (fun p q r s => T p q r s) x i j + dot2 (fun p q r s => T p s q r) x i j +
    dot2 (fun p q r s => T p r s q) x i j +
  (dot2 (fun p q r s => T s p q r) x i j + dot2 (fun p q r s => T r p s q) x i j +
    dot2 (fun p q r s => T q p r s) x i j) +
  (dot2 (fun p q r s => T r s p q) x i j + dot2 (fun p q r s => T q r p s) x i j +
    dot2 (fun p q r s => T s q p r) x i j) +
  (dot2 (fun p q r s => T q r s p) x i j + dot2 (fun p q r s => T s q r p) x i j +
    dot2 (fun p q r s => T r s q p) x i j)

/-- Lines 54-79, `jac`. -/
def rootJac (T : ι → ι → ι → ι → ℝ) (xs : ι ⊕ Unit → ℝ) : Matrix (ι ⊕ Unit) (ι ⊕ Unit) ℝ :=
  let x := fun i => xs (.inl i)
  Matrix.fromBlocks (Matrix.of fun i j => rootHess T x i j) (Matrix.of fun i _ => -2 * x i)
    (Matrix.of fun _ j => -2 * x j) 0

/-- `la.norm`.  Lines 85 and 89. -/
noncomputable def norm2 {κ : Type} [Fintype κ] (f : κ → ℝ) : ℝ := Real.sqrt (∑ k, f k * f k)

variable [DecidableEq ι]

open Classical in
/-- Lines 85-92, the loop; the first argument is `maxiter - itr`, and `df = none` is `float('inf')`.  `la.inv` raises
for a singular matrix. -/
noncomputable def newtonLoop (T : ι → ι → ι → ι → ℝ) (ftol rtol : ℝ) :
    ℕ → (ι ⊕ Unit → ℝ) → Option ℝ → Except Err (ι ⊕ Unit → ℝ)
  | 0, xs, _ => .ok xs
  | n + 1, xs, df =>
    if ftol < norm2 (rootFunc T xs) ∧ (∀ d, df = some d → rtol < d) ∧ ∀ k, xs k < 10 ^ 20 then
      if (rootJac T xs).det = 0 then .error .linAlgError
      else
        let x1 := xs - (0.2 : ℝ) • ((rootJac T xs)⁻¹ *ᵥ rootFunc T xs)
        newtonLoop T ftol rtol n x1
          (some (norm2 (rootFunc T x1 - rootFunc T xs) / norm2 (rootFunc T xs)))
    else .ok xs

/-- Lines 33-92, `_quartic_roots(T, x0)` with its default arguments; the multiplier starts at 0.1. -/
noncomputable def quarticRoots (T : ι → ι → ι → ι → ℝ) (x0 : ι → ℝ) : Except Err (ι ⊕ Unit → ℝ) :=
  newtonLoop T (1 / 10 ^ 4) (1 / 10 ^ 3) 1000 (Sum.elim x0 fun _ => 0.1) none

/-- Lines 94-107, `quart_min` without scipy. -/
noncomputable def quartMinNewton (T : ι → ι → ι → ι → ℝ) : List (ι → ℝ) → WithTop ℝ → Except Err (WithTop ℝ)
  | [], fmin => .ok fmin
  | l0 :: ls, fmin =>
    match quarticRoots T l0 with
    | .error e => .error e
    | .ok xs => quartMinNewton T ls (min fmin (quartForm T fun i => xs (.inl i) : ℝ))

end Verif.Model
