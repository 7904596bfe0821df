import Mathlib.LinearAlgebra.Matrix.Trace
import Mathlib.Analysis.SpecialFunctions.Pow.Real
import Verif.Model.Basic

/-!
# Model of the distances, `structrans/marttrans/lat_cor/dist.py`, of the quartic tensor and the search
radius of `main_direct.py` and of the Jacobian in `quartic_opt.py`

Floats are real numbers (for `cauchyDist` any commutative ring, so that rational instances can be
evaluated).  `x.reshape(dim, dim)` is applied before: correspondences are integer matrices.
-/

namespace Verif.Model

open Matrix

variable {N : ℕ}

/-- An integer matrix as a float matrix.  `dist.py` lines 7, 18 and 29. -/
def intMat (K : Type) [Ring K] (L : Matrix (Fin N) (Fin N) ℤ) : Matrix (Fin N) (Fin N) K :=
  L.map (Int.cast : ℤ → K)

/-- `dist.py` line 31 (and 20): `Finv = np.dot(np.dot(E1, L), E2inv)`. -/
def Finv {K : Type} [Ring K] (L : Matrix (Fin N) (Fin N) ℤ) (E1 E2inv : Matrix (Fin N) (Fin N) K) :
    Matrix (Fin N) (Fin N) K := E1 * intMat K L * E2inv

/-- `dist.py` line 32 (and 21): `Cinv = np.dot(Finv, Finv.T)`. -/
def Cinv {K : Type} [CommRing K] (L : Matrix (Fin N) (Fin N) ℤ) (E1 E2inv : Matrix (Fin N) (Fin N) K) :
    Matrix (Fin N) (Fin N) K := Finv L E1 E2inv * (Finv L E1 E2inv)ᵀ

/-- `dist.py` lines 27-34, `Cauchy_dist`: the sum of the squared entries of `Cinv - 1`. -/
def cauchyDist {K : Type} [CommRing K] (L : Matrix (Fin N) (Fin N) ℤ)
    (E1 E2inv : Matrix (Fin N) (Fin N) K) : K :=
  ∑ i, ∑ j, (Cinv L E1 E2inv - 1) i j * (Cinv L E1 E2inv - 1) i j

/-- `dist.py` lines 5-13, `Eric_dist`. -/
noncomputable def ericDist (L : Matrix (Fin N) (Fin N) ℤ) (E1 E2 : Matrix (Fin N) (Fin N) ℝ) : ℝ :=
  let g1 := E1ᵀ * E1
  let g2 := E2ᵀ * E2
  let M := (intMat ℝ L)ᵀ * (g1 * intMat ℝ L) - g2
  let nf := (g2ᵀ * g2).trace
  (Mᵀ * M).trace / nf

/-- `dist.py` lines 16-24, `strain_dist`.  `eig` is `np.real(la.eig(.)[0])`, the eigenvalues in some
order; its contract is stated where it is used. -/
noncomputable def strainDist (eig : Matrix (Fin N) (Fin N) ℝ → Fin N → ℝ)
    (L : Matrix (Fin N) (Fin N) ℤ) (E1 E2inv : Matrix (Fin N) (Fin N) ℝ) : ℝ :=
  let lam := eig (Cinv L E1 E2inv)
  (∑ i, lam i) - 2 * (∑ i, Real.sqrt (lam i)) + 3

/-! ### The batched distance, `dist.py` lines 37-49 -/

/-- line 44: `F1 = np.tensordot(xs, E2inv, axes=([2], [0]))`, indices `(k, i, b)`. -/
def vecF1 (xs : List (Matrix (Fin N) (Fin N) ℤ)) (E2inv : Matrix (Fin N) (Fin N) ℝ)
    (k : Fin xs.length) (i b : Fin N) : ℝ := ∑ c, intMat ℝ xs[k] i c * E2inv c b

/-- line 45: `Fts = np.tensordot(F1, E1, axes=([1], [1]))`, indices `(k, b, a)`. -/
def vecFts (xs : List (Matrix (Fin N) (Fin N) ℤ)) (E1 E2inv : Matrix (Fin N) (Fin N) ℝ)
    (k : Fin xs.length) (b a : Fin N) : ℝ := ∑ i, vecF1 xs E2inv k i b * E1 a i

/-- line 46: `np.tensordot(Fts, Fts, axes=([1], [1]))`, indices `(k, a, k', a')`. -/
def vecT (xs : List (Matrix (Fin N) (Fin N) ℤ)) (E1 E2inv : Matrix (Fin N) (Fin N) ℝ)
    (k : Fin xs.length) (a : Fin N) (k' : Fin xs.length) (a' : Fin N) : ℝ :=
  ∑ b, vecFts xs E1 E2inv k b a * vecFts xs E1 E2inv k' b a'

/-- line 46: `np.diagonal(..., axis1=0, axis2=2).transpose(2, 0, 1)`, indices `(k, a, a')`. -/
def vecCs (xs : List (Matrix (Fin N) (Fin N) ℤ)) (E1 E2inv : Matrix (Fin N) (Fin N) ℝ)
    (k : Fin xs.length) (a a' : Fin N) : ℝ := vecT xs E1 E2inv k a k a'

/-- `dist.py` lines 37-49, `Cauchy_dist_vec`. -/
def cauchyDistVec (xs : List (Matrix (Fin N) (Fin N) ℤ)) (E1 E2inv : Matrix (Fin N) (Fin N) ℝ) :
    List ℝ :=
  if xs.length < 100 then xs.map (fun x => cauchyDist x E1 E2inv)
  else List.ofFn (fun k : Fin xs.length =>
    ∑ a, ∑ a', (vecCs xs E1 E2inv k a a' - (1 : Matrix (Fin N) (Fin N) ℝ) a a') *
      (vecCs xs E1 E2inv k a a' - (1 : Matrix (Fin N) (Fin N) ℝ) a a'))

/-! ### The quartic tensor, `main_direct.py` lines 147-151

An index of `reshape(dim**2, ...)` is the pair of indices it is made of. -/

/-- line 147: `C1 = np.tensordot(E_A, E_Minv, axes=([], [])).transpose(0, 3, 1, 2)`. -/
def quartC1 (EA EMinv : Matrix (Fin N) (Fin N) ℝ) (a d b c : Fin N) : ℝ := EA a b * EMinv c d

/-- lines 148-150: `C2`, indices `((a, a'), (b, c), (b', c'))`. -/
def quartC2 (EA EMinv : Matrix (Fin N) (Fin N) ℝ) (aa bc bc' : Fin N × Fin N) : ℝ :=
  ∑ d, quartC1 EA EMinv aa.1 d bc.1 bc.2 * quartC1 EA EMinv aa.2 d bc'.1 bc'.2

/-- line 151: `D = np.tensordot(C2, C2, axes=([0], [0]))`. -/
def quartD (EA EMinv : Matrix (Fin N) (Fin N) ℝ) (i j k l : Fin N × Fin N) : ℝ :=
  ∑ aa, quartC2 EA EMinv aa i j * quartC2 EA EMinv aa k l

variable {ι : Type} [Fintype ι]

/-- `T.dot(x).dot(x).dot(x)` for a tensor with four indices: contraction of the last three.  `quartic_opt.py`
lines 19-22. -/
def dot3 (T : ι → ι → ι → ι → ℝ) (x : ι → ℝ) (i : ι) : ℝ :=
  ∑ j, (∑ k, (∑ l, T i j k l * x l) * x k) * x j

/-- `quartic_opt.py` line 28: `T.dot(x).dot(x).dot(x).dot(x)`. -/
def quartForm (T : ι → ι → ι → ι → ℝ) (x : ι → ℝ) : ℝ := ∑ i, dot3 T x i * x i

/-- `quartic_opt.py` lines 18-23, `jac`: the `i`-th component.  The transposed tensors are
`T.transpose(1,2,3,0)[p,q,r,s] = T[s,p,q,r]` etc. -/
def quartJac (T : ι → ι → ι → ι → ℝ) (x : ι → ℝ) (i : ι) : ℝ :=
  dot3 T x i + dot3 (fun p q r s => T s p q r) x i + dot3 (fun p q r s => T r s p q) x i +
    dot3 (fun p q r s => T q r s p) x i

/-! ### The radius, `main_direct.py` lines 142, 205 -/

/-- line 142: `gamma = lambda x: 3 + 2 * np.sqrt(3 * x) + x`. -/
noncomputable def gammaFn (x : ℝ) : ℝ := 3 + 2 * Real.sqrt (3 * x) + x

/-- line 205: `rmax = lambda d: (gamma(d) / alpha) ** 0.25`. -/
noncomputable def rmaxFn (alpha d : ℝ) : ℝ := (gammaFn d / alpha) ^ (0.25 : ℝ)

end Verif.Model
