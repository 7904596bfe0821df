import Mathlib.Data.Matrix.Mul
import Mathlib.Data.Real.Basic
import Mathlib.LinearAlgebra.Matrix.Determinant.Basic

/-!
# Specification: stretches and their symmetry-related variants

Nothing in this file refers to the model of the code.
-/

namespace Verif.Spec

open Matrix

/-- Symmetric and positive definite. -/
def IsSPD {n : ℕ} (U : Matrix (Fin n) (Fin n) ℝ) : Prop :=
  Uᵀ = U ∧ ∀ x, x ≠ 0 → 0 < x ⬝ᵥ U *ᵥ x

/-- `vs` lists the variants of `U` under the group `G` and `idx` says which group elements lead to
which variant. -/
structure AreVariants {n : ℕ} (U : Matrix (Fin n) (Fin n) ℝ) (G : List (Matrix (Fin n) (Fin n) ℝ))
    (vs : List (Matrix (Fin n) (Fin n) ℝ)) (idx : List (List ℕ)) : Prop where
  first : vs.head? = some U
  nodup : vs.Nodup
  orbit : ∀ V, V ∈ vs ↔ ∃ Q ∈ G, V = Q * U * Qᵀ
  length : idx.length = vs.length
  index : ∀ (j : ℕ) V l, vs[j]? = some V → idx[j]? = some l →
    l.Pairwise (· < ·) ∧ ∀ i, i ∈ l ↔ ∃ Q, G[i]? = some Q ∧ Q * U * Qᵀ = V
  count : ∀ l ∈ idx, vs.length * l.length = G.length

end Verif.Spec
