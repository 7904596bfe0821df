import Verif.Spec.Accuracy
import Verif.Props.CofactorRounding

/-!
# Accuracy of `twinparam()` for every small stretch of a cube

C115: the rounding to ten decimals leaves rotations that are right up to 1e-9 and normals whose length is right up to 1e-9.
-/

namespace Verif.Props

open Matrix Verif.Model Verif.Spec Verif.Lemmas

local notation "Mat3" => Matrix (Fin 3) (Fin 3) ℝ

variable {U V W : Mat3} {t : Tol}

theorem outer_round {a n a' n' : V3} (ha : ∀ i, |a i| ≤ 4) (hn : ∀ i, |n i| ≤ 1)
    (ha' : ∀ i, |a' i - a i| ≤ 5 / 10 ^ 11) (hn' : ∀ i, |n' i - n i| ≤ 5 / 10 ^ 11) (i j : Fin 3) :
    |a' i * n' j - a i * n j| ≤ 26 / 10 ^ 11 := by
  have e : a' i * n' j - a i * n j = a i * (n' j - n j) + (a' i - a i) * (n' j - n j) + (a' i - a i) * n j := by ring
  rw [e]
  have h1 : |a i * (n' j - n j)| ≤ 4 * (5 / 10 ^ 11) := by
    rw [abs_mul]; exact mul_le_mul (ha i) (hn' j) (abs_nonneg _) (by norm_num)
  have h2 : |(a' i - a i) * (n' j - n j)| ≤ 5 / 10 ^ 11 * (5 / 10 ^ 11) := by
    rw [abs_mul]; exact mul_le_mul (ha' i) (hn' j) (abs_nonneg _) (by norm_num)
  have h3 : |(a' i - a i) * n j| ≤ 5 / 10 ^ 11 * 1 := by
    rw [abs_mul]; exact mul_le_mul (ha' i) (hn j) (abs_nonneg _) (by norm_num)
  have h4 := abs_add_le (a i * (n' j - n j) + (a' i - a i) * (n' j - n j)) ((a' i - a i) * n j)
  have h5 := abs_add_le (a i * (n' j - n j)) ((a' i - a i) * (n' j - n j))
  norm_num only at h1 h2 h3 h4 h5 ⊢
  linarith

/-- the entries of the inverse of a small stretch -/
theorem inv_entry (h : SmallStretch W) (i j : Fin 3) : |W⁻¹ i j| ≤ 115 / 100 := by
  have hW := small_spd h
  have hu := isUnit_iff_ne_zero.2 (spd_det_pos hW).ne'
  set x : V3 := W⁻¹ *ᵥ Pi.single j 1 with hx
  have e1 : W *ᵥ x = Pi.single j 1 := by rw [hx, mulVec_mulVec, mul_nonsing_inv _ hu, one_mulVec]
  have e2 : x i = W⁻¹ i j := by rw [hx]; simp
  have h1 := small_quad h x
  rw [e1] at h1
  have h2 := cauchy3 x (Pi.single j 1)
  have e3 : (Pi.single j 1 : V3) ⬝ᵥ Pi.single j 1 = 1 := by simp
  rw [e3, mul_one] at h2
  have h3 : (87 / 100 * (x ⬝ᵥ x)) ^ 2 ≤ x ⬝ᵥ x :=
    (pow_le_pow_left₀ (mul_nonneg (by norm_num) (self_nonneg x)) h1 2).trans h2
  have h4 : x ⬝ᵥ x ≤ (115 / 100) ^ 2 := by
    by_contra hn
    push Not at hn
    nlinarith
  rw [← e2]
  exact entry_of_dot (by norm_num) h4 i

theorem rounded_accurate (hV : SmallStretch V) (hW : SmallStretch W) {rnd : ℝ → ℝ} (hr : ∀ x, |rnd x - x| ≤ 5 / 10 ^ 11)
    {Q Q₀ : Mat3} {a₀ n₀ : V3} (hs : SolvesTwin V W Q₀ a₀ n₀)
    (hQ : Q * W - V = vecMulVec (fun l => rnd (a₀ l)) fun l => rnd (n₀ l)) :
    Approximates V W Q₀ a₀ n₀ Q (fun l => rnd (a₀ l)) fun l => rnd (n₀ l) := by
  refine ⟨hs, hQ, fun i => hr _, fun i => hr _, fun i j => ?_⟩
  have hu := isUnit_iff_ne_zero.2 (spd_det_pos (small_spd hW)).ne'
  have e1 : Q - Q₀ = (vecMulVec (fun l => rnd (a₀ l)) (fun l => rnd (n₀ l)) - vecMulVec a₀ n₀) * W⁻¹ := by
    rw [← hQ, ← hs.equation, sub_sub_sub_cancel_right, ← Matrix.sub_mul, Matrix.mul_assoc, mul_nonsing_inv _ hu, Matrix.mul_one]
  have e2 : Q i j - Q₀ i j = ∑ k, (rnd (a₀ i) * rnd (n₀ k) - a₀ i * n₀ k) * W⁻¹ k j := by
    have := congrFun (congrFun e1 i) j
    rw [Matrix.mul_apply] at this
    exact this
  rw [e2]
  have hn : ∀ i, |n₀ i| ≤ 1 := entry_of_dot (by norm_num) (by rw [hs.unit]; norm_num)
  calc |∑ k, (rnd (a₀ i) * rnd (n₀ k) - a₀ i * n₀ k) * W⁻¹ k j| ≤ ∑ k : Fin 3, (26 / 10 ^ 11 * (115 / 100) : ℝ) := by
        refine (Finset.abs_sum_le_sum_abs _ _).trans (Finset.sum_le_sum fun k _ => ?_)
        rw [abs_mul]
        exact mul_le_mul (outer_round (a' := fun l => rnd (a₀ l)) (n' := fun l => rnd (n₀ l)) (shear_bound hV hW hs) hn
          (fun i => hr _) (fun i => hr _) i k) (inv_entry hW k j) (abs_nonneg _) (by norm_num)
    _ ≤ 1 / 10 ^ 9 := by
        simp
        norm_num

/-- **C115**, how far the returned values are from a rotation and from length one. -/
theorem C115_bounds {Q₀ Q : Mat3} {a₀ n₀ a n : V3} (h : Approximates V W Q₀ a₀ n₀ Q a n) :
    (∀ i j, |(Q * Qᵀ - 1) i j| ≤ 1 / 10 ^ 8) ∧ |n ⬝ᵥ n - 1| ≤ 1 / 10 ^ 9 := by
  have row : ∀ i, Q₀ i ⬝ᵥ Q₀ i = 1 := fun i => by
    have := congrFun (congrFun h.exact.rotation.1 i) i
    rw [Matrix.mul_apply, Matrix.one_apply_eq] at this
    exact this
  have hQ0 : ∀ i j, |Q₀ i j| ≤ 1 := fun i => entry_of_dot (by norm_num) (by rw [row]; norm_num)
  have hn0 : ∀ i, |n₀ i| ≤ 1 := entry_of_dot (by norm_num) (by rw [h.exact.unit]; norm_num)
  have prod : ∀ {x y x₀ y₀ d : ℝ}, |x - x₀| ≤ d → |y - y₀| ≤ d → |x₀| ≤ 1 → |y₀| ≤ 1 → d ≤ 1 → |x * y - x₀ * y₀| ≤ 3 * d := by
    intro x y x₀ y₀ d hx hy hx0 hy0 hd
    have hd0 := (abs_nonneg _).trans hx
    have e : x * y - x₀ * y₀ = x₀ * (y - y₀) + (x - x₀) * (y - y₀) + (x - x₀) * y₀ := by ring
    rw [e]
    have h1 : |x₀ * (y - y₀)| ≤ 1 * d := by rw [abs_mul]; exact mul_le_mul hx0 hy (abs_nonneg _) (by norm_num)
    have h2 : |(x - x₀) * (y - y₀)| ≤ d * 1 := by
      rw [abs_mul]; exact mul_le_mul hx (hy.trans hd) (abs_nonneg _) hd0
    have h3 : |(x - x₀) * y₀| ≤ d * 1 := by rw [abs_mul]; exact mul_le_mul hx hy0 (abs_nonneg _) hd0
    have h4 := abs_add_le (x₀ * (y - y₀) + (x - x₀) * (y - y₀)) ((x - x₀) * y₀)
    have h5 := abs_add_le (x₀ * (y - y₀)) ((x - x₀) * (y - y₀))
    linarith
  constructor
  · intro i j
    rw [← h.exact.rotation.1, Matrix.sub_apply, Matrix.mul_apply, Matrix.mul_apply, ← Finset.sum_sub_distrib]
    calc |∑ k, (Q i k * Qᵀ k j - Q₀ i k * Q₀ᵀ k j)| ≤ ∑ k : Fin 3, (3 * (1 / 10 ^ 9) : ℝ) := by
          refine (Finset.abs_sum_le_sum_abs _ _).trans (Finset.sum_le_sum fun k _ => ?_)
          exact prod (h.rotation i k) (h.rotation j k) (hQ0 i k) (hQ0 j k) (by norm_num)
      _ ≤ 1 / 10 ^ 8 := by simp; norm_num
  · have e : n ⬝ᵥ n - 1 = ∑ k, (n k * n k - n₀ k * n₀ k) := by
      rw [← h.exact.unit, dotProduct, dotProduct, ← Finset.sum_sub_distrib]
    rw [e]
    calc |∑ k, (n k * n k - n₀ k * n₀ k)| ≤ ∑ k : Fin 3, (3 * (5 / 10 ^ 11) : ℝ) := by
          refine (Finset.abs_sum_le_sum_abs _ _).trans (Finset.sum_le_sum fun k _ => ?_)
          exact prod (h.normal k) (h.normal k) (hn0 k) (hn0 k) (by norm_num)
      _ ≤ 1 / 10 ^ 9 := by simp; norm_num

/-- **C115**, `twinparam()` for two variants with a twin axis, whether compound or of types I and II: it returns two approximate
solutions, and every exact solution is one of the two approximated ones up to sign.  `rnd` changes no number by more than
5e-11, as the rounding to ten decimals (`C55_rounding`). -/
theorem C115_twinparam (eig : Mat3 → EigRes) (heig : ∀ A, Aᵀ = A → EigOK (eig A).vals (eig A).vecs A)
    (rnd : ℝ → ℝ) (hr : ∀ x, |rnd x - x| ≤ 5 / 10 ^ 11)
    (h : SmallStretch U) (hc : ClearSymmetry U) {vs : List Mat3} (hvs : Mart.getVariants t ⟨some U, cubicR⟩ = .ok vs)
    (ht : t = .code ∨ t = .exact) (hV : V ∈ vs) (hW : W ∈ vs) (hne : V ≠ W) {n : V3} (hn : IsTwinAxis V W n)
    (hy : ClearlyNotPrincipal V (crossDirection V n) ∨ IsPrincipal V (crossDirection V n)) (skip : Bool) :
    ∃ P E₁ a₁ n₁ E₂ a₂ n₂ Q₁ b₁ m₁ Q₂ b₂ m₂, TwinPair.new eig V W skip = .ok P ∧
      P.twinParam eig t rnd false = .ok (some (some (Q₁, b₁, m₁), some (Q₂, b₂, m₂))) ∧
      Approximates V W E₁ a₁ n₁ Q₁ b₁ m₁ ∧ Approximates V W E₂ a₂ n₂ Q₂ b₂ m₂ ∧
      ∀ Q a n, SolvesTwin V W Q a n → (Q = E₁ ∧ SameUpToSign a₁ n₁ a n) ∨ (Q = E₂ ∧ SameUpToSign a₂ n₂ a n) := by
  obtain ⟨iV, iW, -⟩ := variant_of h hc hvs ht hV hW
  have sV := image_small h iV
  have sW := image_small h iW
  rcases hy with hy | hy
  · obtain ⟨P, r1, -, -, -, Q₁, b₁, Q₂, m₂, R₁, R₂, τ, ρ, -, r2, r6, r7, r3, r4, r5⟩ :=
      C113_types eig heig h hc hvs ht rnd hV hW hne hn hy skip
    exact ⟨P, Q₁, b₁, τ • n, Q₂, ρ • V *ᵥ n, m₂, R₁, _, _, R₂, _, _, r1, r2, rounded_accurate sV sW hr r3 r6,
      rounded_accurate sV sW hr r4 r7, r5⟩
  · obtain ⟨P, m, -, -, -, r1, -, -, -, Q₁, a₁, n₁, Q₂, a₂, n₂, R₁, R₂, r2, r6, r7, r3, r4, -, r5⟩ :=
      C113_compound eig heig h hc hvs ht rnd hV hW hne hn hy skip
    exact ⟨P, Q₁, a₁, n₁, Q₂, a₂, n₂, R₁, _, _, R₂, _, _, r1, r2, rounded_accurate sV sW hr r3 r6,
      rounded_accurate sV sW hr r4 r7, r5⟩

/-! ## The hypotheses are met -/

/-- The twins of Ni-Ti about the first cube axis, which are compound, and about the second, which are not, with the rounding
of the code. -/
example (eig : Mat3 → EigRes) (heig : ∀ A, Aᵀ = A → EigOK (eig A).vals (eig A).vecs A) (i : Fin 3) (hi : i = 0 ∨ i = 1) :
    ∃ W P E₁ a₁ n₁ E₂ a₂ n₂ Q₁ b₁ m₁ Q₂ b₂ m₂, W = realOf (edgeTurn i) * nitiStretch * (realOf (edgeTurn i))ᵀ ∧
      TwinPair.new eig nitiStretch W false = .ok P ∧
      P.twinParam eig .code rnd10 false = .ok (some (some (Q₁, b₁, m₁), some (Q₂, b₂, m₂))) ∧
      Approximates nitiStretch W E₁ a₁ n₁ Q₁ b₁ m₁ ∧ Approximates nitiStretch W E₂ a₂ n₂ Q₂ b₂ m₂ := by
  obtain ⟨vs, h1, h2, h3⟩ := niti_pairs
  have hy : ClearlyNotPrincipal nitiStretch (crossDirection nitiStretch (Pi.single i 1)) ∨
      IsPrincipal nitiStretch (crossDirection nitiStretch (Pi.single i 1)) := by
    rcases hi with rfl | rfl
    · exact .inr niti_directions.2
    · exact .inl niti_directions.1
  obtain ⟨P, E₁, a₁, n₁, E₂, a₂, n₂, Q₁, b₁, m₁, Q₂, b₂, m₂, r1, r2, r3, r4, -⟩ :=
    C115_twinparam eig heig rnd10 C55_rounding niti_small niti_clear h1 (.inl rfl) h2 (h3 i).1 (h3 i).2 (niti_axis i) hy false
  exact ⟨_, P, E₁, a₁, n₁, E₂, a₂, n₂, Q₁, b₁, m₁, Q₂, b₂, m₂, rfl, r1, r2, r3, r4⟩

end Verif.Props
