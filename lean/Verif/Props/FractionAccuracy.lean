import Verif.Spec.FractionAccuracy
import Verif.Props.Accuracy
import Verif.Props.TetraLaminate
import Verif.Props.FirstToTwins

/-!
# Accuracy of `volumefrac()` for every small stretch of a cube

C116: with the rounding of `twinparam()` to ten decimals, the volume fractions are those of the exact twins up to a small error.
-/

namespace Verif.Props

open Matrix Verif.Model Verif.Spec Verif.Lemmas

local notation "Mat3" => Matrix (Fin 3) (Fin 3) ℝ

variable {U V W : Mat3} {t : Tol}

/-- What `_solve_f` does with `D = det(U² - 1)` and `m`, the number `minus_alpha`. -/
theorem solveF_scalar (U : Mat3) (a n : V3) {D m : ℝ} (hD : (U * U - 1).det = D) (hm : 2 * cofVal U a n = m) :
    (|m| < 1 / 10 ^ 12 ∧ solveF U a n = some 0) ∨
    (1 / 10 ^ 12 ≤ |m| ∧ (D + m / 4) / m ≤ 0 ∧ solveF U a n = none) ∨
    (1 / 10 ^ 12 ≤ |m| ∧ ∃ f, 1 / 2 < f ∧ D + m * (f * (1 - f)) = 0 ∧ (f - 1 / 2) ^ 2 = (D + m / 4) / m ∧
      ((|1 - f| < 1 / 10 ^ 6 ∧ solveF U a n = some 1) ∨ (1 / 10 ^ 6 ≤ |1 - f| ∧ f < 1 ∧ solveF U a n = some f) ∨
        (1 / 10 ^ 6 ≤ |1 - f| ∧ 1 ≤ f ∧ solveF U a n = none))) := by
  classical
  unfold solveF
  simp only [hm, hD, small]
  by_cases h1 : |m| < 1 / 10 ^ 12
  · exact .inl ⟨h1, if_pos h1⟩
  rw [if_neg h1]
  push Not at h1
  by_cases h2 : 0 < (D + m / 4) / m
  · refine .inr (.inr ⟨h1, 1 / 2 + Real.sqrt ((D + m / 4) / m), ?_⟩)
    have hs := Real.mul_self_sqrt h2.le
    have hp := Real.sqrt_pos.2 h2
    have hm0 : m ≠ 0 := by rintro rfl; rw [div_zero] at h2; exact lt_irrefl _ h2
    have hx : (D + m / 4) / m * m = D + m / 4 := div_mul_cancel₀ _ hm0
    rw [if_pos h2]
    set r := Real.sqrt ((D + m / 4) / m)
    refine ⟨by linarith, ?_, ?_, ?_⟩
    · rw [← hs] at hx
      linear_combination -hx
    · rw [← hs]; ring
    by_cases h3 : |1 - (1 / 2 + r)| < 1 / 10 ^ 6
    · exact .inl ⟨h3, if_pos h3⟩
    rw [if_neg h3]
    push Not at h3
    rw [if_neg (by rw [abs_of_pos (by linarith)]; push Not; norm_num; linarith)]
    by_cases h4 : 1 / 2 + r < 1
    · exact .inr (.inl ⟨h3, h4, if_pos ⟨by linarith, h4⟩⟩)
    · exact .inr (.inr ⟨h3, not_lt.1 h4, if_neg fun h => h4 h.2⟩)
  · exact .inr (.inl ⟨h1, not_lt.1 h2, if_neg h2⟩)

theorem quarter {f : ℝ} (h0 : 0 ≤ f) (h1 : f ≤ 1) : 0 ≤ f * (1 - f) ∧ f * (1 - f) ≤ 1 / 4 :=
  ⟨mul_nonneg h0 (by linarith), by nlinarith [pow_two_nonneg (f - 1 / 2)]⟩

theorem accurate_of {a n a' n' : V3} (hV : Vᵀ = V) (he : interfaceDet V a n 1 = interfaceDet V a n 0)
    (hc : |cofVal V a' n' - cofVal V a n| ≤ 1 / 10 ^ 9) : AccurateFraction V a n (solveF V a' n') := by
  obtain ⟨D, hD⟩ : ∃ D, (V * V - 1).det = D := ⟨_, rfl⟩
  obtain ⟨m, hm⟩ : ∃ m, 2 * cofVal V a n = m := ⟨_, rfl⟩
  obtain ⟨m', hm'⟩ : ∃ m', 2 * cofVal V a' n' = m' := ⟨_, rfl⟩
  have hq : ∀ f, interfaceDet V a n f = D + m * (f * (1 - f)) := fun f => by
    rw [interface_quadratic hV, he, det_eq_zero_frac, hD, hm]
    ring
  have hmm : |m - m'| ≤ 2 / 10 ^ 9 := by
    have e : m - m' = -(2 * (cofVal V a' n' - cofVal V a n)) := by rw [← hm, ← hm']; ring
    rw [e, abs_neg, abs_mul, abs_of_pos (by norm_num : (0 : ℝ) < 2)]
    norm_num only at hc ⊢
    linarith
  have res : ∀ f, 0 ≤ f → f ≤ 1 + 1 / 10 ^ 6 → D + m' * (f * (1 - f)) = 0 → |interfaceDet V a n f| ≤ 1 / 10 ^ 9 := by
    intro f h0 h1 h
    have e : interfaceDet V a n f = (m - m') * (f * (1 - f)) := by rw [hq]; linear_combination h
    rw [e, abs_mul]
    have : |f * (1 - f)| ≤ 1 / 2 := by
      rw [abs_le]
      norm_num only at h1 ⊢
      constructor <;> nlinarith [pow_two_nonneg (f - 1 / 2)]
    calc |m - m'| * |f * (1 - f)| ≤ 2 / 10 ^ 9 * (1 / 2) := mul_le_mul hmm this (abs_nonneg _) (by norm_num)
      _ = 1 / 10 ^ 9 := by norm_num
  constructor
  · intro f hf
    rcases solveF_scalar V a' n' hD hm' with ⟨h1, h2⟩ | ⟨-, -, h2⟩ | ⟨-, g, hg, h1, -, ⟨h3, h2⟩ | ⟨-, h3, h2⟩ | ⟨-, -, h2⟩⟩
    · rw [h2] at hf
      cases hf
      refine ⟨le_rfl, zero_le_one, .inr (.inr ⟨rfl, fun g g0 g1 => ?_⟩)⟩
      obtain ⟨q0, q1⟩ := quarter g0 g1
      have e : interfaceDet V a n g - interfaceDet V a n 0 = m * (g * (1 - g)) := by rw [hq, hq]; ring
      rw [e, abs_mul, abs_of_nonneg q0]
      have h4 : |m| ≤ 3 / 10 ^ 9 := by
        have := abs_add_le (m - m') m'
        rw [sub_add_cancel] at this
        norm_num only at h1 hmm ⊢
        linarith
      calc |m| * (g * (1 - g)) ≤ 3 / 10 ^ 9 * (1 / 4) := mul_le_mul h4 q1 q0 (by norm_num)
        _ ≤ 1 / 10 ^ 9 := by norm_num
    · rw [h2] at hf; cases hf
    · rw [h2] at hf
      cases hf
      have h5 := (abs_lt.1 h3).1
      exact ⟨zero_le_one, le_rfl, .inr (.inl ⟨rfl, g, h3, res g (by linarith) (by linarith) h1⟩)⟩
    · rw [h2] at hf
      cases hf
      exact ⟨by linarith, h3.le, .inl (res f (by linarith) (by norm_num only; linarith) h1)⟩
    · rw [h2] at hf; cases hf
  · intro s d g hs hd hsd hg hg1 h0
    have hd4 : d ≤ 1 / 4 := by linarith
    have hd0 : 0 < d := lt_of_lt_of_le (by norm_num) hd
    have hs0 : 1 / 10 ^ 8 ≤ s := by
      have : d ^ 2 ≤ 1 / 16 := by nlinarith
      have s0 : 0 ≤ s := hs ▸ abs_nonneg _
      norm_num only at hsd ⊢
      nlinarith
    have spos : 0 < s := lt_of_lt_of_le (by norm_num) hs0
    have hsm : |m| = 4 * s := by
      rw [hs, hq, hq, show D + m * (1 / 2 * (1 - 1 / 2)) - (D + m * (0 * (1 - 0))) = m * (1 / 4) by ring, abs_mul,
        abs_of_pos (by norm_num : (0 : ℝ) < 1 / 4)]
      ring
    have hm1 : 3 * s ≤ |m'| := by
      have := abs_add_le (m - m') m'
      rw [sub_add_cancel, hsm] at this
      norm_num only at hmm hs0
      linarith
    have hm0 : m' ≠ 0 := by rintro rfl; rw [abs_zero] at hm1; linarith
    obtain ⟨q0, q1⟩ := quarter (f := g) (by linarith) (by linarith)
    rw [hq] at h0
    have hx : (D + m' / 4) / m' - (g - 1 / 2) ^ 2 = g * (1 - g) * ((m' - m) / m') := by
      have e := div_mul_cancel₀ (m' - m) hm0
      rw [sub_eq_iff_eq_add, div_eq_iff hm0]
      linear_combination h0 - g * (1 - g) * e
    have hx1 : |(D + m' / 4) / m' - (g - 1 / 2) ^ 2| ≤ 2 / 10 ^ 10 / s := by
      rw [hx, abs_mul, abs_div, abs_of_nonneg q0, abs_sub_comm]
      calc g * (1 - g) * (|m - m'| / |m'|) ≤ 1 / 4 * (2 / 10 ^ 9 / (3 * s)) :=
            mul_le_mul q1 (div_le_div₀ (by norm_num) hmm (by linarith) hm1) (by positivity) (by norm_num)
        _ = 5 / 3 / 10 ^ 10 / s := by field_simp; norm_num
        _ ≤ 2 / 10 ^ 10 / s := by gcongr; norm_num
    have hx2 : 2 / 10 ^ 10 / s ≤ d ^ 2 / 5 := by
      rw [div_le_iff₀ spos]
      norm_num only at hsd ⊢
      linarith
    have hx3 : 2 / 10 ^ 10 / (s * d) ≤ d / 5 := by
      rw [← div_div, div_le_iff₀ hd0]
      linarith [hx2, pow_two d]
    have hgd : d ^ 2 ≤ (g - 1 / 2) ^ 2 := pow_le_pow_left₀ hd0.le (by linarith) 2
    have hpos : 0 < (D + m' / 4) / m' := by
      have := (abs_le.1 hx1).1
      have := pow_pos hd0 2
      linarith
    have close : ∀ f, 1 / 2 < f → (f - 1 / 2) ^ 2 = (D + m' / 4) / m' → |f - g| ≤ 2 / 10 ^ 10 / (s * d) := by
      intro f hf e
      rw [← e, show (f - 1 / 2) ^ 2 - (g - 1 / 2) ^ 2 = (f - g) * (f + g - 1) by ring, abs_mul,
        abs_of_pos (by linarith : 0 < f + g - 1)] at hx1
      rw [← div_div, le_div_iff₀ hd0]
      exact (mul_le_mul_of_nonneg_left (by linarith) (abs_nonneg _)).trans hx1
    rcases solveF_scalar V a' n' hD hm' with ⟨h1, h2⟩ | ⟨-, h1, h2⟩ | ⟨-, f, hf, h1, h3, h2⟩
    · exfalso
      norm_num only at h1 hs0
      linarith
    · exact absurd h1 (not_le.2 hpos)
    · have hc := close f hf h3
      have hc1 := (abs_le.1 (hc.trans hx3)).2
      have h4 : 8 / 5 / 10 ^ 6 ≤ 1 - f := by
        norm_num only at hd ⊢
        linarith
      have h5 : 1 / 10 ^ 6 ≤ 1 - f := le_trans (by norm_num) h4
      have h6 : 0 < 1 - f := lt_of_lt_of_le (by norm_num) h5
      rcases h2 with ⟨h2, -⟩ | ⟨-, -, h2⟩ | ⟨-, h2, -⟩
      · rw [abs_of_pos h6] at h2
        exact absurd h2 (not_lt.2 h5)
      · exact ⟨f, h2, hc⟩
      · linarith

/-- **C116** `volumefrac()` for two variants with a twin axis, whether compound or of types I and II: there are two exact twins, every
solution of the twinning equation is one of them up to sign, and the two fractions are accurate answers for the two.  `rnd` changes
no number by more than 5e-11, as the rounding to ten decimals (`C55_rounding`). -/
theorem C116_volumefrac (eig : Mat3 → EigRes) (heig : ∀ A, Aᵀ = A → EigOK (eig A).vals (eig A).vecs A)
    (rnd : ℝ → ℝ) (hr : ∀ x, |rnd x - x| ≤ 5 / 10 ^ 11)
    (h : SmallStretch U) (hc : ClearSymmetry U) {vs : List Mat3} (hvs : Mart.getVariants t ⟨some U, cubicR⟩ = .ok vs)
    (ht : t = .code ∨ t = .exact) (hV : V ∈ vs) (hW : W ∈ vs) (hne : V ≠ W) {n : V3} (hn : IsTwinAxis V W n)
    (hy : ClearlyNotPrincipal V (crossDirection V n) ∨ IsPrincipal V (crossDirection V n)) (skip : Bool) :
    ∃ P E₁ a₁ n₁ E₂ a₂ n₂ F₁ F₂, TwinPair.new eig V W skip = .ok P ∧
      P.volumeFrac eig t rnd false = .ok (F₁, F₂) ∧
      SolvesTwin V W E₁ a₁ n₁ ∧ AccurateFraction V a₁ n₁ F₁ ∧ SolvesTwin V W E₂ a₂ n₂ ∧ AccurateFraction V a₂ n₂ F₂ ∧
      ∀ Q a n, SolvesTwin V W Q a n → (Q = E₁ ∧ SameUpToSign a₁ n₁ a n) ∨ (Q = E₂ ∧ SameUpToSign a₂ n₂ a n) := by
  obtain ⟨iV, iW, -⟩ := variant_of h hc hvs ht hV hW
  have sV := image_small h iV
  have sW := image_small h iW
  obtain ⟨P, E₁, a₁, n₁, E₂, a₂, n₂, Q₁, b₁, m₁, Q₂, b₂, m₂, r1, r2, r3, r4, r5⟩ :=
    C115_twinparam eig heig rnd hr h hc hvs ht hV hW hne hn hy skip
  have hU : P.Ui = V := by
    rw [new_ok eig (small_spd sV) (small_spd sW)] at r1
    cases r1
    rfl
  have hrel : Related V W := ⟨_, halfTurn_rotation hn.1, hn.2.symm⟩
  have key : ∀ {E a n Q b m}, Approximates V W E a n Q b m → AccurateFraction V a n (solveF V b m) := by
    intro E a n Q b m ha
    refine accurate_of sV.symmetric (interface_ends sV.symmetric sW.symmetric hrel ha.exact) ?_
    rw [cofVal_eq, cofVal_eq]
    exact cofactor_round sV (shear_bound sV sW ha.exact)
      (entry_of_dot (by norm_num) (by rw [ha.exact.unit]; norm_num)) ha.shear ha.normal
  refine ⟨P, E₁, a₁, n₁, E₂, a₂, n₂, solveF V b₁ m₁, solveF V b₂ m₂, r1, ?_, r3.exact, key r3, r4.exact, key r4, r5⟩
  simp only [TwinPair.volumeFrac, r2, hU, fracOf]

/-- **C116** `iscompatible()` for two variants with a twin axis `n` that are not compound: `"I"` asks whether there is a fraction for the
twin with the normal `n`, `"II"` for the twin with the shear along `V n`, and `"C"` for any of the two. -/
theorem C116_iscompatible (eig : Mat3 → EigRes) (heig : ∀ A, Aᵀ = A → EigOK (eig A).vals (eig A).vecs A)
    (rnd : ℝ → ℝ) (hr : ∀ x, |rnd x - x| ≤ 5 / 10 ^ 11)
    (h : SmallStretch U) (hc : ClearSymmetry U) {vs : List Mat3} (hvs : Mart.getVariants t ⟨some U, cubicR⟩ = .ok vs)
    (ht : t = .code ∨ t = .exact) (hV : V ∈ vs) (hW : W ∈ vs) (hne : V ≠ W) {n : V3} (hn : IsTwinAxis V W n)
    (hy : ClearlyNotPrincipal V (crossDirection V n)) (skip : Bool) :
    ∃ P E₁ a₁ E₂ n₂, ∃ τ ρ : ℝ, ∃ F₁ F₂, TwinPair.new eig V W skip = .ok P ∧
      SolvesTwin V W E₁ a₁ (τ • n) ∧ AccurateFraction V a₁ (τ • n) F₁ ∧
      SolvesTwin V W E₂ (ρ • V *ᵥ n) n₂ ∧ AccurateFraction V (ρ • V *ᵥ n) n₂ F₂ ∧
      P.isCompat eig t rnd false .I = .ok F₁.isSome ∧ P.isCompat eig t rnd false .II = .ok F₂.isSome ∧
      P.isCompat eig t rnd false .C = .ok (F₁.isSome || F₂.isSome) ∧
      P.isCompat eig t rnd false .other = .error .valueError := by
  obtain ⟨iV, iW, -⟩ := variant_of h hc hvs ht hV hW
  have sV := image_small h iV
  have sW := image_small h iW
  obtain ⟨P, r1, -, -, -, Q₁, b₁, Q₂, m₂, R₁, R₂, τ, ρ, -, r2, r6, r7, r3, r4, -⟩ :=
    C113_types eig heig h hc hvs ht rnd hV hW hne hn hy skip
  have hU : P.Ui = V := by
    rw [new_ok eig (small_spd sV) (small_spd sW)] at r1
    cases r1
    rfl
  have hrel : Related V W := ⟨_, halfTurn_rotation hn.1, hn.2.symm⟩
  have key : ∀ {E a n Q b m}, Approximates V W E a n Q b m → AccurateFraction V a n (solveF V b m) := by
    intro E a n Q b m ha
    refine accurate_of sV.symmetric (interface_ends sV.symmetric sW.symmetric hrel ha.exact) ?_
    rw [cofVal_eq, cofVal_eq]
    exact cofactor_round sV (shear_bound sV sW ha.exact)
      (entry_of_dot (by norm_num) (by rw [ha.exact.unit]; norm_num)) ha.shear ha.normal
  refine ⟨P, Q₁, b₁, Q₂, m₂, τ, ρ, _, _, r1, r3, key (rounded_accurate sV sW hr r3 r6), r4,
    key (rounded_accurate sV sW hr r4 r7), ?_, ?_, ?_, rfl⟩
  all_goals
    unfold TwinPair.isCompat
    simp only [TwinPair.volumeFrac, r2, hU, fracOf]
    try rfl

/-! ### tetragonal stretches -/

theorem tetra_smallStretch {α γ : ℝ} (hα : |α - 1| ≤ 13 / 100) (hγ : |γ - 1| ≤ 13 / 100) (k : Fin 3) :
    SmallStretch (tetraStretch α γ k) := by
  refine ⟨diagonal_transpose _, fun l => ?_⟩
  obtain ⟨j, m, ha⟩ := other_axes l
  rw [ha.sum, tetraStretch]
  simp only [diagonal_apply_eq, diagonal_apply_ne _ ha.ij, diagonal_apply_ne _ ha.ik, Matrix.one_apply_eq,
    Matrix.one_apply_ne ha.ij, Matrix.one_apply_ne ha.ik, sub_zero, abs_zero, add_zero]
  split_ifs
  · exact hγ
  · exact hα

theorem tetra_clearSymmetry {α γ : ℝ} (h : 2 / 10 ^ 4 ≤ |α - γ|) (k : Fin 3) : ClearSymmetry (tetraStretch α γ k) := by
  intro R hR
  rw [realOf_eq]
  obtain ⟨σ, hσ⟩ := diagonal_orbit (cube_iff.1 hR) fun i => if i = k then γ else α
  rw [tetraStretch, hσ]
  by_cases h1 : ∀ l, (if σ l = k then γ else α) = if l = k then γ else α
  · left
    congr 1
    funext l
    exact h1 l
  · push Not at h1
    obtain ⟨l, hl⟩ := h1
    refine .inr ⟨l, l, ?_⟩
    rw [diagonal_apply_eq, diagonal_apply_eq, Function.comp_apply]
    split_ifs at hl ⊢
    · exact absurd rfl hl
    · rw [abs_sub_comm]
      exact le_trans (by norm_num) h
    · exact le_trans (by norm_num) h
    · exact absurd rfl hl

theorem tetra_clearly {α γ : ℝ} (hα : |α - 1| ≤ 13 / 100) (hγ : |γ - 1| ≤ 13 / 100) (h : 2 / 10 ^ 4 ≤ |α - γ|) :
    ClearlyTetragonal α γ := by
  rw [abs_le] at hα hγ
  norm_num only at hα hγ
  refine ⟨by norm_num; linarith, by norm_num; linarith, ?_⟩
  rcases le_abs.1 h with h | h
  · left
    norm_num only at h ⊢
    constructor <;> linarith
  · right
    norm_num only at h ⊢
    constructor <;> linarith

theorem tetra_cross (α γ : ℝ) {i j : Fin 3} (hij : i ≠ j) (σ : ℝ) :
    IsPrincipal (tetraStretch α γ i) (crossDirection (tetraStretch α γ i) (diagonalNormal i j σ)) := by
  refine ⟨α, funext fun l => ?_⟩
  rw [tetraStretch, mulVec_diagonal, Pi.smul_apply, smul_eq_mul, crossDirection, diagonal_mul_diagonal]
  fin_cases i <;> fin_cases j <;> fin_cases l <;>
    simp [diagonalNormal, mulVec_diagonal, cross_apply] at hij ⊢

/-- **C116**, tetragonal stretches: if the fraction of the closed formula is at least `d` away from 1/2 and 1, then `volumefrac()`
gives it for both twins, up to an error of at most `2e-10/(s d)`.  Here `2 s` is `|α² - 1| (α² - γ²)² / (α² + γ²)`. -/
theorem C116_tetragonal (eig : Mat3 → EigRes) (heig : ∀ A, Aᵀ = A → EigOK (eig A).vals (eig A).vecs A)
    (rnd : ℝ → ℝ) (hr : ∀ x, |rnd x - x| ≤ 5 / 10 ^ 11) {α γ : ℝ} (hα : |α - 1| ≤ 13 / 100) (hγ : |γ - 1| ≤ 13 / 100)
    (h : 2 / 10 ^ 4 ≤ |α - γ|) (ht : t = .code ∨ t = .exact) {i j : Fin 3} (hij : i ≠ j) {s d : ℝ}
    (hs : 2 * s = |α ^ 2 - 1| * ((α ^ 2 - γ ^ 2) ^ 2 / (α ^ 2 + γ ^ 2))) (hd : 2 / 10 ^ 6 ≤ d) (hsd : 1 / 10 ^ 9 ≤ s * d ^ 2)
    (h1 : 1 / 2 + d ≤ laminateFraction α γ) (h2 : laminateFraction α γ ≤ 1 - d) (skip : Bool) :
    ∃ P f₁ f₂, TwinPair.new eig (tetraStretch α γ i) (tetraStretch α γ j) skip = .ok P ∧
      P.volumeFrac eig t rnd false = .ok (some f₁, some f₂) ∧
      |f₁ - laminateFraction α γ| ≤ 2 / 10 ^ 10 / (s * d) ∧ |f₂ - laminateFraction α γ| ≤ 2 / 10 ^ 10 / (s * d) := by
  have hc := tetra_clearly hα hγ h
  obtain ⟨pα, pγ⟩ := clearly_pos hc
  have hne := clearly_ne hc
  obtain ⟨vs, hvs, -, -, -, hmem⟩ := C101_variants ht hc i
  obtain ⟨P, E₁, a₁, n₁, E₂, a₂, n₂, F₁, F₂, r1, r2, r3, r4, r5, r6, -⟩ := C116_volumefrac eig heig rnd hr
    (tetra_smallStretch hα hγ i) (tetra_clearSymmetry h i) hvs ht ((hmem _).2 ⟨i, rfl⟩) ((hmem _).2 ⟨j, rfl⟩)
    (fun e => hij (tetraStretch_inj hne e)) (diagonal_axis hij (.inl rfl)) (.inr (tetra_cross α γ hij 1)) skip
  have hD := mixDrop_pos pα pγ hne
  have hoff : (laminateFraction α γ - 1 / 2) ^ 2 = fractionOffset α γ := by
    have hd0 : 0 < d := lt_of_lt_of_le (by norm_num) hd
    have hpos : 0 < fractionOffset α γ := by
      by_contra hn
      rw [laminateFraction, Real.sqrt_eq_zero_of_nonpos (not_lt.1 hn)] at h1
      linarith
    rw [laminateFraction, add_sub_cancel_left, Real.sq_sqrt hpos.le]
  have key : ∀ {E a n F}, SolvesTwin (tetraStretch α γ i) (tetraStretch α γ j) E a n → AccurateFraction (tetraStretch α γ i) a n F →
      ∃ f, F = some f ∧ |f - laminateFraction α γ| ≤ 2 / 10 ^ 10 / (s * d) := by
    intro E a n F he hF
    obtain ⟨-, hl⟩ := tetra_laminate pα pγ hne hij he
    refine hF.complete s d _ ?_ hd hsd h1 h2 ?_
    · rw [(hl _).1, (hl _).1, show (α ^ 2 - 1) * ((α ^ 2 - 1) * (γ ^ 2 - 1) + 2 * (1 / 2) * (1 - 1 / 2) * mixDrop α γ) -
        (α ^ 2 - 1) * ((α ^ 2 - 1) * (γ ^ 2 - 1) + 2 * 0 * (1 - 0) * mixDrop α γ) = (α ^ 2 - 1) * (mixDrop α γ / 2) by ring,
        abs_mul, abs_of_pos (half_pos hD)]
      rw [← mixDrop] at hs
      linarith
    · rw [(hl _).1, (offset_root pα pγ hne _).2 hoff, mul_zero]
  obtain ⟨f₁, rfl, k1⟩ := key r3 r4
  obtain ⟨f₂, rfl, k2⟩ := key r5 r6
  exact ⟨P, f₁, f₂, r1, r2, k1, k2⟩

/-! ## The hypotheses are met -/

/-- The stretches 0.99 and 1.05: the fraction is known up to 1e-4. -/
example (eig : Mat3 → EigRes) (heig : ∀ A, Aᵀ = A → EigOK (eig A).vals (eig A).vecs A) :
    ∃ P f₁ f₂, TwinPair.new eig (tetraStretch 0.99 1.05 0) (tetraStretch 0.99 1.05 1) false = .ok P ∧
      P.volumeFrac eig .code rnd10 false = .ok (some f₁, some f₂) ∧
      |f₁ - laminateFraction 0.99 1.05| ≤ 1 / 10 ^ 4 ∧ |f₂ - laminateFraction 0.99 1.05| ≤ 1 / 10 ^ 4 := by
  have ho : fractionOffset 0.99 1.05 ∈ Set.Icc ((1 / 10) ^ 2 : ℝ) ((2 / 5) ^ 2) := by
    rw [fractionOffset]
    constructor <;> norm_num
  have hl : Real.sqrt (fractionOffset 0.99 1.05) ∈ Set.Icc (1 / 10 : ℝ) (2 / 5) :=
    ⟨Real.le_sqrt_of_sq_le ho.1, Real.sqrt_le_iff.2 ⟨by norm_num, ho.2⟩⟩
  obtain ⟨P, f₁, f₂, r1, r2, r3, r4⟩ := C116_tetragonal eig heig rnd10 C55_rounding (α := 0.99) (γ := 1.05) (t := .code)
    (by norm_num [abs_of_neg]) (by norm_num [abs_of_pos]) (by norm_num [abs_of_neg]) (.inl rfl) (i := 0) (j := 1) (by decide)
    (s := |0.99 ^ 2 - 1| * ((0.99 ^ 2 - 1.05 ^ 2) ^ 2 / (0.99 ^ 2 + 1.05 ^ 2)) / 2) (d := 1 / 10) (by ring) (by norm_num)
    (by norm_num [abs_of_neg]) (by rw [laminateFraction]; linarith [hl.1]) (by rw [laminateFraction]; linarith [hl.2]) false
  refine ⟨P, f₁, f₂, r1, r2, r3.trans ?_, r4.trans ?_⟩ <;> norm_num [abs_of_neg]

/-- The twins of Ni-Ti about the second cube axis, which are not compound. -/
example (eig : Mat3 → EigRes) (heig : ∀ A, Aᵀ = A → EigOK (eig A).vals (eig A).vecs A) :
    ∃ W P E a, ∃ τ : ℝ, ∃ F, SolvesTwin nitiStretch W E a (τ • (Pi.single 1 1 : V3)) ∧
      AccurateFraction nitiStretch a (τ • (Pi.single 1 1 : V3)) F ∧
      TwinPair.new eig nitiStretch W false = .ok P ∧ P.isCompat eig .code rnd10 false .I = .ok F.isSome := by
  obtain ⟨vs, h1, h2, h3⟩ := niti_pairs
  obtain ⟨P, E, a, -, -, τ, -, F, -, r1, r2, r3, -, -, r4, -⟩ :=
    C116_iscompatible eig heig rnd10 C55_rounding niti_small niti_clear h1 (.inl rfl) h2 (h3 1).1 (h3 1).2 (niti_axis 1)
      niti_directions.1 false
  exact ⟨_, P, E, a, τ, F, r2, r3, r1, r4⟩

end Verif.Props
