import Mathlib.Tactic.NormNum
import Mathlib.Tactic.FinCases
import Mathlib.Tactic.LinearCombination
import Mathlib.LinearAlgebra.Matrix.Notation
import Verif.Lemmas.LLL

/-!
# C48, C49, C50: lattice reduction
-/

namespace Verif.Props

open Matrix Verif.Model Verif.Spec Verif.Lemmas

variable {n : ℕ}

/-! ## C50 -/

/-- **C50**.  For independent columns, in any dimension, `Gram_Schmidt` returns `(Eo, M)` with pairwise
orthogonal non-zero columns of `Eo`, `M` unit lower triangular and `E = Eo Mᵀ`. -/
theorem C50_gram_schmidt {E : Matrix (Fin n) (Fin n) ℝ} (hE : E.det ≠ 0) :
    ∃ Eo M, gramSchmidt E = some (Eo, M) ∧ E = Eo * Mᵀ ∧
      (∀ i j, i ≠ j → (Eoᵀ * Eo) i j = 0) ∧ (∀ i, (Eoᵀ * Eo) i i ≠ 0) ∧
      (∀ i, M i i = 1) ∧ (∀ i j, i < j → M i j = 0) := by
  have hgs := gs_spec (Eᵀ : Cols n)
  have hdet : (Matrix.of (Eᵀ : Cols n)).det ≠ 0 := by
    change Eᵀ.det ≠ 0; rw [Matrix.det_transpose]; exact hE
  have h0 := gs_ne_zero hgs hdet
  have hn : ¬ ∃ j k : Fin n, j < k ∧ gsVec Eᵀ j ⬝ᵥ gsVec Eᵀ j = 0 := by
    rintro ⟨j, _, _, h⟩; exact h0 j h
  have hmul : ∀ i j, ((Matrix.of fun i j => gsVec Eᵀ j i)ᵀ * (Matrix.of fun i j => gsVec Eᵀ j i)) i j =
      gsVec Eᵀ i ⬝ᵥ gsVec Eᵀ j := by
    intro i j; rw [Matrix.mul_apply]; rfl
  refine ⟨Matrix.of fun i j => gsVec Eᵀ j i, Matrix.of (gsCoef Eᵀ), by rw [gramSchmidt, if_neg hn], ?_, ?_, ?_,
    hgs.diag, hgs.upper⟩
  · have := congrArg Matrix.transpose (gs_matrix hgs)
    rw [Matrix.transpose_mul] at this
    exact this
  · intro i j hij; rw [hmul]; exact hgs.orth i j hij
  · intro i; rw [hmul]; exact h0 i

/-- The Gram-Schmidt vectors and coefficients of an independent family are unique. -/
theorem C50_unique {C O O' : Fin n → Fin n → ℝ} {M M' : Fin n → Fin n → ℝ}
    (hC : (Matrix.of C).det ≠ 0) (h : IsGramSchmidt C O M) (h' : IsGramSchmidt C O' M') :
    O = O' ∧ M = M' := by
  obtain ⟨a, b⟩ := gs_unique h (gs_ne_zero h hC)
  obtain ⟨c, d⟩ := gs_unique h' (gs_ne_zero h' hC)
  exact ⟨a.symm.trans c, b.symm.trans d⟩

example : (1 : Matrix (Fin 5) (Fin 5) ℝ).det ≠ 0 := by simp

/-! ## C48 -/

theorem neg_first {B : Matrix (Fin n) (Fin n) ℝ} :
    (Matrix.of fun i (j : Fin n) => if (j : ℕ) = 0 then -B i j else B i j) =
      B * toR (Matrix.diagonal fun j : Fin n => if (j : ℕ) = 0 then (-1 : ℤ) else 1) := by
  ext i j
  have : toR (Matrix.diagonal fun j : Fin n => if (j : ℕ) = 0 then (-1 : ℤ) else 1) =
      Matrix.diagonal fun j : Fin n => if (j : ℕ) = 0 then (-1 : ℝ) else 1 := by
    unfold toR
    rw [Matrix.diagonal_map (by simp)]
    congr 1
    funext j
    split <;> simp_all
  rw [this, Matrix.mul_diagonal, Matrix.of_apply]
  split <;> simp

theorem det_neg_first (h : 0 < n) :
    (Matrix.diagonal fun j : Fin n => if (j : ℕ) = 0 then (-1 : ℤ) else 1).det = -1 := by
  rw [Matrix.det_diagonal]
  rw [Finset.prod_eq_single ⟨0, h⟩]
  · simp
  · intro b _ hb
    rw [if_neg (fun h' => hb (Fin.ext h'))]
  · simp

theorem lll_same (E : Matrix (Fin n) (Fin n) ℝ) :
    ∃ A : Matrix (Fin n) (Fin n) ℤ, (A.det = 1 ∨ A.det = -1) ∧
      (Matrix.of (lllLoop 1000 Eᵀ 0).1)ᵀ = E * toR A := by
  obtain ⟨A, hA, hB⟩ := lllLoop_same 1000 (Eᵀ : Cols n) _ 0 (SameLattice.refl _)
  refine ⟨Aᵀ, by rw [Matrix.det_transpose]; exact hA, ?_⟩
  have := congrArg Matrix.transpose hB
  rw [Matrix.transpose_mul] at this
  exact this

/-- **C48** (partial).  For every non-singular base `E` of any dimension, if `LLL(E)` is an array `B`,
then `B = E A` with an integer matrix `A` of determinant 1: another base of the same lattice, with the
same orientation.  Missing: bases for which `LLL` returns a pair (`C48_pair_fails`); `C84_reduces_partial` says which do not. -/
theorem C48_lattice_partial {E B : Matrix (Fin n) (Fin n) ℝ} (hE : E.det ≠ 0)
    (h : lll E = .base B) : ∃ A : Matrix (Fin n) (Fin n) ℤ, A.det = 1 ∧ B = E * A.map (Int.cast : ℤ → ℝ) := by
  obtain ⟨A, hA, hB⟩ := lll_same E
  unfold lll at h
  simp only [hB] at h
  split at h
  · simp at h
  have hdet : (E * toR A).det = E.det * A.det := by rw [Matrix.det_mul, toR_det]
  split at h
  · rename_i hs
    simp only [LLLResult.base.injEq] at h
    refine ⟨A, ?_, h.symm⟩
    rcases hA with hA | hA
    · exact hA
    · exfalso
      rw [hdet, hA] at hs
      push_cast at hs
      rcases lt_or_gt_of_ne hE with h' | h'
      · linarith [hs.1 (by linarith)]
      · linarith [hs.2 h']
  · rename_i hs
    simp only [LLLResult.base.injEq] at h
    have hA' : A.det = -1 := by
      refine hA.resolve_left fun h1 => hs ?_
      rw [hdet, h1]; simp
    have hn : 0 < n := by
      rcases Nat.eq_zero_or_pos n with rfl | h0
      · rw [Matrix.det_fin_zero] at hA'; norm_num at hA'
      · exact h0
    refine ⟨A * Matrix.diagonal fun j : Fin n => if (j : ℕ) = 0 then (-1 : ℤ) else 1, ?_, ?_⟩
    · rw [Matrix.det_mul, hA', det_neg_first hn]; norm_num
    · rw [← h]
      have := neg_first (B := E * toR A)
      rw [this, Matrix.mul_assoc, ← toR_mul']
      rfl

/-- **C48** (partial).  When a pair is returned, its array spans the same lattice, with determinant
equal up to the sign. -/
theorem C48_pair_partial {E B : Matrix (Fin n) (Fin n) ℝ} {b : Bool} (h : lll E = .pair B b) :
    ∃ A : Matrix (Fin n) (Fin n) ℤ, (A.det = 1 ∨ A.det = -1) ∧ B = E * A.map (Int.cast : ℤ → ℝ) := by
  obtain ⟨A, hA, hB⟩ := lll_same E
  refine ⟨A, hA, ?_⟩
  unfold lll at h
  simp only [hB] at h
  split at h
  · simp only [LLLResult.pair.injEq] at h; exact h.1.symm
  · split at h <;> simp at h

/-! ## C49 -/

/-- Negating the first vector. -/
theorem gs_neg {C O : Fin n → Fin n → ℝ} {M : Fin n → Fin n → ℝ} (h : IsGramSchmidt C O M)
    (s : Fin n → ℝ) (hs : ∀ i, s i * s i = 1) :
    IsGramSchmidt (fun i => s i • C i) (fun i => s i • O i) (fun i j => s i * M i j * s j) where
  orth i j hij := by rw [smul_dotProduct, dotProduct_smul, h.orth i j hij]; simp
  diag i := by rw [h.diag, mul_one, hs]
  upper i j hij := by rw [h.upper i j hij]; simp
  fact i := by
    rw [h.fact i, Finset.smul_sum]
    refine Finset.sum_congr rfl fun j _ => ?_
    rw [smul_smul, smul_smul, mul_assoc, hs, mul_one]

/-- **C49** (partial).  If `LLL(E)` returns an array `B` and the iteration did not run into its limit of
1000 (the last iteration found nothing to swap), then the columns of `B` satisfy the Lovász condition
with factor 4/3, and the Gram-Schmidt coefficient of each column along its predecessor is at most 1/2 in
absolute value.  Missing: the other coefficients (`C49_size_fails`), runs into the limit
(`C49_limit_fails`), and the pair returned after exactly 100 iterations (`C48_pair_fails`). -/
theorem C49_reduced_partial {E B : Matrix (Fin n) (Fin n) ℝ} (hE : E.det ≠ 0) (h : lll E = .base B)
    (hstop : (lllLoop 1000 Eᵀ 0).2.2 = false) :
    ∃ O M, IsGramSchmidt (Bᵀ : Fin n → Fin n → ℝ) O M ∧ (∀ i, O i ⬝ᵥ O i ≠ 0) ∧ Lovasz O M ∧
      ∀ i j : Fin n, (i : ℕ) = j + 1 → |M i j| ≤ 1 / 2 := by
  have hdet : (Matrix.of (Eᵀ : Cols n)).det ≠ 0 := by
    change Eᵀ.det ≠ 0; rw [Matrix.det_transpose]; exact hE
  obtain ⟨O, M, hgs, h0, hL, hM⟩ := lllLoop_reduced 1000 (Eᵀ : Cols n) 0 hdet hstop
  unfold lll at h
  dsimp only at h
  split at h
  · simp at h
  split at h
  · simp only [LLLResult.base.injEq] at h
    subst h
    exact ⟨O, M, hgs, h0, hL, hM⟩
  · simp only [LLLResult.base.injEq] at h
    subst h
    set s : Fin n → ℝ := fun j => if (j : ℕ) = 0 then -1 else 1 with hsdef
    have hs : ∀ i, s i * s i = 1 := by intro i; simp only [hsdef]; split <;> norm_num
    have hg := gs_neg hgs s hs
    refine ⟨fun i => s i • O i, fun i j => s i * M i j * s j, ?_, ?_, ?_, ?_⟩
    · refine Eq.mp (congrArg (fun C => IsGramSchmidt C _ _) ?_) hg
      funext j i
      simp only [hsdef, Matrix.transpose_apply, Matrix.of_apply, Pi.smul_apply, smul_eq_mul]
      split <;> simp
    · intro i
      rw [smul_dotProduct, dotProduct_smul, smul_smul, hs, one_smul]; exact h0 i
    · intro i j hij
      have := hL i j hij
      rw [smul_dotProduct, dotProduct_smul, smul_smul, hs, one_smul]
      have e : s j • O j + (s j * M j i * s i) • s i • O i = s j • (O j + M j i • O i) := by
        rw [smul_smul, mul_assoc, hs, mul_one, smul_add, smul_smul]
      rw [e, smul_dotProduct, dotProduct_smul, smul_smul, hs, one_smul]
      exact this
    · intro i j hij
      rw [abs_mul, abs_mul]
      have habs : ∀ i, |s i| = 1 := by intro i; simp only [hsdef]; split <;> simp
      rw [habs, habs, one_mul, mul_one]
      exact hM i j hij

/-- Consequence of `C49_reduced_partial`: the perpendicular components shrink by at most a factor 2 (in
square). -/
theorem lovasz_half {O : Fin n → Fin n → ℝ} {M C : Fin n → Fin n → ℝ} (hgs : IsGramSchmidt C O M)
    (hL : Lovasz O M) (hM : ∀ i j : Fin n, (i : ℕ) = j + 1 → |M i j| ≤ 1 / 2) (i j : Fin n)
    (hij : (j : ℕ) = i + 1) : O i ⬝ᵥ O i ≤ 2 * (O j ⬝ᵥ O j) := by
  have h := hL i j hij
  have ho : O j ⬝ᵥ O i = 0 := hgs.orth j i (fun h' => by rw [h'] at hij; omega)
  have ho' : O i ⬝ᵥ O j = 0 := by rw [dotProduct_comm]; exact ho
  rw [add_dotProduct, dotProduct_add, dotProduct_add, smul_dotProduct, smul_dotProduct, dotProduct_smul,
    dotProduct_smul, ho, ho'] at h
  simp only [smul_eq_mul, mul_zero, add_zero, zero_add] at h
  have hm := hM j i hij
  have hm2 : M j i * M j i ≤ 1 / 4 := by
    have := abs_le.1 hm
    nlinarith
  have := dot_self_nonneg (O i)
  nlinarith

/-- **C49** (partial), what reduction is for: the first vector of the returned base is at most
`2^((d-1)/2)` times as long as any non-zero vector of the lattice. -/
theorem C49_short_partial {E B : Matrix (Fin n) (Fin n) ℝ} (hE : E.det ≠ 0) (h : lll E = .base B)
    (hstop : (lllLoop 1000 Eᵀ 0).2.2 = false) (hn : 0 < n) (z : Fin n → ℤ) (hz : z ≠ 0) :
    (fun i => B i ⟨0, hn⟩) ⬝ᵥ (fun i => B i ⟨0, hn⟩) ≤
      2 ^ (n - 1) * ((E *ᵥ fun j => (z j : ℝ)) ⬝ᵥ (E *ᵥ fun j => (z j : ℝ))) := by
  obtain ⟨O, M, hgs, h0, hL, hM⟩ := C49_reduced_partial hE h hstop
  obtain ⟨A, hA, hB⟩ := C48_lattice_partial hE h
  -- write the vector in the base `B`
  have hAu : IsUnit A.det := by rw [hA]; exact isUnit_one
  set w : Fin n → ℤ := A⁻¹ *ᵥ z with hw
  have hzw : z = A *ᵥ w := by
    rw [hw, Matrix.mulVec_mulVec, Matrix.mul_nonsing_inv _ hAu, Matrix.one_mulVec]
  have hw0 : w ≠ 0 := by
    intro h'; apply hz; rw [hzw, h', Matrix.mulVec_zero]
  have hv : (E *ᵥ fun j => (z j : ℝ)) = ∑ k, (w k : ℝ) • (Bᵀ : Fin n → Fin n → ℝ) k := by
    have hc : (fun j => (z j : ℝ)) = (A.map (Int.cast : ℤ → ℝ)) *ᵥ fun j => (w j : ℝ) := by
      funext j
      rw [hzw]
      simp [Matrix.mulVec, dotProduct]
    rw [hc, Matrix.mulVec_mulVec, ← hB]
    funext i
    simp [Matrix.mulVec, dotProduct, Finset.sum_apply, mul_comm]
  set v := E *ᵥ fun j => (z j : ℝ) with hvdef
  -- the last non-zero coefficient
  obtain ⟨k, hk, hmax⟩ : ∃ k, w k ≠ 0 ∧ ∀ j, k < j → w j = 0 := by
    have hne : (Finset.univ.filter fun k => w k ≠ 0).Nonempty := by
      by_contra hcon
      rw [Finset.not_nonempty_iff_eq_empty, Finset.filter_eq_empty_iff] at hcon
      apply hw0
      funext j
      have := hcon (Finset.mem_univ j)
      simpa using this
    refine ⟨(Finset.univ.filter fun k => w k ≠ 0).max' hne, ?_, ?_⟩
    · have := Finset.max'_mem _ hne
      simpa using (Finset.mem_filter.1 this).2
    · intro j hj
      by_contra hcon
      have := Finset.le_max' (Finset.univ.filter fun k => w k ≠ 0) j (by simp [hcon])
      exact absurd hj (not_lt.2 this)
  have hdot : v ⬝ᵥ O k = w k * (O k ⬝ᵥ O k) := by
    rw [hv, sum_dotProduct, Finset.sum_eq_single k]
    · rw [smul_dotProduct, gs_dot hgs, hgs.diag, one_mul, smul_eq_mul]
    · intro j _ hj
      rw [smul_dotProduct, gs_dot hgs]
      rcases lt_or_gt_of_ne hj with h' | h'
      · rw [hgs.upper j k h']; simp
      · rw [hmax j h']; simp
    · simp
  have hpos : 0 < O k ⬝ᵥ O k := lt_of_le_of_ne (dot_self_nonneg _) (Ne.symm (h0 k))
  have hle : O k ⬝ᵥ O k ≤ v ⬝ᵥ v := by
    -- Cauchy-Schwarz in the form `0 ≤ |v - w_k O_k|²`
    have h1 := dot_self_nonneg (v - (w k : ℝ) • O k)
    rw [sub_dotProduct, dotProduct_sub, dotProduct_sub, smul_dotProduct, smul_dotProduct,
      dotProduct_smul, dotProduct_smul, dotProduct_comm (O k) v, hdot] at h1
    simp only [smul_eq_mul] at h1
    have h2 : (1 : ℝ) ≤ (w k : ℝ) * w k := by
      have : 1 ≤ w k * w k := by
        rcases lt_or_gt_of_ne hk with h' | h' <;> nlinarith
      exact_mod_cast this
    nlinarith
  have hchain : ∀ m : ℕ, ∀ j : Fin n, (j : ℕ) = m → O ⟨0, hn⟩ ⬝ᵥ O ⟨0, hn⟩ ≤ 2 ^ m * (O j ⬝ᵥ O j) := by
    intro m
    induction m with
    | zero =>
      intro j hj
      have : j = ⟨0, hn⟩ := Fin.ext hj
      rw [this]; simp
    | succ m ih =>
      intro j hj
      have hlt : m < n := by have := j.2; omega
      have h1 := ih ⟨m, hlt⟩ rfl
      have h2 := lovasz_half hgs hL hM ⟨m, hlt⟩ j hj
      have h3 : (0 : ℝ) < 2 ^ m := by positivity
      calc _ ≤ 2 ^ m * (O ⟨m, hlt⟩ ⬝ᵥ O ⟨m, hlt⟩) := h1
        _ ≤ 2 ^ m * (2 * (O j ⬝ᵥ O j)) := mul_le_mul_of_nonneg_left h2 h3.le
        _ = _ := by ring
  have hfirst : (fun i => B i ⟨0, hn⟩) = O ⟨0, hn⟩ := by
    have := gs_fact' hgs ⟨0, hn⟩
    rw [this]
    have he : Finset.Iio (⟨0, hn⟩ : Fin n) = ∅ := by
      ext j; simp [Fin.lt_def]
    rw [he, Finset.sum_empty, sub_zero]
    rfl
  rw [hfirst]
  have hp : (2 : ℝ) ^ (k : ℕ) ≤ 2 ^ (n - 1) :=
    pow_le_pow_right₀ (by norm_num) (by have := k.2; omega)
  calc _ ≤ 2 ^ (k : ℕ) * (O k ⬝ᵥ O k) := hchain k k rfl
    _ ≤ 2 ^ (n - 1) * (O k ⬝ᵥ O k) := mul_le_mul_of_nonneg_right hp hpos.le
    _ ≤ _ := mul_le_mul_of_nonneg_left hle (by positivity)

/-! ### Two dimensions, explicitly -/

theorem gs2 {a b : Fin 2 → ℝ} (ha : a ⬝ᵥ a ≠ 0) :
    IsGramSchmidt ![a, b] ![a, b - (b ⬝ᵥ a / (a ⬝ᵥ a)) • a] ![![1, 0], ![b ⬝ᵥ a / (a ⬝ᵥ a), 1]] where
  orth i j hij := by
    have h : (b - (b ⬝ᵥ a / (a ⬝ᵥ a)) • a) ⬝ᵥ a = 0 := by
      rw [sub_dotProduct, smul_dotProduct, smul_eq_mul, div_mul_cancel₀ _ ha, sub_self]
    fin_cases i <;> fin_cases j
    · exact absurd rfl hij
    · rw [dotProduct_comm]; exact h
    · exact h
    · exact absurd rfl hij
  diag i := by fin_cases i <;> rfl
  upper i j hij := by
    fin_cases i <;> fin_cases j
    · exact absurd hij (lt_irrefl _)
    · rfl
    · exact absurd hij (by decide)
    · exact absurd hij (lt_irrefl _)
  fact i := by fin_cases i <;> simp [Fin.sum_univ_two]

theorem self_ne {a b : Fin 2 → ℝ} (h : (Matrix.of ![a, b]).det ≠ 0) : a ⬝ᵥ a ≠ 0 := by
  intro h0
  have := dotProduct_self_eq_zero.1 h0
  apply h
  rw [this, Matrix.det_fin_two]
  simp

theorem gauss2 {a b : Fin 2 → ℝ} {m : ℤ} (h : (Matrix.of ![a, b]).det ≠ 0)
    (hm : |b ⬝ᵥ a / (a ⬝ᵥ a) - m| < 1 / 2) : gaussReduction ![a, b] = ![a, b - (m : ℝ) • a] := by
  have hg := gs2 (b := b) (self_ne h)
  obtain ⟨_, hM⟩ := gs_unique hg (gs_ne_zero hg h)
  unfold gaussReduction
  rw [gaussOps_eq, hM]
  have h0 : opsVec (fun i j => roundEven ((![![1, 0], ![b ⬝ᵥ a / (a ⬝ᵥ a), 1]] : Fin 2 → Fin 2 → ℝ) i j))
      ![a, b] 0 = a := by
    rw [opsVec_eq]
    have : Finset.Iio (0 : Fin 2) = ∅ := by decide
    rw [this]; simp
  funext i
  fin_cases i
  · exact h0
  · change opsVec _ ![a, b] 1 = _
    rw [opsVec_eq]
    have : Finset.Iio (1 : Fin 2) = {0} := by decide
    rw [this, Finset.sum_singleton, h0]
    change b - roundEven (b ⬝ᵥ a / (a ⬝ᵥ a)) • a = b - (m : ℝ) • a
    rw [roundEven_of_near hm]
    congr 1
    funext k
    simp

theorem swap2 {a b : Fin 2 → ℝ} (h : (Matrix.of ![a, b]).det ≠ 0) :
    needsSwap ![a, b] 0 = true ↔ 4 / 3 * (b ⬝ᵥ b) < a ⬝ᵥ a := by
  have hg := gs2 (b := b) (self_ne h)
  rw [needsSwap_iff hg (gs_ne_zero hg h) 0 1 rfl]
  simp

theorem swapping2 {a b : Fin 2 → ℝ} (h : (Matrix.of ![a, b]).det ≠ 0) :
    swapping ![a, b] = if 4 / 3 * (b ⬝ᵥ b) < a ⬝ᵥ a then some 0 else none := by
  have h1 : needsSwap ![a, b] 1 = false := by simp [needsSwap]
  have hr : List.finRange 2 = [0, 1] := rfl
  rw [swapping, hr]
  split
  · rename_i hs
    rw [List.find?_cons_of_pos ((swap2 h).2 hs)]
  · rename_i hs
    rw [List.find?_cons_of_neg (by rw [swap2 h]; exact hs),
      List.find?_cons_of_neg (by rw [h1]; exact Bool.false_ne_true), List.find?_nil]

/-- Bases of the lattice of `(1, 0), (0, 2)` on which `LLL` needs more and more iterations. -/
noncomputable def slow : ℕ → (Fin 2 → ℝ) × (Fin 2 → ℝ)
  | 0 => (![1, 0], ![0, 2])
  | k + 1 => ((slow k).2, (slow k).1 + (2 : ℝ) • (slow k).2)

/-- The array with these columns. -/
noncomputable def slowArr (k : ℕ) : Matrix (Fin 2) (Fin 2) ℝ := (Matrix.of ![(slow k).1, (slow k).2])ᵀ

theorem slow_inv (k : ℕ) : 0 ≤ (slow k).1 ⬝ᵥ (slow k).2 ∧
    2 * ((slow k).1 ⬝ᵥ (slow k).2) < (slow k).2 ⬝ᵥ (slow k).2 ∧
    4 * ((slow k).1 ⬝ᵥ (slow k).1) < 3 * ((slow k).2 ⬝ᵥ (slow k).2) ∧
    0 < (slow k).1 ⬝ᵥ (slow k).1 := by
  induction k with
  | zero => norm_num [slow, dotProduct, Fin.sum_univ_two]
  | succ k ih =>
    obtain ⟨h1, h2, h3, h4⟩ := ih
    simp only [slow]
    set u := (slow k).1
    set v := (slow k).2
    have e1 : v ⬝ᵥ (u + (2 : ℝ) • v) = u ⬝ᵥ v + 2 * (v ⬝ᵥ v) := by
      rw [dotProduct_add, dotProduct_smul, smul_eq_mul, dotProduct_comm v u]
    have e2 : (u + (2 : ℝ) • v) ⬝ᵥ (u + (2 : ℝ) • v) = u ⬝ᵥ u + 4 * (u ⬝ᵥ v) + 4 * (v ⬝ᵥ v) := by
      rw [add_dotProduct, dotProduct_add, dotProduct_add, smul_dotProduct, smul_dotProduct,
        dotProduct_smul, dotProduct_smul, dotProduct_comm v u]
      simp only [smul_eq_mul]; ring
    rw [e1, e2]
    refine ⟨by linarith, ?_, by linarith, by linarith⟩
    linarith

theorem slow_det (k : ℕ) : (Matrix.of ![(slow k).1, (slow k).2]).det = 2 * (-1) ^ k := by
  induction k with
  | zero => simp [slow, Matrix.det_fin_two]
  | succ k ih =>
    rw [pow_succ, ← mul_assoc, ← ih, Matrix.det_fin_two, Matrix.det_fin_two]
    simp [slow]
    ring

theorem slow_det_ne (k : ℕ) : (Matrix.of ![(slow k).1, (slow k).2]).det ≠ 0 := by
  rw [slow_det]; positivity

/-- One iteration undoes one step. -/
theorem slow_step (f k c : ℕ) : lllLoop (f + 1) ![(slow (k + 1)).1, (slow (k + 1)).2] c =
    lllLoop f ![(slow k).1, (slow k).2] (c + 1) := by
  obtain ⟨h1, h2, h3, h4⟩ := slow_inv k
  have hvv : 0 < (slow k).2 ⬝ᵥ (slow k).2 := by linarith
  have hg : gaussReduction ![(slow (k + 1)).1, (slow (k + 1)).2] = ![(slow k).2, (slow k).1] := by
    rw [gauss2 (m := 2) (slow_det_ne (k + 1))]
    · congr 2
      simp [slow]
    · simp only [slow]
      rw [add_dotProduct, smul_dotProduct, smul_eq_mul, add_div, mul_div_cancel_right₀ _ hvv.ne']
      have : (slow k).1 ⬝ᵥ (slow k).2 / ((slow k).2 ⬝ᵥ (slow k).2) + 2 - ((2 : ℤ) : ℝ) =
          (slow k).1 ⬝ᵥ (slow k).2 / ((slow k).2 ⬝ᵥ (slow k).2) := by push_cast; ring
      rw [this, abs_of_nonneg (div_nonneg h1 hvv.le), div_lt_iff₀ hvv]
      linarith
  have hd : (Matrix.of ![(slow k).2, (slow k).1]).det ≠ 0 := by
    have := slow_det_ne k
    rw [Matrix.det_fin_two] at this ⊢
    intro h
    apply this
    simp only [Matrix.of_apply, Matrix.cons_val_zero, Matrix.cons_val_one] at h ⊢
    linarith
  have hs : swapping ![(slow k).2, (slow k).1] = some 0 := by
    rw [swapping2 hd, if_pos (by linarith)]
  have hw : swapNext ![(slow k).2, (slow k).1] 0 = ![(slow k).1, (slow k).2] := by
    funext i
    fin_cases i <;> simp [swapNext]
  rw [lllLoop, hg]
  simp only [hs]
  rw [hw]

theorem slow_stop (f c : ℕ) : lllLoop (f + 1) ![(slow 0).1, (slow 0).2] c =
    (![(slow 0).1, (slow 0).2], c + 1, false) := by
  have hd := slow_det_ne 0
  have hg : gaussReduction ![(slow 0).1, (slow 0).2] = ![(slow 0).1, (slow 0).2] := by
    rw [gauss2 (m := 0) hd]
    · simp
    · norm_num [slow]
  have hs : swapping ![(slow 0).1, (slow 0).2] = none := by
    rw [swapping2 hd, if_neg]
    norm_num [slow, dotProduct, Fin.sum_univ_two]
  rw [lllLoop, hg]
  simp only [hs]

/-- `k` steps take `k + 1` iterations. -/
theorem slow_done (k f c : ℕ) : lllLoop (f + k + 1) ![(slow k).1, (slow k).2] c =
    (![(slow 0).1, (slow 0).2], c + k + 1, false) := by
  induction k generalizing c with
  | zero => exact slow_stop f c
  | succ k ih =>
    rw [show f + (k + 1) + 1 = (f + k + 1) + 1 by ring, slow_step, ih]
    congr 2
    ring

/-- With fewer iterations the loop stops at its limit, in the middle. -/
theorem slow_limit (k f c : ℕ) : lllLoop f ![(slow (k + f)).1, (slow (k + f)).2] c =
    (![(slow k).1, (slow k).2], c + f, true) := by
  induction f generalizing c with
  | zero => rfl
  | succ f ih =>
    rw [show k + (f + 1) = (k + f) + 1 by ring, slow_step, ih]
    congr 2
    ring

theorem slow_coef (k : ℕ) : (2 : ℝ) ≤ (slow (k + 1)).2 ⬝ᵥ (slow (k + 1)).1 /
    ((slow (k + 1)).1 ⬝ᵥ (slow (k + 1)).1) := by
  obtain ⟨h1, h2, -, -⟩ := slow_inv k
  simp only [slow]
  have hvv : 0 < (slow k).2 ⬝ᵥ (slow k).2 := by linarith
  rw [le_div_iff₀ hvv, add_dotProduct, smul_dotProduct, smul_eq_mul]
  linarith

/-- **C48/C49 fail**: for some non-singular base `LLL` does not return a base, but a pair (line 68 tests
`Niter == 100`, not the limit 1000 of the loop), although nothing is left to reduce. -/
theorem C48_pair_fails : ∃ E : Matrix (Fin 2) (Fin 2) ℝ, E.det ≠ 0 ∧ ∀ B, lll E ≠ .base B := by
  refine ⟨slowArr 99, ?_, ?_⟩
  · rw [slowArr, Matrix.det_transpose]; exact slow_det_ne 99
  · intro B
    have h : lllLoop 1000 (slowArr 99)ᵀ 0 = (![(slow 0).1, (slow 0).2], 100, false) :=
      slow_done 99 900 0
    unfold lll
    rw [h]
    simp

/-- **C49 fails** at the iteration limit: for some non-singular base the array returned is not reduced;
the second vector still contains the first one at least twice. -/
theorem C49_limit_fails : ∃ E B : Matrix (Fin 2) (Fin 2) ℝ, E.det ≠ 0 ∧ lll E = .base B ∧
    ∀ O M, IsGramSchmidt (Bᵀ : Fin 2 → Fin 2 → ℝ) O M → 2 ≤ M 1 0 := by
  refine ⟨slowArr 1502, slowArr 502, ?_, ?_, ?_⟩
  · rw [slowArr, Matrix.det_transpose]; exact slow_det_ne _
  · have h : lllLoop 1000 (slowArr 1502)ᵀ 0 = (![(slow 502).1, (slow 502).2], 1000, true) := by
      have := slow_limit 502 1000 0
      exact this
    unfold lll
    rw [h]
    simp only
    rw [if_neg (by norm_num), if_pos]
    · rfl
    · rw [slowArr, Matrix.det_transpose, Matrix.det_transpose, slow_det, slow_det]
      norm_num
  · intro O M hg
    have hd : (Matrix.of ![(slow 502).1, (slow 502).2]).det ≠ 0 := slow_det_ne 502
    have hg' : IsGramSchmidt ![(slow 502).1, (slow 502).2] O M := hg
    have hM := (C50_unique hd hg' (gs2 (self_ne hd))).2
    rw [hM]
    exact slow_coef 501

/-- A base whose second and third vectors are nearly reduced. -/
noncomputable def skewed : Cols 3 := ![![1, 0, 0], ![2 / 5, 1, 0], ![-2 / 5, 3 / 5, 1]]

/-- What `LLL` makes of it. -/
noncomputable def skewed' : Cols 3 := ![![1, 0, 0], ![2 / 5, 1, 0], ![-4 / 5, -2 / 5, 1]]

theorem skewed_entries : skewed 0 0 = 1 ∧ skewed 0 1 = 0 ∧ skewed 0 2 = 0 ∧ skewed 1 0 = 2 / 5 ∧ skewed 1 1 = 1 ∧ skewed 1 2 = 0 ∧ skewed 2 0 = -2 / 5 ∧ skewed 2 1 = 3 / 5 ∧ skewed 2 2 = 1 :=
  ⟨rfl, rfl, rfl, rfl, rfl, rfl, rfl, rfl, rfl⟩

theorem skewed_entries' : skewed' 0 0 = 1 ∧ skewed' 0 1 = 0 ∧ skewed' 0 2 = 0 ∧ skewed' 1 0 = 2 / 5 ∧ skewed' 1 1 = 1 ∧ skewed' 1 2 = 0 ∧ skewed' 2 0 = -4 / 5 ∧ skewed' 2 1 = -2 / 5 ∧ skewed' 2 2 = 1 :=
  ⟨rfl, rfl, rfl, rfl, rfl, rfl, rfl, rfl, rfl⟩

theorem gs_unit {M : Cols 3} (hd : ∀ i, M i i = 1) (hu : ∀ i j, i < j → M i j = 0) :
    IsGramSchmidt M (1 : Matrix (Fin 3) (Fin 3) ℝ) M where
  orth i j hij := by fin_cases i <;> fin_cases j <;> simp_all [dotProduct, Fin.sum_univ_three, Matrix.one_apply]
  diag := hd
  upper := hu
  fact i := by
    funext k
    fin_cases k <;> simp [Finset.sum_apply, Fin.sum_univ_three, Matrix.one_apply]

theorem skewed_gs : IsGramSchmidt skewed (1 : Matrix (Fin 3) (Fin 3) ℝ) skewed :=
  gs_unit (fun i => by fin_cases i <;> rfl)
    (fun i j h => by fin_cases i <;> fin_cases j <;> first | rfl | exact absurd h (by decide))

theorem skewed_gs' : IsGramSchmidt skewed' (1 : Matrix (Fin 3) (Fin 3) ℝ) skewed' :=
  gs_unit (fun i => by fin_cases i <;> rfl)
    (fun i j h => by fin_cases i <;> fin_cases j <;> first | rfl | exact absurd h (by decide))

theorem one_rows (i : Fin 3) : (1 : Matrix (Fin 3) (Fin 3) ℝ) i ⬝ᵥ (1 : Matrix (Fin 3) (Fin 3) ℝ) i ≠ 0 := by
  fin_cases i <;> simp [dotProduct, Fin.sum_univ_three, Matrix.one_apply]

/-- **C49 fails** as to size reduction, even far from the iteration limits: for some 3-dimensional
non-singular base (columns `e₁`, `0.4 e₁ + e₂`, `-0.4 e₁ + 0.6 e₂ + e₃`) the returned base has a
Gram-Schmidt coefficient -0.8.  `Gauss_reduction` computes the coefficients once, before it changes the
columns. -/
theorem C49_size_fails : ∃ E B : Matrix (Fin 3) (Fin 3) ℝ, E.det ≠ 0 ∧ lll E = .base B ∧
    (lllLoop 1000 Eᵀ 0).2.2 = false ∧
    ∀ O M, IsGramSchmidt (Bᵀ : Fin 3 → Fin 3 → ℝ) O M → M 2 0 = -4 / 5 := by
  have hg : gaussReduction skewed = skewed' := by
    have hM := (gs_unique skewed_gs one_rows).2
    have r1 : roundEven (2 / 5 : ℝ) = 0 := roundEven_of_near (by norm_num [abs_lt])
    have r2 : roundEven (-2 / 5 : ℝ) = 0 := roundEven_of_near (by norm_num [abs_lt])
    have r3 : roundEven (3 / 5 : ℝ) = 1 := roundEven_of_near (by norm_num [abs_lt])
    unfold gaussReduction
    rw [gaussOps_eq, hM]
    have h0 : opsVec (fun i j => roundEven (skewed i j)) skewed 0 = skewed 0 := by
      rw [opsVec_eq, show Finset.Iio (0 : Fin 3) = ∅ by decide]; simp
    have h1 : opsVec (fun i j => roundEven (skewed i j)) skewed 1 = skewed 1 := by
      rw [opsVec_eq, show Finset.Iio (1 : Fin 3) = {0} by decide, Finset.sum_singleton]
      have : roundEven (skewed 1 0) = 0 := r1
      rw [this]; simp
    funext i
    fin_cases i
    · exact h0
    · exact h1
    · change opsVec _ skewed 2 = _
      rw [opsVec_eq, show Finset.Iio (2 : Fin 3) = {0, 1} by decide,
        Finset.sum_insert (by decide), Finset.sum_singleton, h0, h1]
      have e1 : roundEven (skewed 2 0) = 0 := r2
      have e2 : roundEven (skewed 2 1) = 1 := r3
      rw [e1, e2]
      funext k
      obtain ⟨a1, a2, a3, a4, a5, a6, a7, a8, a9⟩ := skewed_entries
      obtain ⟨b1, b2, b3, b4, b5, b6, b7, b8, b9⟩ := skewed_entries'
      fin_cases k <;> simp [*] <;> norm_num
  have hs : swapping skewed' = none := by
    rw [swapping_none skewed_gs' one_rows]
    intro i j hij
    obtain ⟨b1, b2, b3, b4, b5, b6, b7, b8, b9⟩ := skewed_entries'
    have h01 : ((0 : Fin 3) = 1) = False := by simp
    have h02 : ((0 : Fin 3) = 2) = False := by simp
    have h12 : ((1 : Fin 3) = 2) = False := by simp
    have h10 : ((1 : Fin 3) = 0) = False := by simp
    have h20 : ((2 : Fin 3) = 0) = False := by simp
    have h21 : ((2 : Fin 3) = 1) = False := by simp
    have key : i = 0 ∧ j = 1 ∨ i = 1 ∧ j = 2 := by
      simp only [Fin.ext_iff, Fin.val_zero, Fin.val_one, Fin.val_two]; omega
    rcases key with ⟨rfl, rfl⟩ | ⟨rfl, rfl⟩
    · simp only [dotProduct, Fin.sum_univ_three, Pi.add_apply, Pi.smul_apply, smul_eq_mul,
        Matrix.one_apply, b4, h01, h02, h10, h12, if_true, if_false]
      norm_num
    · simp only [dotProduct, Fin.sum_univ_three, Pi.add_apply, Pi.smul_apply, smul_eq_mul,
        Matrix.one_apply, b8, h10, h12, h20, h21, if_true, if_false]
      norm_num
  have hl : lllLoop 1000 skewed 0 = (skewed', 1, false) := by
    rw [lllLoop, hg]
    simp only [hs]
  have hd : (Matrix.of skewed).det = 1 := by
    obtain ⟨a1, a2, a3, a4, a5, a6, a7, a8, a9⟩ := skewed_entries
    rw [Matrix.det_fin_three]; simp only [Matrix.of_apply, a1, a2, a3, a4, a5, a6, a7, a8, a9]; norm_num
  have hd' : (Matrix.of skewed').det = 1 := by
    obtain ⟨a1, a2, a3, a4, a5, a6, a7, a8, a9⟩ := skewed_entries'
    rw [Matrix.det_fin_three]; simp only [Matrix.of_apply, a1, a2, a3, a4, a5, a6, a7, a8, a9]; norm_num
  refine ⟨(Matrix.of skewed)ᵀ, (Matrix.of skewed')ᵀ, ?_, ?_, ?_, ?_⟩
  · rw [Matrix.det_transpose, hd]; norm_num
  · unfold lll
    have : lllLoop 1000 ((Matrix.of skewed)ᵀ)ᵀ 0 = (skewed', 1, false) := hl
    rw [this]
    simp only
    rw [if_neg (by norm_num), if_pos]
    rw [Matrix.det_transpose, Matrix.det_transpose, hd, hd']
  · have : lllLoop 1000 ((Matrix.of skewed)ᵀ)ᵀ 0 = (skewed', 1, false) := hl
    rw [this]
  · intro O M hgs
    have hgs' : IsGramSchmidt skewed' O M := hgs
    rw [(C50_unique (by rw [hd']; norm_num) hgs' skewed_gs').2]
    rfl

example : (slowArr 7).det ≠ 0 ∧ (∃ B, lll (slowArr 7) = .base B) ∧
    (lllLoop 1000 (slowArr 7)ᵀ 0).2.2 = false := by
  have h : lllLoop 1000 (slowArr 7)ᵀ 0 = (![(slow 0).1, (slow 0).2], 8, false) := slow_done 7 992 0
  refine ⟨?_, ?_, by rw [h]⟩
  · rw [slowArr, Matrix.det_transpose]; exact slow_det_ne _
  · unfold lll
    rw [h]
    simp only
    rw [if_neg (by norm_num)]
    split
    · exact ⟨_, rfl⟩
    · exact ⟨_, rfl⟩

end Verif.Props
