import Mathlib.Tactic.Ring
import Mathlib.Tactic.Linarith
import Mathlib.Tactic.FieldSimp
import Mathlib.LinearAlgebra.Matrix.DotProduct
import Mathlib.LinearAlgebra.Matrix.Block
import Mathlib.LinearAlgebra.Matrix.Permutation
import Mathlib.LinearAlgebra.Matrix.NonsingularInverse
import Verif.Lemmas.Lattice
import Verif.Model.LLL
import Verif.Spec.Reduced

/-!
# Lemmas on lattice reduction
-/

namespace Verif.Lemmas

open Matrix Verif.Model Verif.Spec

variable {n : ℕ}

theorem roundEven_near (x : ℝ) : |x - roundEven x| ≤ 1 / 2 := by
  unfold roundEven
  split
  · rename_i h
    have hf : x = ⌊x⌋ + 1 / 2 := by rw [← h]; exact (Int.floor_add_fract x).symm
    split
    · rw [abs_le]; constructor <;> linarith
    · push_cast; rw [abs_le]; constructor <;> linarith
  · exact abs_sub_round x

theorem dot_self_nonneg {m : ℕ} (v : Fin m → ℝ) : 0 ≤ v ⬝ᵥ v :=
  Finset.sum_nonneg fun i _ => mul_self_nonneg (v i)

/-! ### Gram-Schmidt -/

theorem gsVec_eq (C : Cols n) (i : Fin n) :
    gsVec C i = C i - ∑ j ∈ Finset.Iio i, gsCoef C i j • gsVec C j := by
  rw [gsVec]
  congr 1
  rw [Finset.sum_subtype (Finset.Iio i) (p := fun j => j < i) (fun j => by simp)
    (fun j => gsCoef C i j • gsVec C j)]
  refine Finset.sum_congr rfl fun j _ => ?_
  rw [gsCoef, if_pos j.2]

theorem gs_orth_lt (C : Cols n) : ∀ i j : Fin n, j < i → gsVec C i ⬝ᵥ gsVec C j = 0 := by
  intro i
  induction i using WellFoundedLT.induction with
  | _ i ih =>
    intro j hj
    rw [gsVec_eq, sub_dotProduct, sum_dotProduct]
    have : ∑ k ∈ Finset.Iio i, (gsCoef C i k • gsVec C k) ⬝ᵥ gsVec C j =
        gsCoef C i j * (gsVec C j ⬝ᵥ gsVec C j) := by
      rw [Finset.sum_eq_single j]
      · rw [smul_dotProduct, smul_eq_mul]
      · intro k hk hkj
        rw [Finset.mem_Iio] at hk
        rw [smul_dotProduct]
        rcases lt_or_gt_of_ne hkj with h | h
        · rw [dotProduct_comm, ih j hj k h, smul_zero]
        · rw [ih k hk j h, smul_zero]
      · intro h; exact absurd (Finset.mem_Iio.2 hj) h
    rw [this, gsCoef, if_pos hj]
    by_cases h0 : gsVec C j ⬝ᵥ gsVec C j = 0
    · rw [dotProduct_self_eq_zero.1 h0]; simp
    · rw [div_mul_cancel₀ _ h0, sub_self]

theorem gs_spec (C : Cols n) : IsGramSchmidt C (gsVec C) (gsCoef C) where
  orth i j h := by
    rcases lt_or_gt_of_ne h with h | h
    · rw [dotProduct_comm]; exact gs_orth_lt C j i h
    · exact gs_orth_lt C i j h
  diag i := by simp [gsCoef]
  upper i j h := by
    rw [gsCoef, if_neg (not_lt.2 h.le), if_neg h.ne]
  fact i := by
    rw [← Finset.sum_subset (Finset.subset_univ (Finset.Iic i))]
    · rw [← Finset.Iio_insert, Finset.sum_insert (by simp)]
      have hd : gsCoef C i i = 1 := by simp [gsCoef]
      rw [hd, one_smul, gsVec_eq]
      abel
    · intro j _ hj
      rw [Finset.mem_Iic, not_le] at hj
      rw [gsCoef, if_neg (not_lt.2 hj.le), if_neg hj.ne, zero_smul]

/-- The product of a vector with a Gram-Schmidt vector. -/
theorem gs_dot {C O : Fin n → Fin n → ℝ} {M : Fin n → Fin n → ℝ} (h : IsGramSchmidt C O M)
    (i j : Fin n) : C i ⬝ᵥ O j = M i j * (O j ⬝ᵥ O j) := by
  rw [h.fact i, sum_dotProduct, Finset.sum_eq_single j]
  · rw [smul_dotProduct, smul_eq_mul]
  · intro k _ hk; rw [smul_dotProduct, h.orth k j hk, smul_zero]
  · simp

theorem gs_fact' {C O : Fin n → Fin n → ℝ} {M : Fin n → Fin n → ℝ} (h : IsGramSchmidt C O M)
    (i : Fin n) : O i = C i - ∑ j ∈ Finset.Iio i, M i j • O j := by
  have h1 := h.fact i
  rw [← Finset.sum_subset (Finset.subset_univ (Finset.Iic i))] at h1
  · rw [← Finset.Iio_insert, Finset.sum_insert (by simp), h.diag, one_smul] at h1
    rw [h1]; abel
  · intro j _ hj
    rw [Finset.mem_Iic, not_le] at hj
    rw [h.upper i j hj, zero_smul]

/-- Gram-Schmidt vectors are unique, and so are the coefficients when no vector vanishes. -/
theorem gs_unique {C O : Fin n → Fin n → ℝ} {M : Fin n → Fin n → ℝ} (h : IsGramSchmidt C O M)
    (h0 : ∀ i, O i ⬝ᵥ O i ≠ 0) : gsVec C = O ∧ gsCoef C = M := by
  have hv : ∀ i, gsVec C i = O i := by
    intro i
    induction i using WellFoundedLT.induction with
    | _ i ih =>
      rw [gsVec_eq, gs_fact' h]
      congr 1
      refine Finset.sum_congr rfl fun j hj => ?_
      rw [Finset.mem_Iio] at hj
      rw [gsCoef, if_pos hj, ih j hj, gs_dot h, mul_div_cancel_right₀ _ (h0 j)]
  refine ⟨funext hv, ?_⟩
  funext i j
  unfold gsCoef
  split
  · rw [hv, gs_dot h, mul_div_cancel_right₀ _ (h0 j)]
  · split
    · rename_i h1; rw [h1, h.diag]
    · rename_i h1 h2
      rw [h.upper i j (lt_of_le_of_ne (not_lt.1 h1) h2)]

/-- In matrix form. -/
theorem gs_matrix {C O : Fin n → Fin n → ℝ} {M : Fin n → Fin n → ℝ} (h : IsGramSchmidt C O M) :
    Matrix.of C = Matrix.of M * Matrix.of O := by
  ext i k
  rw [Matrix.mul_apply, Matrix.of_apply, h.fact i]
  simp [Finset.sum_apply]

theorem gs_det_M {C O : Fin n → Fin n → ℝ} {M : Fin n → Fin n → ℝ} (h : IsGramSchmidt C O M) :
    (Matrix.of M).det = 1 := by
  rw [Matrix.det_of_isLowerTriangular]
  · simp [h.diag]
  · intro i j hij
    exact h.upper i j (by simpa using hij)

theorem gs_ne_zero {C O : Fin n → Fin n → ℝ} {M : Fin n → Fin n → ℝ} (h : IsGramSchmidt C O M)
    (hC : (Matrix.of C).det ≠ 0) (i : Fin n) : O i ⬝ᵥ O i ≠ 0 := by
  intro h0
  apply hC
  rw [gs_matrix h, Matrix.det_mul, Matrix.det_eq_zero_of_row_eq_zero (A := Matrix.of O) i, mul_zero]
  intro j
  rw [Matrix.of_apply, dotProduct_self_eq_zero.1 h0]; rfl

/-! ### The column operations -/

section ops

variable {V W : Type*} [AddCommGroup V] [AddCommGroup W]

theorem inner_fold (m : Fin n → Fin n → ℤ) (i : Fin n) (l : List (Fin n)) (hl : ∀ j ∈ l, j ≠ i)
    (B : Fin n → V) :
    l.foldl (fun B j => Function.update B i (B i - m i j • B j)) B =
      Function.update B i (B i - (l.map fun j => m i j • B j).sum) := by
  induction l generalizing B with
  | nil => simp
  | cons a as ih =>
    simp only [List.foldl_cons, List.map_cons, List.sum_cons]
    rw [ih (fun j hj => hl j (List.mem_cons_of_mem _ hj))]
    simp only [Function.update_self, Function.update_idem]
    congr 1
    rw [sub_sub]
    congr 2
    congr 1
    apply List.map_congr_left
    intro j hj
    rw [Function.update_of_ne (hl j (List.mem_cons_of_mem _ hj))]

/-- The columns after the operations, by recursion. -/
def opsVec (m : Fin n → Fin n → ℤ) (C : Fin n → V) (i : Fin n) : V :=
  C i - ∑ j : {j : Fin n // j < i}, m i j.1 • opsVec m C j.1
termination_by i
decreasing_by all_goals exact j.2

theorem filter_lt_sum (i : Fin n) (f : Fin n → V) :
    (((List.finRange n).filter (· < i)).map f).sum = ∑ j : {j : Fin n // j < i}, f j.1 := by
  rw [← Finset.sum_subtype (Finset.Iio i) (p := fun j => j < i) (fun j => by simp) f]
  have hnd : ((List.finRange n).filter (· < i)).Nodup := (List.nodup_finRange n).filter _
  rw [← List.sum_toFinset f hnd]
  congr 1
  ext j
  simp

theorem gaussOps_eq (m : Fin n → Fin n → ℤ) (C : Fin n → V) : gaussOps m C = opsVec m C := by
  have key : ∀ l : List (Fin n), l.Pairwise (· < ·) → (∀ i ∈ l, ∀ j, j < i → j ∈ l) →
      ∀ j, l.foldl (fun B i => ((List.finRange n).filter (· < i)).foldl
        (fun B j => Function.update B i (B i - m i j • B j)) B) C j =
        if j ∈ l then opsVec m C j else C j := by
    intro l
    induction l using List.reverseRecOn with
    | nil => simp
    | append_singleton l i ih =>
      intro hp hd j
      rw [List.pairwise_append] at hp
      have hlt : ∀ a ∈ l, a < i := fun a ha => hp.2.2 a ha i (by simp)
      have hd' : ∀ a ∈ l, ∀ b, b < a → b ∈ l := by
        intro a ha b hb
        have := hd a (by simp [ha]) b hb
        rcases List.mem_append.1 this with h | h
        · exact h
        · rw [List.mem_singleton] at h
          have := hlt a ha
          omega
      have hS := ih hp.1 hd'
      have hi : i ∉ l := fun h => lt_irrefl _ (hlt i h)
      rw [List.foldl_append, List.foldl_cons, List.foldl_nil, inner_fold _ _ _ (by
        intro j hj; rw [List.mem_filter] at hj; exact (of_decide_eq_true hj.2).ne),
        filter_lt_sum]
      by_cases hji : j = i
      · subst hji
        rw [Function.update_self, if_pos (by simp), opsVec, hS j, if_neg hi]
        congr 1
        refine Finset.sum_congr rfl fun k _ => ?_
        have hk : k.1 ∈ l := by
          have := hd j (by simp) k.1 k.2
          rcases List.mem_append.1 this with h | h
          · exact h
          · exact absurd (List.mem_singleton.1 h) k.2.ne
        rw [hS, if_pos hk]
      · rw [Function.update_of_ne hji, hS j]
        have : j ∈ l ++ [i] ↔ j ∈ l := by simp [hji]
        simp only [this]
  funext j
  unfold gaussOps
  rw [key _ (List.pairwise_lt_finRange n) (fun _ _ _ _ => List.mem_finRange _),
    if_pos (List.mem_finRange j)]

theorem opsVec_eq (m : Fin n → Fin n → ℤ) (C : Fin n → V) (i : Fin n) :
    opsVec m C i = C i - ∑ j ∈ Finset.Iio i, m i j • opsVec m C j := by
  rw [opsVec]
  congr 1
  rw [Finset.sum_subtype (Finset.Iio i) (p := fun j => j < i) (fun j => by simp)]

theorem opsVec_map (m : Fin n → Fin n → ℤ) (C : Fin n → V) (φ : V →+ W) (i : Fin n) :
    opsVec m (fun j => φ (C j)) i = φ (opsVec m C i) := by
  induction i using WellFoundedLT.induction with
  | _ i ih =>
    rw [opsVec_eq, opsVec_eq m C, map_sub, map_sum]
    congr 1
    refine Finset.sum_congr rfl fun j hj => ?_
    rw [Finset.mem_Iio] at hj
    rw [ih j hj, map_zsmul]

end ops

/-- Operations on rows that are unit lower triangular keep them so, and change the entry next to the
diagonal by the coefficient. -/
theorem ops_lower {R : Type*} [Ring R] (m : Fin n → Fin n → ℤ) (M : Fin n → Fin n → R)
    (hd : ∀ i, M i i = 1) (hu : ∀ i j, i < j → M i j = 0) :
    (∀ i, opsVec m M i i = 1) ∧ (∀ i j, i < j → opsVec m M i j = 0) ∧
    ∀ i j : Fin n, (i : ℕ) = j + 1 → opsVec m M i j = M i j - m i j := by
  have hup : ∀ i j, i < j → opsVec m M i j = 0 := by
    intro i
    induction i using WellFoundedLT.induction with
    | _ i ih =>
      intro j hij
      rw [opsVec_eq, Pi.sub_apply, hu i j hij, Finset.sum_apply, Finset.sum_eq_zero]
      · simp
      · intro k hk
        rw [Finset.mem_Iio] at hk
        rw [Pi.smul_apply, ih k hk j (hk.trans hij), smul_zero]
  have hdg : ∀ i, opsVec m M i i = 1 := by
    intro i
    rw [opsVec_eq, Pi.sub_apply, hd, Finset.sum_apply, Finset.sum_eq_zero]
    · simp
    · intro k hk
      rw [Finset.mem_Iio] at hk
      rw [Pi.smul_apply, hup k i hk, smul_zero]
  refine ⟨hdg, hup, ?_⟩
  intro i j hij
  rw [opsVec_eq, Pi.sub_apply, Finset.sum_apply, Finset.sum_eq_single j]
  · rw [Pi.smul_apply, hdg]; simp
  · intro k hk hkj
    rw [Finset.mem_Iio] at hk
    have : k < j := by
      rw [Fin.lt_def] at *
      have : (k : ℕ) ≠ j := fun h => hkj (Fin.ext h)
      omega
    rw [Pi.smul_apply, hup k j this, smul_zero]
  · intro h
    exact absurd (Finset.mem_Iio.2 (by rw [Fin.lt_def]; omega)) h

/-- Gram-Schmidt data of the reduced columns. -/
theorem gauss_gs {C O : Fin n → Fin n → ℝ} {M : Fin n → Fin n → ℝ} (h : IsGramSchmidt C O M)
    (m : Fin n → Fin n → ℤ) : IsGramSchmidt (gaussOps m C) O (opsVec m M) := by
  obtain ⟨hd, hu, _⟩ := ops_lower m M h.diag h.upper
  refine ⟨h.orth, hd, hu, fun i => ?_⟩
  rw [gaussOps_eq]
  let φ : (Fin n → ℝ) →+ (Fin n → ℝ) :=
    { toFun := fun x => ∑ j, x j • O j
      map_zero' := by simp
      map_add' := fun x y => by simp [add_smul, Finset.sum_add_distrib] }
  have : C = fun i => φ (M i) := funext h.fact
  conv_lhs => rw [this]
  exact opsVec_map m M φ i

theorem gauss_subdiag {C : Cols n} (i j : Fin n) (hij : (i : ℕ) = j + 1) :
    |opsVec (fun i j => roundEven (gsCoef C i j)) (gsCoef C) i j| ≤ 1 / 2 := by
  have h := gs_spec C
  rw [(ops_lower _ _ h.diag h.upper).2.2 i j hij]
  exact roundEven_near _

/-! ### The swap test -/

theorem projection_eq {C O : Fin n → Fin n → ℝ} {M : Fin n → Fin n → ℝ} (h : IsGramSchmidt C O M)
    (h0 : ∀ i, O i ⬝ᵥ O i ≠ 0) (i k : Fin n) :
    projection i (C k) C = ∑ j ∈ Finset.Icc i k, M k j • O j := by
  obtain ⟨hv, hM⟩ := gs_unique h h0
  unfold projection
  rw [hv, ← Finset.sum_subset (s₁ := Finset.Icc i k) (s₂ := Finset.Ici i)]
  · refine Finset.sum_congr rfl fun j _ => ?_
    rw [gs_dot h, mul_div_cancel_right₀ _ (h0 j)]
  · intro j hj; rw [Finset.mem_Icc] at hj; exact Finset.mem_Ici.2 hj.1
  · intro j hj hj'
    rw [Finset.mem_Ici] at hj
    rw [Finset.mem_Icc, not_and, not_le] at hj'
    rw [gs_dot h, h.upper k j (hj' hj), zero_mul, zero_div, zero_smul]

theorem needsSwap_iff {C O : Fin n → Fin n → ℝ} {M : Fin n → Fin n → ℝ} (h : IsGramSchmidt C O M)
    (h0 : ∀ i, O i ⬝ᵥ O i ≠ 0) (i j : Fin n) (hij : (j : ℕ) = i + 1) :
    needsSwap C i = true ↔
      4 / 3 * ((O j + M j i • O i) ⬝ᵥ (O j + M j i • O i)) < O i ⬝ᵥ O i := by
  have hlt : (i : ℕ) + 1 < n := by rw [← hij]; exact j.2
  have hj : (⟨i + 1, hlt⟩ : Fin n) = j := Fin.ext hij.symm
  unfold needsSwap
  rw [dif_pos hlt, decide_eq_true_iff, hj, projection_eq h h0, projection_eq h h0]
  have h1 : ∑ k ∈ Finset.Icc i i, M i k • O k = O i := by simp [h.diag]
  have h2 : ∑ k ∈ Finset.Icc i j, M j k • O k = O j + M j i • O i := by
    have : Finset.Icc i j = {j, i} := by
      ext k
      simp only [Finset.mem_Icc, Finset.mem_insert, Finset.mem_singleton, Fin.le_def, Fin.ext_iff]
      omega
    rw [this, Finset.sum_insert (by simp only [Finset.mem_singleton, Fin.ext_iff]; omega),
      Finset.sum_singleton, h.diag, one_smul]
  rw [h1, h2]

theorem swapping_none {C O : Fin n → Fin n → ℝ} {M : Fin n → Fin n → ℝ} (h : IsGramSchmidt C O M)
    (h0 : ∀ i, O i ⬝ᵥ O i ≠ 0) : swapping C = none ↔ Lovasz O M := by
  unfold swapping
  rw [List.find?_eq_none]
  constructor
  · intro hf i j hij
    have := hf i (List.mem_finRange i)
    rw [needsSwap_iff h h0 i j hij, not_lt] at this
    exact this
  · intro hL i _
    by_cases hi : (i : ℕ) + 1 < n
    · rw [needsSwap_iff h h0 i ⟨i + 1, hi⟩ rfl, not_lt]
      exact hL i ⟨i + 1, hi⟩ rfl
    · simp [needsSwap, hi]

/-! ### The lattice is kept -/

/-- `B` is obtained from `C` by an integer matrix of determinant `±1` acting on the columns. -/
def SameLattice (C B : Cols n) : Prop :=
  ∃ A : Matrix (Fin n) (Fin n) ℤ, (A.det = 1 ∨ A.det = -1) ∧ Matrix.of B = toR A * Matrix.of C

theorem toR_mul' (A B : Matrix (Fin n) (Fin n) ℤ) : toR (A * B) = toR A * toR B := by
  unfold toR; exact Matrix.map_mul (f := Int.castRingHom ℝ)

theorem SameLattice.refl (C : Cols n) : SameLattice C C :=
  ⟨1, Or.inl Matrix.det_one, by simp [toR, Matrix.map_one]⟩

theorem SameLattice.trans {C B D : Cols n} (h1 : SameLattice C B) (h2 : SameLattice B D) :
    SameLattice C D := by
  obtain ⟨A, hA, hB⟩ := h1
  obtain ⟨A', hA', hD⟩ := h2
  refine ⟨A' * A, ?_, by rw [hD, hB, toR_mul', Matrix.mul_assoc]⟩
  rw [Matrix.det_mul]
  rcases hA with h | h <;> rcases hA' with h' | h' <;> rw [h, h'] <;> simp

theorem SameLattice.det_ne {C B : Cols n} (h : SameLattice C B) (hC : (Matrix.of C).det ≠ 0) :
    (Matrix.of B).det ≠ 0 := by
  obtain ⟨A, hA, hB⟩ := h
  rw [hB, Matrix.det_mul, toR_det]
  refine mul_ne_zero ?_ hC
  rcases hA with h | h <;> rw [h] <;> norm_num

theorem gaussOps_same (m : Fin n → Fin n → ℤ) (C : Cols n) : SameLattice C (gaussOps m C) := by
  let I : Fin n → Fin n → ℤ := fun i => (1 : Matrix (Fin n) (Fin n) ℤ) i
  have hd : ∀ i, I i i = 1 := fun i => Matrix.one_apply_eq i
  have hu : ∀ i j, i < j → I i j = 0 := fun i j h => Matrix.one_apply_ne h.ne
  obtain ⟨h1, h2, _⟩ := ops_lower m I hd hu
  refine ⟨Matrix.of (opsVec m I), Or.inl ?_, ?_⟩
  · rw [Matrix.det_of_isLowerTriangular]
    · simp [h1]
    · intro i j hij; exact h2 i j (by simpa using hij)
  · let φ : (Fin n → ℤ) →+ (Fin n → ℝ) :=
      { toFun := fun x => ∑ j, (x j : ℝ) • C j
        map_zero' := by simp
        map_add' := fun x y => by simp [add_smul, Finset.sum_add_distrib] }
    have hC : C = fun i => φ (I i) := by
      funext i
      change C i = ∑ j, ((I i j : ℤ) : ℝ) • C j
      rw [Finset.sum_eq_single i]
      · rw [hd]; simp
      · intro j _ hj
        have : I i j = 0 := Matrix.one_apply_ne (Ne.symm hj)
        rw [this]; simp
      · simp
    ext i k
    rw [Matrix.of_apply, gaussOps_eq]
    conv_lhs => rw [hC, opsVec_map m I φ i]
    rw [Matrix.mul_apply]
    change (∑ j, ((opsVec m I i j : ℤ) : ℝ) • C j) k = _
    rw [Finset.sum_apply]
    rfl

theorem swapNext_same (C : Cols n) (i : Fin n) : SameLattice C (swapNext C i) := by
  unfold swapNext
  split
  · rename_i h
    set σ := Equiv.swap i ⟨i + 1, h⟩
    refine ⟨σ.permMatrix ℤ, Or.inr ?_, ?_⟩
    · rw [Matrix.det_permutation, Equiv.Perm.sign_swap]
      · simp
      · intro hcon; have := congrArg Fin.val hcon; simp at this
    · ext a b
      have : toR (σ.permMatrix ℤ) = σ.permMatrix ℝ := by
        ext a b
        simp [toR, Equiv.Perm.permMatrix, PEquiv.toMatrix_apply]
      rw [this, Equiv.Perm.permMatrix, PEquiv.toMatrix_toPEquiv_mul]
      rfl
  · exact SameLattice.refl C

theorem lllLoop_same (f : ℕ) (C B : Cols n) (k : ℕ) (h : SameLattice C B) :
    SameLattice C (lllLoop f B k).1 := by
  induction f generalizing B k with
  | zero => exact h
  | succ f ih =>
    simp only [lllLoop]
    have hg := h.trans (gaussOps_same (fun i j => roundEven (gsCoef B i j)) B)
    split
    · exact hg
    · exact ih _ _ (hg.trans (swapNext_same _ _))

/-- When the loop ends because no swap is needed, the columns are reduced. -/
theorem lllLoop_reduced (f : ℕ) (B : Cols n) (k : ℕ) (hB : (Matrix.of B).det ≠ 0)
    (hs : (lllLoop f B k).2.2 = false) :
    ∃ O M, IsGramSchmidt (lllLoop f B k).1 O M ∧ (∀ i, O i ⬝ᵥ O i ≠ 0) ∧ Lovasz O M ∧
      ∀ i j : Fin n, (i : ℕ) = j + 1 → |M i j| ≤ 1 / 2 := by
  induction f generalizing B k with
  | zero => simp [lllLoop] at hs
  | succ f ih =>
    have hg := gaussOps_same (fun i j => roundEven (gsCoef B i j)) B
    cases hn : swapping (gaussReduction B) with
    | none =>
      simp only [lllLoop, hn]
      have hgs := gauss_gs (gs_spec B) (fun i j => roundEven (gsCoef B i j))
      have h0 := gs_ne_zero (gs_spec B) hB
      exact ⟨_, _, hgs, h0, (swapping_none hgs h0).1 hn, gauss_subdiag⟩
    | some i =>
      simp only [lllLoop, hn] at hs ⊢
      exact ih _ _ ((hg.trans (swapNext_same _ _)).det_ne hB) hs

end Verif.Lemmas
