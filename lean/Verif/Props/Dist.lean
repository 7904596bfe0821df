import Verif.Lemmas.Quartic
import Verif.Spec.LatCor
import Verif.Props.Direct

/-!
# Properties C28 - C32 : the distances, the quartic tensor, the search radius

Matrices `E1`, `E2` are bases (columns), `E2inv` is the inverse of `E2` (`la.inv`).
-/

namespace Verif.Props

open Matrix Verif.Model Verif.Spec Verif.Lemmas

section
variable {N : ℕ} (E1 E2 E2inv : Matrix (Fin N) (Fin N) ℝ) (L : Matrix (Fin N) (Fin N) ℤ)

/-! ## C28 -/

/-- C28: the Cauchy distance is never negative. -/
theorem C28_nonneg : 0 ≤ cauchyDist L E1 E2inv := by
  rw [cauchyDist_eq]; exact fro_nonneg _

/-- C28: it vanishes exactly on perfect matches. -/
theorem C28_zero_iff (hE2 : E2 * E2inv = 1) :
    cauchyDist L E1 E2inv = 0 ↔ PerfectMatch E1 E2 L := by
  rw [cauchyDist_eq, fro_eq_zero, sub_eq_zero]
  exact Cinv_eq_one_iff hE2 L

/-- C28: rotating (or reflecting) either lattice does not change it. -/
theorem C28_rotation (Q1 Q2 E2' E2inv' : Matrix (Fin N) (Fin N) ℝ) (h1 : IsOrtho Q1) (h2 : IsOrtho Q2)
    (hE2 : E2 * E2inv = 1) (hE2' : E2' = Q2 * E2) (hinv : E2' * E2inv' = 1) :
    cauchyDist L (Q1 * E1) E2inv' = cauchyDist L E1 E2inv := by
  have e : E2inv' = E2inv * Q2ᵀ := by
    have hE2'' : E2inv * E2 = 1 := mul_eq_one_comm.mp hE2
    have : (E2inv * Q2ᵀ) * E2' = 1 := by
      rw [hE2', Matrix.mul_assoc, ← Matrix.mul_assoc Q2ᵀ, show Q2ᵀ * Q2 = 1 from h2, Matrix.one_mul,
        hE2'']
    calc E2inv' = (E2inv * Q2ᵀ) * E2' * E2inv' := by rw [this, Matrix.one_mul]
      _ = _ := by rw [Matrix.mul_assoc, hinv, Matrix.mul_one]
  refine cauchyDist_of_Cinv h1 (Cinv_of_Finv (isOrtho_transpose h2) ?_)
  unfold Finv
  rw [e]
  simp only [Matrix.mul_assoc]

/-- C28: symmetry equivalent correspondences have equal distances. -/
theorem C28_lattice_groups (hE2 : E2 * E2inv = 1) (M1 M2 : Matrix (Fin N) (Fin N) ℤ)
    (h1 : IsLatticeSym E1 M1) (h2 : IsLatticeSym E2 M2) :
    cauchyDist (M1 * L * M2) E1 E2inv = cauchyDist L E1 E2inv := by
  obtain ⟨Q1, hQ1, e1⟩ := h1
  obtain ⟨Q2, hQ2, e2⟩ := h2
  exact cauchyDist_of_Cinv hQ1 (Cinv_of_Finv hQ2 (Finv_equiv hE2 e1 e2))

/-- C28 in the form used by the searches (hypothesis `hd` of C35 - C41). -/
theorem C28_class_function (hE2 : E2 * E2inv = 1) (GA GM : List (Matrix (Fin N) (Fin N) ℤ))
    (hGA : ∀ M ∈ GA, IsLatticeSym E1 M) (hGM : ∀ M ∈ GM, IsLatticeSym E2 M) :
    ∀ L X, Equivalent GA GM L X → cauchyDist X E1 E2inv = cauchyDist L E1 E2inv := by
  rintro L X ⟨M1, h1, M2, h2, rfl⟩
  exact C28_lattice_groups E1 E2 E2inv L hE2 M1 M2 (hGA M1 h1) (hGM M2 h2)

/-- the hypotheses are met: square lattice, quarter turn; the distance of a shear of it is 3 -/
example : IsLatticeSym (1 : Matrix (Fin 2) (Fin 2) ℝ) !![0, -1; 1, 0] ∧
    cauchyDist (!![1, 1; 0, 1] : Matrix (Fin 2) (Fin 2) ℤ) (1 : Matrix (Fin 2) (Fin 2) ℚ) 1 = 3 ∧
    cauchyDist (!![0, -1; 1, 0] * !![1, 1; 0, 1] : Matrix (Fin 2) (Fin 2) ℤ)
      (1 : Matrix (Fin 2) (Fin 2) ℚ) 1 = 3 := by
  refine ⟨⟨!![0, -1; 1, 0], ?_, ?_⟩, by decide +kernel, by decide +kernel⟩
  · unfold IsOrtho
    ext i j
    fin_cases i <;> fin_cases j <;> simp [Matrix.mul_apply]
  · ext i j
    fin_cases i <;> fin_cases j <;> simp [Matrix.mul_apply]

/-! ## C29 -/

/-- C29: the batched distance is the single one entry by entry, for every batch. -/
theorem C29_batched (xs : List (Matrix (Fin N) (Fin N) ℤ)) :
    cauchyDistVec xs E1 E2inv = xs.map (fun x => cauchyDist x E1 E2inv) := by
  unfold cauchyDistVec
  split_ifs
  · rfl
  · apply List.ext_getElem
    · simp
    · intro k h1 h2
      rw [List.getElem_ofFn, List.getElem_map]
      have hk : k < xs.length := by simpa using h1
      have hF : ∀ b a, vecFts xs E1 E2inv ⟨k, hk⟩ b a = Finv xs[k] E1 E2inv a b := by
        intro b a
        unfold vecFts vecF1 Finv
        rw [Matrix.mul_assoc, Matrix.mul_apply]
        refine Finset.sum_congr rfl fun i _ => ?_
        rw [Matrix.mul_apply, mul_comm]
        rfl
      have hC : ∀ a a', vecCs xs E1 E2inv ⟨k, hk⟩ a a' = Cinv xs[k] E1 E2inv a a' := by
        intro a a'
        unfold vecCs vecT Cinv
        rw [Matrix.mul_apply]
        exact Finset.sum_congr rfl fun b _ => by rw [hF, hF, Matrix.transpose_apply]
      unfold cauchyDist
      simp only [hC, Matrix.sub_apply]

/-! ## C30 -/

/-- C30, Ericksen distance: never negative. -/
theorem C30_eric_nonneg : 0 ≤ ericDist L E1 E2 := by
  unfold ericDist
  simp only [← fro_eq_trace]
  exact div_nonneg (fro_nonneg _) (fro_nonneg _)

/-- C30, Ericksen distance: zero exactly on perfect matches. -/
theorem C30_eric_zero_iff (hE2 : E2 * E2inv = 1) : ericDist L E1 E2 = 0 ↔ PerfectMatch E1 E2 L := by
  have hE2' : E2inv * E2 = 1 := mul_eq_one_comm.mp hE2
  have hg : E2invᵀ * (E2ᵀ * E2) * E2inv = 1 := by
    rw [← Matrix.mul_assoc, ← Matrix.transpose_mul, hE2, Matrix.transpose_one, Matrix.one_mul, hE2]
  unfold ericDist
  simp only [← fro_eq_trace]
  have key : fro ((intMat ℝ L)ᵀ * (E1ᵀ * E1 * intMat ℝ L) - E2ᵀ * E2) / fro (E2ᵀ * E2) = 0 ↔
      (intMat ℝ L)ᵀ * (E1ᵀ * E1 * intMat ℝ L) = E2ᵀ * E2 := by
    rw [div_eq_zero_iff, fro_eq_zero, fro_eq_zero, sub_eq_zero]
    constructor
    · rintro (h | h)
      · exact h
      · rw [h] at hg
        have h01 : (0 : Matrix (Fin N) (Fin N) ℝ) = 1 := by simpa using hg
        rw [h, ← Matrix.mul_one ((intMat ℝ L)ᵀ * _), ← h01, Matrix.mul_zero]
    · exact Or.inl
  rw [key, ← Cinv_eq_one_iff hE2 L]
  have hFF : (Finv L E1 E2inv)ᵀ * Finv L E1 E2inv
      = E2invᵀ * ((intMat ℝ L)ᵀ * (E1ᵀ * E1 * intMat ℝ L)) * E2inv := by
    unfold Finv
    rw [Matrix.transpose_mul, Matrix.transpose_mul]
    simp only [Matrix.mul_assoc]
  constructor
  · intro h
    rw [h, hg] at hFF
    exact mul_eq_one_comm.mp hFF
  · intro h
    have h' : (Finv L E1 E2inv)ᵀ * Finv L E1 E2inv = 1 := mul_eq_one_comm.mp h
    rw [h'] at hFF
    calc (intMat ℝ L)ᵀ * (E1ᵀ * E1 * intMat ℝ L)
        = (E2inv * E2)ᵀ * ((intMat ℝ L)ᵀ * (E1ᵀ * E1 * intMat ℝ L)) * (E2inv * E2) := by
          rw [hE2']; simp
      _ = E2ᵀ * (E2invᵀ * ((intMat ℝ L)ᵀ * (E1ᵀ * E1 * intMat ℝ L)) * E2inv) * E2 := by
          rw [Matrix.transpose_mul]; simp only [Matrix.mul_assoc]
      _ = E2ᵀ * E2 := by rw [← hFF, Matrix.mul_one]

/-- C30, Ericksen distance, proved part: it is invariant under the symmetries of the first lattice, and
under those symmetries of the second one whose integer matrix is itself orthogonal.  Missing: the other
symmetries of the second lattice (`C30_eric_group_fails`). -/
theorem C30_eric_group_partial (M1 M2 : Matrix (Fin N) (Fin N) ℤ) (h1 : IsLatticeSym E1 M1)
    (h2 : IsLatticeSym E2 M2) (h3 : IsOrtho (M2.map (Int.cast : ℤ → ℝ))) :
    ericDist (M1 * L * M2) E1 E2 = ericDist L E1 E2 := by
  obtain ⟨Q1, hQ1, e1⟩ := h1
  obtain ⟨Q2, hQ2, e2⟩ := h2
  have g1 : (intMat ℝ M1)ᵀ * (E1ᵀ * E1) * intMat ℝ M1 = E1ᵀ * E1 := by
    calc (intMat ℝ M1)ᵀ * (E1ᵀ * E1) * intMat ℝ M1 = (E1 * intMat ℝ M1)ᵀ * (E1 * intMat ℝ M1) := by
          rw [Matrix.transpose_mul]; simp only [Matrix.mul_assoc]
      _ = (Q1 * E1)ᵀ * (Q1 * E1) := by rw [e1]; rfl
      _ = E1ᵀ * (Q1ᵀ * Q1) * E1 := by rw [Matrix.transpose_mul]; simp only [Matrix.mul_assoc]
      _ = _ := by rw [show Q1ᵀ * Q1 = 1 from hQ1, Matrix.mul_one]
  have g2 : (intMat ℝ M2)ᵀ * (E2ᵀ * E2) * intMat ℝ M2 = E2ᵀ * E2 := by
    calc (intMat ℝ M2)ᵀ * (E2ᵀ * E2) * intMat ℝ M2 = (E2 * intMat ℝ M2)ᵀ * (E2 * intMat ℝ M2) := by
          rw [Matrix.transpose_mul]; simp only [Matrix.mul_assoc]
      _ = (Q2 * E2)ᵀ * (Q2 * E2) := by rw [e2]; rfl
      _ = E2ᵀ * (Q2ᵀ * Q2) * E2 := by rw [Matrix.transpose_mul]; simp only [Matrix.mul_assoc]
      _ = _ := by rw [show Q2ᵀ * Q2 = 1 from hQ2, Matrix.mul_one]
  unfold ericDist
  simp only [← fro_eq_trace]
  congr 1
  rw [intMat_mul, intMat_mul]
  have : (intMat ℝ M1 * intMat ℝ L * intMat ℝ M2)ᵀ * (E1ᵀ * E1 * (intMat ℝ M1 * intMat ℝ L * intMat ℝ M2)) - E2ᵀ * E2
      = (intMat ℝ M2)ᵀ * ((intMat ℝ L)ᵀ * (E1ᵀ * E1 * intMat ℝ L) - E2ᵀ * E2) * (intMat ℝ M2)ᵀᵀ := by
    rw [Matrix.mul_sub, Matrix.sub_mul, Matrix.transpose_transpose, g2, Matrix.transpose_mul,
      Matrix.transpose_mul]
    congr 1
    calc (intMat ℝ M2)ᵀ * ((intMat ℝ L)ᵀ * (intMat ℝ M1)ᵀ) * (E1ᵀ * E1 * (intMat ℝ M1 * intMat ℝ L * intMat ℝ M2))
        = (intMat ℝ M2)ᵀ * ((intMat ℝ L)ᵀ * (((intMat ℝ M1)ᵀ * (E1ᵀ * E1) * intMat ℝ M1) * intMat ℝ L)) * intMat ℝ M2 := by
          simp only [Matrix.mul_assoc]
      _ = _ := by rw [g1]
  rw [this]
  exact fro_conj (isOrtho_transpose h3) _

/-- C30, strain distance in three dimensions: never negative. -/
theorem C30_strain_nonneg (eig : Matrix (Fin 3) (Fin 3) ℝ → Fin 3 → ℝ)
    (heig : ∀ A : Matrix (Fin 3) (Fin 3) ℝ, Aᵀ = A → IsEigenvalues A (eig A))
    (L : Matrix (Fin 3) (Fin 3) ℤ) (E1 E2inv : Matrix (Fin 3) (Fin 3) ℝ) :
    0 ≤ strainDist eig L E1 E2inv := by
  rw [strain_eq_sq eig heig]
  have : 0 ≤ ∑ i, (Real.sqrt (eig (Cinv L E1 E2inv) i) - 1) ^ 2 :=
    Finset.sum_nonneg fun _ _ => sq_nonneg _
  simpa using this
where
  /-- the distance as a sum of squares -/
  strain_eq_sq {N : ℕ} (eig : Matrix (Fin N) (Fin N) ℝ → Fin N → ℝ)
      (heig : ∀ A : Matrix (Fin N) (Fin N) ℝ, Aᵀ = A → IsEigenvalues A (eig A))
      {L : Matrix (Fin N) (Fin N) ℤ} {E1 E2inv : Matrix (Fin N) (Fin N) ℝ} :
      strainDist eig L E1 E2inv
        = ∑ i, (Real.sqrt (eig (Cinv L E1 E2inv) i) - 1) ^ 2 + (3 - N) := by
    have h0 : ∀ i, 0 ≤ eig (Cinv L E1 E2inv) i :=
      eigenvalues_nonneg (Cinv_posSemidef L E1 E2inv) (heig _ (Cinv_symm L E1 E2inv))
    have e : ∑ i, (Real.sqrt (eig (Cinv L E1 E2inv) i) - 1) ^ 2
        = ∑ i, (eig (Cinv L E1 E2inv) i - 2 * Real.sqrt (eig (Cinv L E1 E2inv) i) + 1) := by
      refine Finset.sum_congr rfl fun i _ => ?_
      rw [sub_sq, Real.sq_sqrt (h0 i)]
      ring
    unfold strainDist
    rw [e, Finset.sum_add_distrib, Finset.sum_sub_distrib, ← Finset.mul_sum]
    simp

/-- C30, strain distance in three dimensions: zero exactly on perfect matches. -/
theorem C30_strain_zero_iff (eig : Matrix (Fin 3) (Fin 3) ℝ → Fin 3 → ℝ)
    (heig : ∀ A : Matrix (Fin 3) (Fin 3) ℝ, Aᵀ = A → IsEigenvalues A (eig A))
    (L : Matrix (Fin 3) (Fin 3) ℤ) (E1 E2 E2inv : Matrix (Fin 3) (Fin 3) ℝ) (hE2 : E2 * E2inv = 1) :
    strainDist eig L E1 E2inv = 0 ↔ PerfectMatch E1 E2 L := by
  rw [C30_strain_nonneg.strain_eq_sq eig heig, ← Cinv_eq_one_iff hE2 L]
  have hC := heig _ (Cinv_symm L E1 E2inv)
  constructor
  · intro h
    have h' : ∑ i, (Real.sqrt (eig (Cinv L E1 E2inv) i) - 1) ^ 2 = 0 := by simpa using h
    refine eq_one_of_eigenvalues (Cinv_posSemidef L E1 E2inv).1 hC fun i => ?_
    have h1 := (Finset.sum_eq_zero_iff_of_nonneg (fun _ _ => sq_nonneg _)).mp h' i (Finset.mem_univ i)
    have h2 : Real.sqrt (eig (Cinv L E1 E2inv) i) = 1 := by
      have := pow_eq_zero_iff (two_ne_zero) |>.mp h1
      linarith
    rwa [Real.sqrt_eq_one] at h2
  · intro h
    have h1 : ∀ i, eig (Cinv L E1 E2inv) i = 1 := by
      have e1 : IsEigenvalues (1 : Matrix (Fin 3) (Fin 3) ℝ) (fun _ => 1) := by
        unfold IsEigenvalues
        rw [Matrix.charpoly_one]
        simp
      have e2 : Finset.univ.val.map (eig (Cinv L E1 E2inv)) = Finset.univ.val.map (fun _ : Fin 3 => (1 : ℝ)) := by
        rw [← isEigenvalues_multiset hC, h, ← isEigenvalues_multiset e1]
      intro i
      have : eig (Cinv L E1 E2inv) i ∈ Finset.univ.val.map (eig (Cinv L E1 E2inv)) :=
        Multiset.mem_map_of_mem _ (Finset.mem_univ i)
      rw [e2] at this
      obtain ⟨j, -, hj⟩ := Multiset.mem_map.mp this
      exact hj.symm
    simp [h1]

/-- C30, strain distance in every dimension: symmetry equivalent correspondences have equal
distances. -/
theorem C30_strain_lattice_groups (eig : Matrix (Fin N) (Fin N) ℝ → Fin N → ℝ)
    (heig : ∀ A : Matrix (Fin N) (Fin N) ℝ, Aᵀ = A → IsEigenvalues A (eig A))
    (hE2 : E2 * E2inv = 1) (M1 M2 : Matrix (Fin N) (Fin N) ℤ)
    (h1 : IsLatticeSym E1 M1) (h2 : IsLatticeSym E2 M2) :
    strainDist eig (M1 * L * M2) E1 E2inv = strainDist eig L E1 E2inv := by
  obtain ⟨Q1, hQ1, e1⟩ := h1
  obtain ⟨Q2, hQ2, e2⟩ := h2
  have hC := Cinv_of_Finv (L := L) hQ2 (Finv_equiv hE2 e1 e2)
  have hch : (Cinv (M1 * L * M2) E1 E2inv).charpoly = (Cinv L E1 E2inv).charpoly := by
    rw [hC, charpoly_conj hQ1]
  have ha := heig _ (Cinv_symm (M1 * L * M2) E1 E2inv)
  have hb := heig _ (Cinv_symm L E1 E2inv)
  unfold strainDist
  simp only
  rw [sum_eigenvalues_congr ha hb hch (fun x => x), sum_eigenvalues_congr ha hb hch Real.sqrt]

/-- C30 fails for the strain distance in two dimensions: the constant 3 makes it at least 1, also on
perfect matches. -/
theorem C30_strain_2d_fails (eig : Matrix (Fin 2) (Fin 2) ℝ → Fin 2 → ℝ)
    (heig : ∀ A : Matrix (Fin 2) (Fin 2) ℝ, Aᵀ = A → IsEigenvalues A (eig A))
    (L : Matrix (Fin 2) (Fin 2) ℤ) (E1 E2inv : Matrix (Fin 2) (Fin 2) ℝ) :
    1 ≤ strainDist eig L E1 E2inv := by
  rw [C30_strain_nonneg.strain_eq_sq eig heig]
  have : 0 ≤ ∑ i, (Real.sqrt (eig (Cinv L E1 E2inv) i) - 1) ^ 2 :=
    Finset.sum_nonneg fun _ _ => sq_nonneg _
  push_cast
  linarith

/-- there is an `eig` meeting the contract, and a perfect match in two dimensions -/
example : ∃ eig : Matrix (Fin N) (Fin N) ℝ → Fin N → ℝ,
    ∀ A : Matrix (Fin N) (Fin N) ℝ, Aᵀ = A → IsEigenvalues A (eig A) := by
  classical
  refine ⟨fun A => if h : A.IsHermitian then h.eigenvalues else 0, ?_⟩
  intro A hA
  have h : A.IsHermitian := by
    unfold Matrix.IsHermitian
    rw [Matrix.conjTranspose_eq_transpose_of_trivial]; exact hA
  simp only [h, dif_pos]
  exact isEigenvalues_hermitian h

example : PerfectMatch (1 : Matrix (Fin 2) (Fin 2) ℝ) 1 1 := ⟨1, isOrtho_one, by simp⟩

/-- C30 fails for the Ericksen distance and the symmetries of the second lattice: face centred cubic
lattice (a = 2), the half turn about `[0 0 1]`. -/
theorem C30_eric_group_fails :
    ∃ (E1 E2 : Matrix (Fin 3) (Fin 3) ℝ) (L M2 : Matrix (Fin 3) (Fin 3) ℤ),
      E2 = !![0, 1, 1; 1, 0, 1; 1, 1, 0] ∧ E1 = 1 ∧ IsLatticeSym E2 M2 ∧ M2.det = 1 ∧
      ericDist (L * M2) E1 E2 ≠ ericDist L E1 E2 := by
  refine ⟨1, !![0, 1, 1; 1, 0, 1; 1, 1, 0], 1, !![0, 1, 0; 1, 0, 0; -1, -1, -1], rfl, rfl, ?_, ?_, ?_⟩
  · refine ⟨!![-1, 0, 0; 0, -1, 0; 0, 0, 1], ?_, ?_⟩
    · unfold IsOrtho
      ext i j
      fin_cases i <;> fin_cases j <;> simp [Matrix.mul_apply, Fin.sum_univ_three]
    · ext i j
      fin_cases i <;> fin_cases j <;> simp [Matrix.mul_apply, Fin.sum_univ_three]
  · simp [Matrix.det_fin_three]
  · unfold ericDist intMat
    simp only [Matrix.trace, Matrix.diag, Fin.sum_univ_three, Matrix.mul_apply, Matrix.sub_apply,
      Matrix.transpose_apply, Matrix.map_apply, Matrix.one_apply]
    simp
    norm_num

/-! ## C31 -/

/-- C31: contracting the tensor four times with a (real or integer) matrix gives the squared norm of
`Cinv`. -/
theorem C31_tensor (EA EMinv : Matrix (Fin N) (Fin N) ℝ) (L : Matrix (Fin N) (Fin N) ℤ) :
    quartForm (quartD EA EMinv) (fun p => (L p.1 p.2 : ℝ)) = ∑ i, ∑ j, Cinv L EA EMinv i j ^ 2 :=
  quartForm_quartD EA EMinv (intMat ℝ L)

/-- C31 for real matrices. -/
theorem C31_tensor_real (EA EMinv X : Matrix (Fin N) (Fin N) ℝ) :
    quartForm (quartD EA EMinv) (fun p => X p.1 p.2)
      = ∑ i, ∑ j, (((EA * X * EMinv) * (EA * X * EMinv)ᵀ) i j) ^ 2 :=
  quartForm_quartD EA EMinv X

/-- C31: `jac` is the gradient: for every tensor, point and direction the directional derivative of the
quartic form is the inner product of `jac` with the direction. -/
theorem C31_gradient {ι : Type} [Fintype ι] (T : ι → ι → ι → ι → ℝ) (x h : ι → ℝ) :
    HasDerivAt (fun t : ℝ => quartForm T (fun i => x i + t * h i)) (∑ i, quartJac T x i * h i) 0 :=
  quartForm_deriv T x h

/-! ## C32 -/

theorem frob_eq (L : Matrix (Fin N) (Fin N) ℤ) : frob L = Real.sqrt (fro (intMat ℝ L)) := rfl

/-- C32: if `alpha` is a positive lower bound of the quartic form on unit vectors, every
correspondence of distance at most `d` lies in the ball of radius `rmax(d)` (two and three
dimensions). -/
theorem C32_radius (hN : N ≤ 3) (EA EMinv : Matrix (Fin N) (Fin N) ℝ) (alpha : ℝ) (h0 : 0 < alpha)
    (ha : ∀ x : Fin N × Fin N → ℝ, ∑ p, x p ^ 2 = 1 → alpha ≤ quartForm (quartD EA EMinv) x)
    (L : Matrix (Fin N) (Fin N) ℤ) (d : ℝ) (hd : cauchyDist L EA EMinv ≤ d) :
    frob L ≤ rmaxFn alpha d := by
  have hd0 : 0 ≤ d := (C28_nonneg EA EMinv L).trans hd
  rw [frob_eq]
  refine le_rmaxFn h0 hd0 ?_
  have e : Real.sqrt (fro (intMat ℝ L)) ^ 4 = fro (intMat ℝ L) ^ 2 := by
    rw [show (4 : ℕ) = 2 * 2 from rfl, pow_mul, Real.sq_sqrt (fro_nonneg _)]
  rw [e]
  refine (quart_lower ha (intMat ℝ L)).trans ?_
  change fro (Cinv L EA EMinv) ≤ _
  rw [cauchyDist_eq] at hd
  have h1 := fro_add_le (Cinv L EA EMinv - 1) 1
  rw [sub_add_cancel, fro_one] at h1
  refine h1.trans ?_
  rw [gammaFn_eq hd0, add_comm]
  have h2 : Real.sqrt (fro (Cinv L EA EMinv - 1)) ≤ Real.sqrt d := Real.sqrt_le_sqrt hd
  have h3 : Real.sqrt (N : ℝ) ≤ Real.sqrt 3 := Real.sqrt_le_sqrt (by exact_mod_cast hN)
  have := Real.sqrt_nonneg (N : ℝ)
  have := Real.sqrt_nonneg (fro (Cinv L EA EMinv - 1))
  exact pow_le_pow_left₀ (by linarith) (by linarith) 2

/-- C32: such an `alpha` exists for every pair of non-singular bases. -/
theorem C32_alpha_exists (hN : 1 ≤ N) (EA EAinv EM EMinv : Matrix (Fin N) (Fin N) ℝ)
    (hA : EA * EAinv = 1) (hM : EM * EMinv = 1) :
    ∃ alpha, 0 < alpha ∧ ∀ x : Fin N × Fin N → ℝ, ∑ p, x p ^ 2 = 1 →
      alpha ≤ quartForm (quartD EA EMinv) x := by
  have hA' : EAinv * EA = 1 := mul_eq_one_comm.mp hA
  have hM' : EMinv * EM = 1 := mul_eq_one_comm.mp hM
  have hNR : (1 : ℝ) ≤ N := by exact_mod_cast hN
  have key : ∀ X : Matrix (Fin N) (Fin N) ℝ,
      fro X ≤ fro EAinv * fro (EA * X * EMinv) * fro EM := by
    intro X
    have e : X = EAinv * (EA * X * EMinv) * EM := by
      calc X = (EAinv * EA) * X * (EMinv * EM) := by rw [hA', hM']; simp
        _ = _ := by simp only [Matrix.mul_assoc]
    calc fro X = fro (EAinv * (EA * X * EMinv) * EM) := by rw [← e]
      _ ≤ fro (EAinv * (EA * X * EMinv)) * fro EM := fro_mul_le _ _
      _ ≤ _ := mul_le_mul_of_nonneg_right (fro_mul_le _ _) (fro_nonneg _)
  have hc0 : 0 < fro EAinv * fro EM := by
    refine mul_pos ?_ ?_
    · refine lt_of_le_of_ne (fro_nonneg _) (fun h => ?_)
      have h' := key 1
      rw [← h, fro_one] at h'
      simp at h'
      omega
    · refine lt_of_le_of_ne (fro_nonneg _) (fun h => ?_)
      have h' := key 1
      rw [← h, fro_one] at h'
      simp at h'
      omega
  refine ⟨1 / ((fro EAinv * fro EM) ^ 2 * N), by positivity, ?_⟩
  intro x hx
  set X : Matrix (Fin N) (Fin N) ℝ := Matrix.of fun i j => x (i, j) with hX
  have hfx : fro X = 1 := by
    rw [← hx, Fintype.sum_prod_type]
    rfl
  have e : quartForm (quartD EA EMinv) x = fro ((EA * X * EMinv) * (EA * X * EMinv)ᵀ) :=
    quartForm_quartD EA EMinv X
  rw [e, div_le_iff₀ (by positivity)]
  have h1 := key X
  rw [hfx] at h1
  have h2 := fro_mul_transpose (EA * X * EMinv)
  have h3 := fro_nonneg (EA * X * EMinv)
  have h4 : 1 ≤ (fro EAinv * fro EM * fro (EA * X * EMinv)) ^ 2 := by
    apply one_le_pow₀
    calc (1 : ℝ) ≤ _ := h1
      _ = _ := by ring
  calc (1 : ℝ) ≤ (fro EAinv * fro EM) ^ 2 * fro (EA * X * EMinv) ^ 2 := by rw [← mul_pow]; exact h4
    _ ≤ (fro EAinv * fro EM) ^ 2 * (N * fro ((EA * X * EMinv) * (EA * X * EMinv)ᵀ)) :=
        mul_le_mul_of_nonneg_left h2 (by positivity)
    _ = _ := by ring

end
end Verif.Props
