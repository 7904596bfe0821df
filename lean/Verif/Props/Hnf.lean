import Verif.Lemmas.Hnf
import Verif.Lemmas.HnfEnum
import Mathlib.Tactic.FinCases

/-!
# Properties C01 - C08 : divisors, enumeration of HNFs, HNF decomposition
-/

namespace Verif.Props

open Matrix Verif.Model Verif.Spec Verif.Lemmas

/-! ## C01 -/

/-- C01: for `n ≥ 1` the result is strictly increasing and contains exactly the positive divisors. -/
theorem C01_divisors (n : ℤ) (hn : 1 ≤ n) :
    (divisors n).Pairwise (· < ·) ∧ ∀ d, d ∈ divisors n ↔ 0 < d ∧ d ∣ n :=
  ⟨divisors_sorted hn, mem_divisors hn⟩

/-- C01, the remaining inputs. -/
theorem C01_divisors_nonpos (n : ℤ) (hn : n ≤ 0) : divisors n = [n] := divisors_nonpos hn

example : divisors 12 = [1, 2, 3, 4, 6, 12] := by decide

/-! ## C02 -/

/-- C02: exactly the Hermite normal forms with the given diagonal, each once. -/
theorem C02_hnf_from_diag {N : ℕ} (diag : Fin N → ℤ) (hd : ∀ i, 1 ≤ diag i) :
    (hnfFromDiag diag).Nodup ∧
      ∀ H, H ∈ hnfFromDiag diag ↔ IsHNF H ∧ ∀ i, H i i = diag i :=
  ⟨(hnfFromDiag_spec diag).1, mem_hnfFromDiag diag hd⟩

example : ∀ i, 1 ≤ (![1, 2, 3] : Fin 3 → ℤ) i := by decide
example : (hnfFromDiag (![1, 2, 3] : Fin 3 → ℤ)).length = 18 := by decide +kernel

/-! ## C03 -/

/-- C03: exactly the Hermite normal forms of determinant `n`, each once. -/
theorem C03_hnf_from_det (n : ℤ) (hn : 1 ≤ n) (N : ℕ) (hN : 1 ≤ N) :
    ∃ l, hnfFromDet n N = .ok l ∧ l.Nodup ∧ ∀ H, H ∈ l ↔ IsHNF H ∧ H.det = n := by
  obtain ⟨k, rfl⟩ : ∃ k, N = k + 1 := ⟨N - 1, by omega⟩
  exact hnfFromDet_spec n hn k

/-- C03: the exceptional inputs. -/
theorem C03_hnf_from_det_errors :
    (∀ (n : ℤ) (N : ℕ), n < 0 → hnfFromDet n N = .error .valueError) ∧
    (∀ n : ℤ, 0 ≤ n → hnfFromDet n 0 = .error .typeError) ∧
    (∀ N : ℕ, 1 ≤ N → hnfFromDet 0 N = .ok [0]) := by
  refine ⟨?_, ?_, ?_⟩
  · intro n N hn
    simp [hnfFromDet, hn]
  · intro n hn
    have : ¬ n < 0 := by omega
    simp [hnfFromDet, this, itProd, selectDiags, reduceMul]
  · intro N hN
    obtain ⟨k, rfl⟩ : ∃ k, N = k + 1 := ⟨N - 1, by omega⟩
    have h1 : itProd (divisors 0) (k + 1) = [fun _ => 0] := by
      rw [divisors_nonpos le_rfl]
      induction k with
      | zero =>
        simp only [itProd, List.flatMap_cons, List.map_cons, List.map_nil, List.flatMap_nil,
          List.append_nil, List.cons.injEq, and_true]
        funext i
        refine Fin.cases rfl (fun j => j.elim0) i
      | succ k ih =>
        rw [itProd, ih (by omega)]
        simp only [List.flatMap_cons, List.map_cons, List.map_nil, List.flatMap_nil,
          List.append_nil, List.cons.injEq, and_true]
        funext i
        exact Fin.cases rfl (fun j => rfl) i
    have h2 : modifs (fun _ : Fin (k + 1) => (0 : ℤ)) = [] := by
      rw [List.eq_nil_iff_forall_not_mem]
      rintro ⟨i, j, v⟩ h
      rw [mem_modifs] at h
      omega
    simp only [hnfFromDet, lt_irrefl, if_false, h1, selectDiags_spec]
    simp [hnfFromDiag, h2]

example : (hnfFromDet 4 2).toOption =
    some [!![1, 0; 0, 4], !![1, 0; -1, 4], !![1, 0; -2, 4], !![1, 0; -3, 4], !![2, 0; 0, 2],
      !![2, 0; -1, 2], !![4, 0; 0, 1]] := by decide +kernel

/-! ## C05, C06 -/

/-- C05: for a non-singular matrix, `hnfd` (true division) returns an HNF `H` and a unimodular `L`
with `H L = M`, and the `onlyH` variant returns the same `H`. -/
theorem C05_hnfd (n : ℕ) (M : Matrix (Fin (n + 1)) (Fin (n + 1)) ℤ) (hM : M.det ≠ 0) :
    ∃ H L, hnfd .py3 n M = .ok (H, L) ∧ hnfdH .py3 n M = .ok H ∧
      IsHNF H ∧ Unimodular L ∧ H * L = M := by
  obtain ⟨H, hH, -, -, hn⟩ := hnfdH_spec .py3 n M hM
  have hc := hnfdH_colEq .py3 n M H hH
  cases n with
  | zero =>
    simp only [hnfdH, Except.ok.injEq] at hH
    by_cases h0 : 0 < M 0 0
    · simp only [h0, if_true] at hH
      subst hH
      exact ⟨M, 1, by simp [hnfd, h0], by simp [hnfdH, h0], hn rfl, unimodular_one, by simp⟩
    · simp only [h0, if_false] at hH
      subst hH
      exact ⟨-M, -1, by simp [hnfd, h0], by simp [hnfdH, h0], hn rfl, by right; simp, by simp⟩
  | succ n =>
    obtain ⟨L, hL, hML⟩ := hc.symm
    have hdet := hc.det_ne hM
    refine ⟨H, L, ?_, hH, hn rfl, hL, hML.symm⟩
    simp only [hnfd, hH, hdet, if_false, inv_mul_rint hdet hML]

/-- C06: the `H` part only depends on `M` up to a unimodular change of columns. -/
theorem C06_hnfd_canonical (n : ℕ) (M A : Matrix (Fin (n + 1)) (Fin (n + 1)) ℤ) (hM : M.det ≠ 0)
    (hA : Unimodular A) : hnfdH .py3 n (M * A) = hnfdH .py3 n M := by
  have hMA : (M * A).det ≠ 0 := by
    rw [Matrix.det_mul]
    exact mul_ne_zero hM (unimodular_isUnit hA).ne_zero
  obtain ⟨H, hH, -, -, h1⟩ := hnfdH_spec .py3 n M hM
  obtain ⟨K, hK, -, -, h2⟩ := hnfdH_spec .py3 n (M * A) hMA
  have e : ColEq H K := (hnfdH_colEq _ _ _ _ hH).symm.trans
    (ColEq.trans ⟨A, hA, rfl⟩ (hnfdH_colEq _ _ _ _ hK))
  rw [hH, hK, hnf_unique (h1 rfl) (h2 rfl) e]

/-- C06: if `H` is in normal form, `hnfd (H A)` returns exactly `(H, A)`. -/
theorem C06_hnfd_recovers (n : ℕ) (H A : Matrix (Fin (n + 1)) (Fin (n + 1)) ℤ) (hH : IsHNF H)
    (hA : Unimodular A) : hnfd .py3 n (H * A) = .ok (H, A) := by
  have hHd : H.det ≠ 0 := by
    rw [det_isHNF hH]
    exact Finset.prod_ne_zero_iff.mpr (fun i _ => ne_of_gt (hH.diag i))
  have hd : (H * A).det ≠ 0 := by
    rw [Matrix.det_mul]
    exact mul_ne_zero hHd (unimodular_isUnit hA).ne_zero
  obtain ⟨K, L, h1, -, h3, h4, h5⟩ := C05_hnfd n (H * A) hd
  obtain ⟨V, hV, hAV, -⟩ := unimodular_exists_inv hA
  have e : K = H := by
    apply hnf_unique h3 hH
    refine ⟨L * V, unimodular_mul h4 hV, ?_⟩
    rw [← Matrix.mul_assoc, h5, Matrix.mul_assoc, hAV, Matrix.mul_one]
  subst e
  rw [h1]
  have : IsUnit (K.map (Int.cast : ℤ → ℚ)).det := by
    have h : (K.map (Int.cast : ℤ → ℚ)).det = ((K.det : ℤ) : ℚ) := by
      have := (Int.castRingHom ℚ).map_det K
      simpa [RingHom.mapMatrix_apply] using this.symm
    rw [h]
    exact IsUnit.mk0 _ (by exact_mod_cast hHd)
  have e1 := inv_mul_rint hHd (rfl : K * L = K * L)
  rw [h5, inv_mul_rint hHd (rfl : K * A = K * A)] at e1
  rw [e1]

/-- C06: in particular `hnfd` is idempotent. -/
theorem C06_hnfd_idempotent (n : ℕ) (H : Matrix (Fin (n + 1)) (Fin (n + 1)) ℤ) (hH : IsHNF H) :
    hnfd .py3 n H = .ok (H, 1) := by
  have := C06_hnfd_recovers n H 1 hH unimodular_one
  rwa [Matrix.mul_one] at this

-- a concrete normal form, a unimodular matrix and the product `hnfd` has to take apart
example : IsHNF (!![2, 0, 0; -1, 3, 0; 0, -2, 5] : Matrix (Fin 3) (Fin 3) ℤ) :=
  ⟨by intro i j; fin_cases i <;> fin_cases j <;> simp, by decide,
    by intro i j; fin_cases i <;> fin_cases j <;> simp⟩
example : Unimodular (!![1, 2, 0; 3, 7, 1; 0, 1, 0] : Matrix (Fin 3) (Fin 3) ℤ) := by
  right; decide +kernel
example : (!![2, 4, 6; 1, 7, 1; 0, 3, 5] : Matrix (Fin 3) (Fin 3) ℤ).det ≠ 0 := by decide +kernel
example : (hnfdH .py3 2 !![2, 4, 6; 1, 7, 1; 0, 3, 5]).toOption =
    some !![2, 0, 0; 0, 1, 0; -13, -18, 31] := by decide +kernel

/-! ## C04 -/

theorem columnLattice_eq_iff {n : ℕ} {M H : Matrix (Fin n) (Fin n) ℤ} (hM : M.det ≠ 0) :
    columnLattice M = columnLattice H ↔ ∃ L, Unimodular L ∧ M = H * L := by
  constructor
  · intro h
    have c1 : ∀ A : Matrix (Fin n) (Fin n) ℤ, ∀ j, A.col j ∈ columnLattice A := by
      intro A j
      exact ⟨Pi.single j 1, by rw [Matrix.mulVec_single_one]⟩
    have hML : ∀ A B : Matrix (Fin n) (Fin n) ℤ, columnLattice A ⊆ columnLattice B →
        ∃ L, A = B * L := by
      intro A B hAB
      choose f hf using fun j => hAB (c1 A j)
      refine ⟨Matrix.of (fun i j => f j i), ?_⟩
      ext i j
      have := congrFun (hf j) i
      simpa [Matrix.mulVec, dotProduct, Matrix.mul_apply] using this
    obtain ⟨L, hL⟩ := hML M H h.le
    obtain ⟨K, hK⟩ := hML H M h.ge
    refine ⟨L, unimodular_of_isUnit ?_, hL⟩
    have : M.det * 1 = M.det * (K.det * L.det) := by
      conv_lhs => rw [hL, hK]
      rw [Matrix.det_mul, Matrix.det_mul, mul_one]
      ring
    have := mul_left_cancel₀ hM this
    exact IsUnit.of_mul_eq_one K.det (by rw [mul_comm]; exact this.symm)
  · rintro ⟨L, hL, rfl⟩
    obtain ⟨V, -, h1, -⟩ := unimodular_exists_inv hL
    ext x
    constructor
    · rintro ⟨c, rfl⟩
      exact ⟨L *ᵥ c, by rw [Matrix.mulVec_mulVec]⟩
    · rintro ⟨c, rfl⟩
      exact ⟨V *ᵥ c, by rw [Matrix.mulVec_mulVec, Matrix.mul_assoc, h1, Matrix.mul_one]⟩

/-- C04: every sublattice of index `n` of `ℤ^(N+1)` (given by any basis `M`) is generated by exactly
one of the enumerated Hermite normal forms, the one returned by `hnfd`. -/
theorem C04_sublattices (N : ℕ) (M : Matrix (Fin (N + 1)) (Fin (N + 1)) ℤ) (hM : M.det ≠ 0) :
    ∃ l, hnfFromDet |M.det| (N + 1) = .ok l ∧
      ∃ H, hnfdH .py3 N M = .ok H ∧ H ∈ l ∧ columnLattice M = columnLattice H ∧
        (∃ L, Unimodular L ∧ M = H * L) ∧
        ∀ K ∈ l, (columnLattice M = columnLattice K ∨ ∃ L, Unimodular L ∧ M = K * L) → K = H := by
  obtain ⟨l, hl, -, hmem⟩ := hnfFromDet_spec |M.det| (abs_pos.mpr hM) N
  obtain ⟨H, L, -, h2, h3, h4, h5⟩ := C05_hnfd N M hM
  have hdetH : H.det = |M.det| := by
    have hpos : 0 < H.det := by
      rw [det_isHNF h3]
      exact Finset.prod_pos (fun i _ => h3.diag i)
    rw [← h5, Matrix.det_mul]
    rcases h4 with h | h <;> rw [h] <;> simp [abs_of_pos hpos]
  refine ⟨l, hl, H, h2, (hmem H).mpr ⟨h3, hdetH⟩,
    (columnLattice_eq_iff hM).mpr ⟨L, h4, h5.symm⟩, ⟨L, h4, h5.symm⟩, ?_⟩
  intro K hK hKM
  have hKM' : ∃ L, Unimodular L ∧ M = K * L := by
    rcases hKM with h | h
    · exact (columnLattice_eq_iff hM).mp h
    · exact h
  have hKn := ((hmem K).mp hK).1
  have e1 : ColEq K M := hKM'
  have e2 : ColEq H M := ⟨L, h4, h5.symm⟩
  exact hnf_unique hKn h3 (e1.trans e2.symm)

example : (!![1, 2; 3, 4] : Matrix (Fin 2) (Fin 2) ℤ).det ≠ 0 := by decide +kernel
example : (hnfdH .py3 1 !![1, 2; 3, 4]).toOption = some !![1, 0; -1, 2] := by decide +kernel

/-! ## C07 -/

/-- C07: a singular matrix of dimension at least two makes `hnfd` raise, under both interpreters. -/
theorem C07_hnfd_singular (py : Py) (n : ℕ) (M : Matrix (Fin (n + 2)) (Fin (n + 2)) ℤ)
    (hM : M.det = 0) : ∃ e, hnfd py (n + 1) M = .error e := by
  unfold hnfd
  cases h : hnfdH py (n + 1) M with
  | error e => exact ⟨e, by simp [h]⟩
  | ok H =>
    have : H.det = 0 := by
      rcases (hnfdH_colEq py _ _ _ h).det with h' | h' <;> rw [h', hM]
      simp
    exact ⟨.linAlgError, by simp [h, this]⟩

/-- The dimension restriction in C07 is needed: the `1 x 1` zero matrix is "decomposed". -/
theorem C07_dimension_one_fails : hnfd .py3 0 (0 : Matrix (Fin 1) (Fin 1) ℤ) = .ok (0, -1) := by
  simp [hnfd]

example : (!![1, 2; 2, 4] : Matrix (Fin 2) (Fin 2) ℤ).det = 0 := by decide +kernel

/-! ## C08 -/

/-- C08 fails under Python 2: floor division makes `hnfd` return a matrix that is not in normal form,
and equivalent inputs get different results. -/
theorem C08_python2_fails :
    (hnfdH .py2 1 !![1, 0; 1, 2] = .ok !![1, 0; 1, 2] ∧
      ¬ IsHNF (!![1, 0; 1, 2] : Matrix (Fin 2) (Fin 2) ℤ)) ∧
    ∃ (M A : Matrix (Fin 2) (Fin 2) ℤ), M.det ≠ 0 ∧ Unimodular A ∧
      hnfdH .py2 1 (M * A) ≠ hnfdH .py2 1 M := by
  have e1 : hnfdH .py2 1 !![1, 0; 1, 2] = .ok !![1, 0; 1, 2] := by
    have : (hnfdH .py2 1 !![1, 0; 1, 2]).toOption = some !![1, 0; 1, 2] := by decide +kernel
    cases h : hnfdH .py2 1 !![1, 0; 1, 2] with
    | error e => rw [h] at this; simp [Except.toOption] at this
    | ok H => rw [h] at this; simp only [Except.toOption, Option.some.injEq] at this; rw [this]
  refine ⟨⟨e1, ?_⟩, ?_⟩
  · intro h
    have := (h.lower 1 0 (by decide)).2
    revert this
    decide
  · refine ⟨!![1, 0; 1, 2], !![1, 0; -1, 1], by decide +kernel, Or.inl (by decide +kernel), ?_⟩
    rw [e1]
    intro h
    have h2 : (hnfdH .py2 1 (!![1, 0; 1, 2] * !![1, 0; -1, 1])).toOption
        = some !![1, 0; -1, 2] := by decide +kernel
    rw [h] at h2
    revert h2
    decide +kernel

/-- C08, the part that holds under both interpreters: a lower triangular factor with positive
diagonal and an exact unimodular factorisation.  Missing under Python 2: the range of the entries left of the
diagonal, hence canonicity. -/
theorem C08_hnfd_partial (py : Py) (n : ℕ) (M : Matrix (Fin (n + 1)) (Fin (n + 1)) ℤ)
    (hM : M.det ≠ 0) :
    ∃ H, hnfdH py n M = .ok H ∧ (∀ i j, i < j → H i j = 0) ∧ (∀ i, 0 < H i i) ∧
      ∃ L, Unimodular L ∧ H * L = M := by
  obtain ⟨H, hH, h1, h2, -⟩ := hnfdH_spec py n M hM
  obtain ⟨L, hL, hML⟩ := (hnfdH_colEq py n M H hH).symm
  exact ⟨H, hH, h1, h2, L, hL, hML.symm⟩

end Verif.Props
