import Mathlib.Analysis.Matrix.PosDef
import Mathlib.Tactic.NormNum
import Mathlib.Tactic.FinCases
import Verif.Lemmas.Martensite
import Verif.Props.LatticeGroups
import Verif.Props.MatrixGroup

/-!
# C51, C52, C53: martensite variants
-/

namespace Verif.Props

open Matrix Verif.Model Verif.Spec Verif.Lemmas

/-! ## C51 -/

theorem posDef_of_spd {n : ℕ} {U : Matrix (Fin n) (Fin n) ℝ} (h : IsSPD U) : U.PosDef := by
  rw [Matrix.posDef_iff_dotProduct_mulVec]
  refine ⟨?_, fun x hx => ?_⟩
  · rw [Matrix.IsHermitian, Matrix.conjTranspose_eq_transpose_of_trivial]; exact h.1
  · simpa using h.2 x hx

theorem spd_det_pos {n : ℕ} {U : Matrix (Fin n) (Fin n) ℝ} (h : IsSPD U) : 0 < U.det :=
  (posDef_of_spd h).det_pos

theorem setU_of {m : Mart} {args : List UArg} {U : M3} (h : uOf args = .ok (some U)) (hU : IsSPD U) :
    m.setU args = .ok ⟨some U, m.laue⟩ := by
  unfold Mart.setU
  rw [h]
  simp only
  rw [if_neg (by rw [not_not]; exact hU.1.symm), if_neg (by rw [not_not]; exact spd_det_pos hU)]

/-- **C51**, acceptance: every symmetric positive definite stretch, given as an array or by one to four
numbers, is accepted; the new object has this stretch and the old Laue group. -/
theorem C51_accepts (m : Mart) (U : M3) (hU : IsSPD U) (b : Bool) (rest : List UArg) :
    m.setU (.arr (.mat 3 3 b U) :: rest) = .ok ⟨some U, m.laue⟩ ∧
    (∀ x, U = Matrix.diagonal ![x, x, x] → m.setU [.num x] = .ok ⟨some U, m.laue⟩) ∧
    (∀ x y, U = Matrix.diagonal ![x, x, y] → m.setU [.num x, .num y] = .ok ⟨some U, m.laue⟩) ∧
    (∀ x y z, U = !![x, y, 0; y, x, 0; 0, 0, z] →
      m.setU [.num x, .num y, .num z] = .ok ⟨some U, m.laue⟩) ∧
    (∀ x y z w, U = !![x, y, 0; y, z, 0; 0, 0, w] →
      m.setU [.num x, .num y, .num z, .num w] = .ok ⟨some U, m.laue⟩) := by
  refine ⟨setU_of ?_ hU, ?_, ?_, ?_, ?_⟩
  · simp [uOf]
  · rintro x rfl; exact setU_of rfl hU
  · rintro x y rfl; exact setU_of rfl hU
  · rintro x y z rfl; exact setU_of rfl hU
  · rintro x y z w rfl; exact setU_of rfl hU

/-- **C51** (partial), rejection: whatever `setU` accepts is a symmetric matrix of positive determinant;
arrays of other shapes, unsymmetric arrays and arrays with a determinant that is not positive
are rejected with a `TypeError`.  Missing: indefinite matrices of positive determinant
(`C51_indefinite_fails`), five or more numbers (`C51_many_fails`). -/
theorem C51_rejects_partial (m : Mart) :
    (∀ args m', m.setU args = .ok m' → ∃ U, m' = ⟨some U, m.laue⟩ ∧ Uᵀ = U ∧ 0 < U.det) ∧
    (∀ A rest, (¬ ∃ b U, A = .mat 3 3 b U ∧ Uᵀ = U ∧ 0 < U.det) →
      m.setU (.arr A :: rest) = .error .typeError) ∧
    m.setU [] = .error .typeError := by
  refine ⟨?_, ?_, rfl⟩
  · intro args m' h
    unfold Mart.setU at h
    cases hu : uOf args with
    | error e => rw [hu] at h; simp at h
    | ok o =>
      rw [hu] at h
      cases o with
      | none => simp at h
      | some U =>
        simp only at h
        split at h
        · simp at h
        split at h
        · simp at h
        rename_i h1 h2
        rw [not_not] at h1 h2
        simp only [Except.ok.injEq] at h
        exact ⟨U, h.symm, h1.symm, h2⟩
  · intro A rest hA
    unfold Mart.setU
    cases A with
    | invalid => rfl
    | nonmat => rfl
    | mat p q b M =>
      simp only [uOf]
      by_cases hs : p = 3 ∧ q = 3
      · obtain ⟨rfl, rfl⟩ := hs
        rw [dif_pos ⟨rfl, rfl⟩]
        simp only
        have hM : M.submatrix (Fin.cast rfl) (Fin.cast rfl) = M := rfl
        rw [hM]
        by_cases h1 : M = Mᵀ
        · rw [if_neg (by rw [not_not]; exact h1)]
          rw [if_pos]
          intro h2
          exact hA ⟨b, M, rfl, h1.symm, h2⟩
        · rw [if_pos h1]
      · rw [dif_neg hs]

/-- **C51 fails**: `setU` accepts `diag(-1, -1, 1)`, which is not positive definite (only the
determinant is tested). -/
theorem C51_indefinite_fails (m : Mart) : ∃ U : M3, ¬ IsSPD U ∧
    m.setU [.arr (.mat 3 3 false U)] = .ok ⟨some U, m.laue⟩ ∧
    m.setU [.num (-1), .num 1] = .ok ⟨some U, m.laue⟩ := by
  have hs : (Matrix.diagonal ![-1, -1, 1] : M3) = (Matrix.diagonal ![-1, -1, 1])ᵀ := by simp
  have hd : 0 < (Matrix.diagonal ![-1, -1, 1] : M3).det := by
    rw [Matrix.det_diagonal, Fin.prod_univ_three]; simp
  have key : ∀ args, uOf args = .ok (some (Matrix.diagonal ![-1, -1, 1])) →
      m.setU args = .ok ⟨some (Matrix.diagonal ![-1, -1, 1]), m.laue⟩ := by
    intro args h
    unfold Mart.setU
    rw [h]
    simp only
    rw [if_neg (not_not.2 hs), if_neg (not_not.2 hd)]
  refine ⟨Matrix.diagonal ![-1, -1, 1], ?_, key _ (by simp [uOf]), key _ rfl⟩
  intro h
  have := h.2 ![1, 0, 0] (by intro h0; have := congrFun h0 0; simp at this)
  simp [Matrix.mulVec_diagonal, dotProduct, Fin.sum_univ_three] at this
  linarith

/-- **C51 fails**: five numbers are answered by an `AttributeError`, not by a `TypeError`. -/
theorem C51_many_fails (m : Mart) (a b c d e : ℝ) :
    m.setU [.num a, .num b, .num c, .num d, .num e] = .error .attributeError := by
  simp [Mart.setU, uOf]

-- a stretch that meets the hypothesis of `C51_accepts`
theorem spd_diagonal {d : Fin 3 → ℝ} (h : ∀ i, 0 < d i) : IsSPD (Matrix.diagonal d) := by
  refine ⟨by simp, fun x hx => ?_⟩
  have hsum : x ⬝ᵥ (Matrix.diagonal d *ᵥ x) = ∑ i, d i * x i ^ 2 := by
    simp only [dotProduct, Matrix.mulVec_diagonal]
    exact Finset.sum_congr rfl fun i _ => by ring
  rw [hsum]
  obtain ⟨i, hi⟩ := Function.ne_iff.1 hx
  exact Finset.sum_pos' (fun j _ => mul_nonneg (h j).le (sq_nonneg _))
    ⟨i, Finset.mem_univ _, mul_pos (h i) (lt_of_le_of_ne (sq_nonneg _) (Ne.symm (pow_ne_zero 2 hi)))⟩

example : IsSPD (Matrix.diagonal ![1, 1, 2] : M3) := spd_diagonal (by intro i; fin_cases i <;> simp)

/-! ## C52 -/

/-- **C52** (partial).  For every stretch `U` and every finite group of rotations, if the variants can be
computed and the comparisons of the code decide equality on the matrices `Q U Qᵀ` (always so for exact
comparisons), then the list of variants has `U` as its first entry, has no repetitions, contains exactly
the matrices `Q U Qᵀ`; the index lists are those of the `Q` leading to each variant, all of one length,
and (number of variants) × (length) is the order of the group.  Missing: stretches with distinct
variants that differ by less than the tolerance of `np.allclose` (`C52_tolerance_fails`). -/
theorem C52_variants_partial (t : Tol) (m : Mart) (U : M3) (hU : m.U = some U) (hG : IsMatGroup m.laue)
    (nG : m.laue.Nodup) (hO : ∀ Q ∈ m.laue, Q * Qᵀ = 1)
    (hsep : ∀ P ∈ m.laue, ∀ Q ∈ m.laue, allclose t (P * U * Pᵀ) (Q * U * Qᵀ) ↔ P * U * Pᵀ = Q * U * Qᵀ)
    {vs : List M3} {idx : List (List ℕ)} (hv : m.getVariants t = .ok vs)
    (hi : m.getLaueIdx t = .ok idx) : AreVariants U m.laue vs idx := by
  unfold Mart.getVariants at hv
  unfold Mart.getLaueIdx at hi
  cases h : m.calcVariants t with
  | error e => rw [h] at hv; simp at hv
  | ok r =>
    rw [h] at hv hi
    simp only [Except.ok.injEq] at hv hi
    subst hv hi
    unfold Mart.calcVariants at h
    split at h
    · simp at h
    · simp at h
    · rw [hU] at h
      simp only [Except.ok.injEq] at h
      subst h
      exact variants_spec hG nG hO hsep

/-- With exact comparisons the separation hypothesis holds always. -/
theorem allclose_exact {m n : ℕ} (A B : Matrix (Fin m) (Fin n) ℝ) : allclose .exact A B ↔ A = B := by
  constructor
  · intro h
    ext i j
    have := h i j
    simp only [Tol.exact, zero_mul, add_zero] at this
    exact sub_eq_zero.1 (abs_eq_zero.1 (le_antisymm this (abs_nonneg _)))
  · rintro rfl i j
    simp [Tol.exact]

/-- **C52** with exact comparisons, without further hypotheses. -/
theorem C52_variants_exact (m : Mart) (U : M3) (hU : m.U = some U) (hG : IsMatGroup m.laue)
    (nG : m.laue.Nodup) (hO : ∀ Q ∈ m.laue, Q * Qᵀ = 1)
    {vs : List M3} {idx : List (List ℕ)} (hv : m.getVariants .exact = .ok vs)
    (hi : m.getLaueIdx .exact = .ok idx) : AreVariants U m.laue vs idx :=
  C52_variants_partial .exact m U hU hG nG hO (fun _ _ _ _ => allclose_exact _ _) hv hi

/-- `getvariant(n)` for `1 ≤ n ≤ N` is entry `n - 1` of the list of variants. -/
theorem C52_getvariant (t : Tol) (m : Mart) {vs : List M3} (hv : m.getVariants t = .ok vs) (n : ℕ)
    (h1 : 1 ≤ n) (hn : n ≤ vs.length) : ∃ V, vs[n - 1]? = some V ∧ m.getVariant t n = .ok V := by
  unfold Mart.getVariants at hv
  unfold Mart.getVariant
  cases h : m.calcVariants t with
  | error e => rw [h] at hv; simp at hv
  | ok r =>
    rw [h] at hv
    simp only [Except.ok.injEq] at hv
    subst hv
    refine ⟨r.1[n - 1], List.getElem?_eq_getElem (by omega), ?_⟩
    have h0 : ¬ ((n : ℤ) - 1 < 0) := by omega
    have hn' : ((n : ℤ) - 1).toNat = n - 1 := by omega
    simp only [if_neg h0, hn']
    rw [List.getElem?_eq_getElem (by omega)]

/-! ### A tetragonal stretch -/

/-- `diag(1, 1, 2)`. -/
def tetraZ : Matrix (Fin 3) (Fin 3) ℤ := !![1, 0, 0; 0, 1, 0; 0, 0, 2]

/-- The same as a stretch. -/
noncomputable def tetra : M3 := toR tetraZ

theorem tetra_det : tetra.det = 2 := by
  rw [tetra, toR_det]
  have : tetraZ.det = 2 := by decide +kernel
  rw [this]; norm_num

theorem tetra_eq : tetra = Matrix.diagonal ![1, 1, 2] := by
  ext i j
  fin_cases i <;> fin_cases j <;> simp [tetra, tetraZ, toR]

theorem tetra_entry (Q : M3) (i j : Fin 3) :
    (tetra⁻¹ * (Q * tetra)) i j = ![1, 1, 1 / 2] i * Q i j * ![1, 1, 2] j := by
  have hinv : tetra⁻¹ = Matrix.diagonal ![1, 1, 1 / 2] := by
    apply Matrix.inv_eq_left_inv
    rw [tetra_eq, Matrix.diagonal_mul_diagonal, ← Matrix.diagonal_one]
    congr 1
    ext i; fin_cases i <;> simp
  rw [hinv, tetra_eq, Matrix.diagonal_mul, Matrix.mul_diagonal, mul_assoc]

theorem tetra_sym {R : Matrix (Fin 3) (Fin 3) ℤ} (h1 : R * Rᵀ = 1) (h : R 2 0 = 0 ∧ R 2 1 = 0) :
    InPointGroup tetra (toR R) := by
  rw [inPointGroup_iff (by rw [tetra_det]; norm_num)]
  refine ⟨by rw [← toR_transpose, ← toR_mul, h1, toR_one], ?_⟩
  intro i j
  rw [tetra_entry]
  fin_cases i <;> fin_cases j
  · exact ⟨R 0 0, by simp [toR]⟩
  · exact ⟨R 0 1, by simp [toR]⟩
  · exact ⟨R 0 2 * 2, by simp [toR]⟩
  · exact ⟨R 1 0, by simp [toR]⟩
  · exact ⟨R 1 1, by simp [toR]⟩
  · exact ⟨R 1 2 * 2, by simp [toR]⟩
  · exact ⟨0, by simp [toR, h.1]⟩
  · exact ⟨0, by simp [toR, h.2]⟩
  · exact ⟨R 2 2, by simp [toR]; ring⟩

theorem cubic_small : ∀ R ∈ cubicLaue, ∀ i j : Fin 3, R i j = 0 ∨ R i j = 1 ∨ R i j = -1 := by
  have : ∀ R ∈ cubicLaue, ∀ i j : Fin 3, |R i j| ≤ 1 := by
    unfold cubicLaue; decide +kernel
  intro R hR i j
  have := abs_le.1 (this R hR i j)
  omega

theorem tetra_far {R : Matrix (Fin 3) (Fin 3) ℤ} (hR : R ∈ cubicLaue) (h : ¬ (R 2 0 = 0 ∧ R 2 1 = 0)) :
    ∃ i j, ∀ z : ℤ, 1 / 10 ^ 8 + 1 / 10 ^ 5 * |(z : ℝ)| < |(tetra⁻¹ * (toR R * tetra)) i j - z| := by
  have key : ∀ j : Fin 3, (![1, 1, 2] : Fin 3 → ℝ) j = 1 → R 2 j ≠ 0 →
      ∃ i j, ∀ z : ℤ, 1 / 10 ^ 8 + 1 / 10 ^ 5 * |(z : ℝ)| < |(tetra⁻¹ * (toR R * tetra)) i j - z| := by
    intro j hj h0
    refine ⟨2, j, ?_⟩
    rw [tetra_entry, hj]
    rcases cubic_small R hR 2 j with h | h | h
    · exact absurd h h0
    · have : (![1, 1, 1 / 2] : Fin 3 → ℝ) 2 * toR R 2 j * 1 = 1 / 2 := by simp [toR, h]
      rw [this]
      exact far_of_between 0 (by norm_num) (by norm_num) (by norm_num)
    · have : (![1, 1, 1 / 2] : Fin 3 → ℝ) 2 * toR R 2 j * 1 = -1 / 2 := by simp [toR, h]; ring
      rw [this]
      exact far_of_between (-1) (by norm_num) (by norm_num) (by norm_num)
  rcases not_and_or.1 h with h | h
  · exact key 0 rfl h
  · exact key 1 rfl h

theorem cubic_ortho' : ∀ R ∈ cubicLaue, R * Rᵀ = 1 := cubic_ortho

theorem tetra_reliable : Reliable .code tetra candidates3 := by
  refine .inr ⟨rfl, ?_⟩
  intro Q hQ
  rcases List.mem_append.mp hQ with hQ | hQ
  · obtain ⟨R, hR, rfl⟩ := List.mem_map.mp hQ
    by_cases h : R 2 0 = 0 ∧ R 2 1 = 0
    · exact .inl (tetra_sym (cubic_ortho R hR) h)
    · exact .inr (tetra_far hR h)
  · have half : ∀ Q : M3, Q 0 0 = 1 / 2 ∨ Q 0 0 = -1 / 2 →
        ∃ i j : Fin 3, ∀ z : ℤ, 1 / 10 ^ 8 + 1 / 10 ^ 5 * |(z : ℝ)| <
          |(tetra⁻¹ * (Q * tetra)) i j - z| := by
      intro Q hQ
      refine ⟨0, 0, ?_⟩
      rw [tetra_entry]
      have : (![1, 1, 1 / 2] : Fin 3 → ℝ) 0 * Q 0 0 * (![1, 1, 2] : Fin 3 → ℝ) 0 = Q 0 0 := by simp
      rw [this]
      rcases hQ with h | h <;> rw [h]
      · exact far_of_between 0 (by norm_num) (by norm_num) (by norm_num)
      · exact far_of_between (-1) (by norm_num) (by norm_num) (by norm_num)
    simp only [hexLaue, List.map_cons, List.map_nil, List.mem_cons, List.not_mem_nil, or_false,
      NMat.val] at hQ
    rcases hQ with rfl | rfl | rfl | rfl | rfl | rfl | rfl | rfl | rfl | rfl | rfl | rfl
    · exact .inl (tetra_sym (by decide +kernel) (by decide +kernel))
    · exact .inl (tetra_sym (by decide +kernel) (by decide +kernel))
    · exact .inl (tetra_sym (by decide +kernel) (by decide +kernel))
    · exact .inl (tetra_sym (by decide +kernel) (by decide +kernel))
    all_goals
      refine .inr (half _ ?_)
      first
        | (left; simp [hexC_eq]; done)
        | (right; simp [hexC_eq]; norm_num; done)

open Classical in
/-- The Laue group found for the tetragonal lattice has 8 elements, all from the cubic group. -/
theorem tetra_laue : ∃ lg, Lat.laueGroup .code ⟨3, tetra⟩ = .ok lg ∧ lg.length = 8 ∧
    ∀ Q ∈ lg, Q ∈ cubicR := by
  have hE : tetra.det ≠ 0 := by rw [tetra_det]; norm_num
  have hG : Reliable .code tetra ((cubicLaue.map NMat.int).map NMat.val) :=
    tetra_reliable.mono fun Q hQ => by
      rw [map_int_val] at hQ; exact List.mem_append_left _ hQ
  have hH : Reliable .code tetra (hexLaue.map NMat.val) :=
    tetra_reliable.mono fun Q hQ => List.mem_append_right _ hQ
  have hlen : (((cubicLaue.map NMat.int).map NMat.val).filter
      (fun Q => decide (InPointGroup tetra Q))).length = 8 := by
    rw [map_int_val, List.filter_map, List.length_map]
    have : cubicLaue.filter ((fun Q => decide (InPointGroup tetra Q)) ∘ toR) =
        cubicLaue.filter (fun R => decide (R 2 0 = 0 ∧ R 2 1 = 0)) := by
      refine List.filter_congr fun R hR => ?_
      simp only [Function.comp, decide_eq_decide]
      constructor
      · intro h
        by_contra hc
        obtain ⟨i, j, hf⟩ := tetra_far hR hc
        obtain ⟨z, hz⟩ := ((inPointGroup_iff hE).1 h).2 i j
        have := hf z
        rw [hz, sub_self, abs_zero] at this
        have h2 := abs_nonneg (z : ℝ)
        norm_num at this
        linarith
      · exact tetra_sym (cubic_ortho R hR)
    rw [this]
    unfold cubicLaue
    decide +kernel
  refine ⟨_, ?_, hlen, ?_⟩
  · rw [laueGroup_three, select_sym hE hG hH, if_neg (by rw [hlen]; omega)]
  · intro Q hQ
    have := (List.mem_filter.1 hQ).1
    rwa [map_int_val] at this

theorem tetra_reversible : Mart.isReversible .code ⟨some tetra, cubicR⟩ = .ok true := by
  obtain ⟨lg, h1, h2, h3⟩ := tetra_laue
  have hl : cubicR.length = 24 := by simp [cubicR, cubicLaue]
  simp only [Mart.isReversible, lat_new_sq false (M := tetra) (by rw [tetra_det]; norm_num), h1]
  have : hasSubgroup .code cubicR lg = true := by
    rw [C20_hassubgroup _ _ _ (by intro h; rw [h] at hl; simp at hl)]
    refine ⟨by rw [h2, hl]; norm_num, fun A hA => ⟨A, h3 A hA, allclose_self tolOK_code A⟩⟩
  rw [this, hl, h2]
  rfl

/-- Integer matrices with small entries are told apart. -/
theorem allclose_int {A B : Matrix (Fin 3) (Fin 3) ℤ} (hB : ∀ i j, |B i j| ≤ 1000) :
    allclose .code (toR A) (toR B) ↔ toR A = toR B := by
  constructor
  · intro h
    congr 1
    ext i j
    have h1 := h i j
    simp only [toR, Matrix.map_apply, Tol.code] at h1
    have h2 : |((B i j : ℤ) : ℝ)| ≤ 1000 := by exact_mod_cast hB i j
    have h3 : |((A i j - B i j : ℤ) : ℝ)| < 1 := by push_cast; linarith
    have h4 : |A i j - B i j| < 1 := by exact_mod_cast h3
    rw [Int.abs_lt_one_iff] at h4
    omega
  · intro h; rw [h]; exact allclose_self tolOK_code _

theorem cubicR_group : IsMatGroup cubicR := isMatGroup_map cubic_group toR toR_one toR_mul

theorem cubicR_nodup : cubicR.Nodup := (List.nodup_map_iff toR_injective).mpr cubic_nodup

theorem cubicR_ortho : ∀ Q ∈ cubicR, Q * Qᵀ = 1 := by
  intro Q hQ
  obtain ⟨R, hR, rfl⟩ := List.mem_map.1 hQ
  rw [← toR_transpose, ← toR_mul, cubic_ortho R hR, toR_one]

theorem tetra_sep : ∀ P ∈ cubicR, ∀ Q ∈ cubicR,
    allclose .code (P * tetra * Pᵀ) (Q * tetra * Qᵀ) ↔ P * tetra * Pᵀ = Q * tetra * Qᵀ := by
  intro P hP Q hQ
  obtain ⟨R, hR, rfl⟩ := List.mem_map.1 hP
  obtain ⟨S, hS, rfl⟩ := List.mem_map.1 hQ
  rw [tetra, ← toR_transpose, ← toR_transpose, ← toR_mul, ← toR_mul, ← toR_mul, ← toR_mul]
  apply allclose_int
  have : ∀ S ∈ cubicLaue, ∀ i j, |(S * tetraZ * Sᵀ) i j| ≤ 1000 := by
    unfold cubicLaue; decide +kernel
  exact this S hS

-- the tetragonal stretch meets all the hypotheses of `C52_variants_partial`
example : ∃ vs idx, (Mart.mk (some tetra) cubicR).getVariants .code = .ok vs ∧
    (Mart.mk (some tetra) cubicR).getLaueIdx .code = .ok idx ∧ AreVariants tetra cubicR vs idx := by
  refine ⟨_, _, ?_, ?_, variants_spec (t := .code) cubicR_group cubicR_nodup cubicR_ortho tetra_sep⟩
  · simp [Mart.getVariants, Mart.calcVariants, tetra_reversible]
  · simp [Mart.getLaueIdx, Mart.calcVariants, tetra_reversible]

/-! ### A nearly cubic stretch -/

/-- `diag(0, 0, 1)`. -/
def e33 : Matrix (Fin 3) (Fin 3) ℤ := !![0, 0, 0; 0, 0, 0; 0, 0, 1]

/-- `diag(1, 1, 1.000001)`. -/
noncomputable def almost : M3 := 1 + (1 / 10 ^ 6 : ℝ) • toR e33

theorem almost_eq : almost = Matrix.diagonal ![1, 1, 1 + 1 / 10 ^ 6] := by
  ext i j
  fin_cases i <;> fin_cases j <;> simp [almost, e33, toR]

theorem almost_spd : IsSPD almost := by
  rw [almost_eq]
  apply spd_diagonal
  intro i
  fin_cases i <;> simp
  norm_num

theorem almost_entry (Q : M3) (i j : Fin 3) :
    (almost⁻¹ * (Q * almost)) i j =
      ![1, 1, (1 + 1 / 10 ^ 6)⁻¹] i * Q i j * ![1, 1, 1 + 1 / 10 ^ 6] j := by
  have hinv : almost⁻¹ = Matrix.diagonal ![1, 1, (1 + 1 / 10 ^ 6)⁻¹] := by
    apply Matrix.inv_eq_left_inv
    rw [almost_eq, Matrix.diagonal_mul_diagonal, ← Matrix.diagonal_one]
    congr 1
    ext i; fin_cases i <;> simp
    norm_num
  rw [hinv, almost_eq, Matrix.diagonal_mul, Matrix.mul_diagonal, mul_assoc]

theorem almost_passes {R : Matrix (Fin 3) (Fin 3) ℤ} (hR : R ∈ cubicLaue) :
    passes .code almost (.int R) = true := by
  simp only [passes, Bool.and_eq_true]
  refine ⟨inO3_of_ortho tolOK_code _ (by rw [← toR_transpose, ← toR_mul, cubic_ortho R hR, toR_one]), ?_⟩
  apply eqTest_code_of_near
  intro i j
  refine ⟨R i j, ?_⟩
  rw [almost_entry]
  have hq : ∃ q : ℝ, ![1, 1, (1 + 1 / 10 ^ 6)⁻¹] i * toR R i j * ![1, 1, 1 + 1 / 10 ^ 6] j =
      q * (R i j : ℝ) ∧ |q - 1| ≤ 1 / 10 ^ 5 := by
    refine ⟨![1, 1, (1 + 1 / 10 ^ 6)⁻¹] i * ![1, 1, 1 + 1 / 10 ^ 6] j, by simp only [toR, Matrix.map_apply]; ring, ?_⟩
    fin_cases i <;> fin_cases j <;> norm_num [abs_le]
  obtain ⟨q, h1, h2⟩ := hq
  rw [h1]
  have h3 : q * (R i j : ℝ) - (R i j : ℝ) = (q - 1) * (R i j : ℝ) := by ring
  have h4 : |(R i j : ℝ)| ≤ 1 := by
    rcases cubic_small R hR i j with h | h | h <;> rw [h] <;> simp
  rw [h3, abs_mul]
  have h5 : |q - 1| * |(R i j : ℝ)| ≤ 1 / 10 ^ 5 * |(R i j : ℝ)| :=
    mul_le_mul_of_nonneg_right h2 (abs_nonneg _)
  constructor
  · nlinarith [abs_nonneg (R i j : ℝ)]
  · linarith

theorem almost_laue : Lat.laueGroup .code ⟨3, almost⟩ = .ok cubicR := by
  have hd := (spd_det_pos almost_spd).ne'
  have hf : (cubicLaue.map NMat.int).filter (passes .code almost) = cubicLaue.map NMat.int := by
    refine filter_all fun Q hQ => ?_
    obtain ⟨R, hR, rfl⟩ := List.mem_map.mp hQ
    exact almost_passes hR
  rw [laueGroup_three]
  simp only [Lat.select, filter_ok _ hd, hf, map_int_val]
  rw [if_neg (by simp [cubicLaue])]
  rfl

theorem almost_reversible : Mart.isReversible .code ⟨some almost, cubicR⟩ = .ok true := by
  simp only [Mart.isReversible, lat_new_sq false (spd_det_pos almost_spd).ne', almost_laue,
    C20_reflexive .code tolOK_code]
  simp

theorem almost_conj {Q : M3} (hQ : Q ∈ cubicR) :
    ∃ W : Matrix (Fin 3) (Fin 3) ℤ, Q * almost * Qᵀ = 1 + (1 / 10 ^ 6 : ℝ) • toR W ∧
      ∀ i j : Fin 3, W i j = 0 ∨ W i j = 1 ∧ i = j := by
  obtain ⟨R, hR, rfl⟩ := List.mem_map.1 hQ
  refine ⟨R * e33 * Rᵀ, ?_, ?_⟩
  · rw [almost, mul_add, add_mul, mul_one, Matrix.mul_smul, Matrix.smul_mul, ← toR_transpose, ← toR_mul,
      ← toR_mul, ← toR_mul, cubic_ortho R hR, toR_one]
  · have : ∀ R ∈ cubicLaue, ∀ i j : Fin 3, 0 ≤ (R * e33 * Rᵀ) i j ∧ (R * e33 * Rᵀ) i j ≤ if i = j then 1 else 0 := by
      unfold cubicLaue; decide +kernel
    intro i j
    have h := this R hR i j
    by_cases hij : i = j
    · rw [if_pos hij] at h
      by_cases h0 : (R * e33 * Rᵀ) i j = 0
      · exact .inl h0
      · exact .inr ⟨by omega, hij⟩
    · rw [if_neg hij] at h
      exact .inl (by omega)

theorem almost_close {Q : M3} (hQ : Q ∈ cubicR) : allclose .code almost (Q * almost * Qᵀ) := by
  obtain ⟨W, h, hW⟩ := almost_conj hQ
  rw [h]
  intro i j
  have he : ∀ i j : Fin 3, e33 i j = 0 ∨ e33 i j = 1 ∧ i = j := by
    intro i j
    fin_cases i <;> fin_cases j <;> simp [e33]
  simp only [almost, Matrix.add_apply, Matrix.smul_apply, toR, Matrix.map_apply, smul_eq_mul, Tol.code]
  by_cases hij : i = j
  · subst hij
    rw [Matrix.one_apply_eq]
    rcases he i i with h1 | h1 <;> rcases hW i i with h2 | h2 <;>
      simp only [h1, h2] <;> norm_num [abs_le]
  · rw [Matrix.one_apply_ne hij]
    rcases he i j with h1 | h1
    · rcases hW i j with h2 | h2
      · simp [h1, h2]
      · exact absurd h2.2 hij
    · exact absurd h1.2 hij

theorem foldl_one {t : Tol} {U : M3} : ∀ (l : List (ℕ × M3)) (ix : List ℕ),
    (∀ p ∈ l, allclose t U (p.2 * U * p.2ᵀ)) → (l.foldl (variantStep t U) ([U], [ix])).1 = [U] := by
  intro l
  induction l with
  | nil => intros; rfl
  | cons p l ih =>
    intro ix h
    rw [List.foldl_cons]
    have : variantStep t U ([U], [ix]) p = ([U], [ix ++ [p.1]]) := by
      simp [variantStep, addIndex, h p (by simp)]
    rw [this]
    exact ih _ fun q hq => h q (by simp [hq])

/-- **C52 fails** with the tolerance of `np.allclose`: for the positive definite stretch
`diag(1, 1, 1.000001)` and the cubic group only one variant is found, though there are others. -/
theorem C52_tolerance_fails : IsSPD almost ∧
    (Mart.mk (some almost) cubicR).getVariants .code = .ok [almost] ∧
    ∃ Q ∈ cubicR, Q * almost * Qᵀ ≠ almost := by
  refine ⟨almost_spd, ?_, ?_⟩
  · simp only [Mart.getVariants, Mart.calcVariants, almost_reversible, variantLoop]
    rw [foldl_one]
    intro p hp
    obtain ⟨q, hq, rfl⟩ := List.mem_map.1 hp
    exact almost_close (List.fst_mem_of_mem_zipIdx hq)
  · refine ⟨toR !![0, 1, 0; 0, 0, 1; 1, 0, 0], List.mem_map_of_mem (by unfold cubicLaue; decide +kernel), ?_⟩
    intro h
    have := congrFun (congrFun h 1) 1
    rw [almost_eq] at this
    simp [toR, Matrix.mul_apply, Fin.sum_univ_three] at this

/-! ## C53 -/

/-- **C53** (partial): `isreversible()` is true exactly if every rotation of the Laue group found for the
lattice with base `U` is, up to the tolerance of `np.allclose`, an element of the parent group, and the
order of the former divides that of the latter.  Missing: properness (`C53_proper_fails`). -/
theorem C53_reversible_partial (t : Tol) (m : Mart) (U : M3) (hU : m.U = some U) (hd : U.det ≠ 0)
    (hr : Reliable t U candidates3) (hG : m.laue ≠ []) :
    ∃ lg b, Lat.laueGroup t ⟨3, U⟩ = .ok lg ∧ IsSymmetryGroup U lg ∧ m.isReversible t = .ok b ∧
      (b = true ↔ lg.length ∣ m.laue.length ∧
        ∀ A ∈ lg, ∃ B ∈ m.laue, ∀ i j, |A i j - B i j| ≤ t.atol + t.rtol * |B i j|) := by
  obtain ⟨lg, h1, h2, -⟩ := C15_laue_group_3d t U hd hr
  refine ⟨lg, decide (lg.length ≤ m.laue.length) && hasSubgroup t m.laue lg, h1, h2, ?_, ?_⟩
  · unfold Mart.isReversible
    rw [hU]
    simp only [lat_new_sq false hd, h1]
  · rw [Bool.and_eq_true, C20_hassubgroup _ _ _ hG, decide_eq_true_iff]
    constructor
    · exact fun h => h.2
    · exact fun h => ⟨Nat.le_of_dvd (List.length_pos_of_ne_nil hG) h.1, h⟩

/-- **C53** (partial), exact comparisons: `isreversible()` is true exactly if the Laue group of the
lattice is a (not necessarily proper) subgroup of the parent group. -/
theorem C53_reversible_exact_partial (m : Mart) (U : M3) (hU : m.U = some U) (hd : U.det ≠ 0)
    (hG : IsMatGroup m.laue) (nG : m.laue.Nodup) :
    ∃ lg b, Lat.laueGroup .exact ⟨3, U⟩ = .ok lg ∧ IsSymmetryGroup U lg ∧ m.isReversible .exact = .ok b ∧
      (b = true ↔ ∀ A ∈ lg, A ∈ m.laue) := by
  have hne : m.laue ≠ [] := fun h => by have := hG.one_mem; rw [h] at this; simp at this
  obtain ⟨lg, b, h1, h2, h3, h4⟩ := C53_reversible_partial .exact m U hU hd (.inl rfl) hne
  refine ⟨lg, b, h1, h2, h3, ?_⟩
  rw [h4, ← C20_exact m.laue lg hG ⟨h2.one, h2.mul, h2.inv⟩ nG h2.nodup, C20_hassubgroup _ _ _ hne]

theorem unit_reliable : Reliable .code (1 : M3) candidates3 := by
  refine .inr ⟨rfl, ?_⟩
  intro Q hQ
  rcases List.mem_append.mp hQ with hQ | hQ
  · obtain ⟨R, hR, rfl⟩ := List.mem_map.mp hQ
    exact .inl (inPointGroup_unit (cubic_ortho R hR))
  · have half : ∀ Q : M3, Q 0 0 = 1 / 2 ∨ Q 0 0 = -1 / 2 →
        ∃ i j : Fin 3, ∀ z : ℤ, 1 / 10 ^ 8 + 1 / 10 ^ 5 * |(z : ℝ)| <
          |((1 : M3)⁻¹ * (Q * 1) : M3) i j - z| := by
      intro Q hQ
      refine ⟨0, 0, ?_⟩
      rw [inv_one, Matrix.one_mul, Matrix.mul_one]
      rcases hQ with h | h <;> rw [h]
      · exact far_of_between 0 (by norm_num) (by norm_num) (by norm_num)
      · exact far_of_between (-1) (by norm_num) (by norm_num) (by norm_num)
    simp only [hexLaue, List.map_cons, List.map_nil, List.mem_cons, List.not_mem_nil, or_false,
      NMat.val] at hQ
    rcases hQ with rfl | rfl | rfl | rfl | rfl | rfl | rfl | rfl | rfl | rfl | rfl | rfl
    · exact .inl (inPointGroup_unit (by decide +kernel))
    · exact .inl (inPointGroup_unit (by decide +kernel))
    · exact .inl (inPointGroup_unit (by decide +kernel))
    · exact .inl (inPointGroup_unit (by decide +kernel))
    all_goals
      refine .inr (half _ ?_)
      first
        | (left; simp [hexC_eq]; done)
        | (right; simp [hexC_eq]; norm_num; done)

theorem unit_laue (t : Tol) (ht : t = .code ∨ t = .exact) :
    Lat.laueGroup t ⟨3, (1 : M3)⟩ = .ok cubicR := by
  classical
  have hr : Reliable t (1 : M3) candidates3 := by
    rcases ht with rfl | rfl
    · exact unit_reliable
    · exact .inl rfl
  have hG : Reliable t (1 : M3) ((cubicLaue.map NMat.int).map NMat.val) :=
    hr.mono fun Q hQ => by
      rw [map_int_val] at hQ; exact List.mem_append_left _ hQ
  have hH : Reliable t (1 : M3) (hexLaue.map NMat.val) :=
    hr.mono fun Q hQ => List.mem_append_right _ hQ
  have hf : ((cubicLaue.map NMat.int).map NMat.val).filter
      (fun Q => decide (InPointGroup (1 : M3) Q)) = cubicR := by
    rw [map_int_val]
    refine filter_all fun Q hQ => ?_
    obtain ⟨R, hR, rfl⟩ := List.mem_map.mp hQ
    exact decide_eq_true (inPointGroup_unit (cubic_ortho R hR))
  have hlen : cubicR.length = 24 := by simp [cubicR, cubicLaue]
  rw [laueGroup_three, select_sym (by simp) hG hH]
  simp only [hf]
  rw [if_neg (by rw [hlen]; omega)]

/-- **C53 fails**: for the identity stretch the Laue group of the lattice is the whole parent group, not a
proper subgroup, and `isreversible()` is true. -/
theorem C53_proper_fails (t : Tol) (ht : t = .code ∨ t = .exact) :
    Mart.isReversible t ⟨some 1, cubicR⟩ = .ok true ∧ Lat.laueGroup t ⟨3, (1 : M3)⟩ = .ok cubicR := by
  refine ⟨?_, unit_laue t ht⟩
  have htol : TolOK t := by rcases ht with rfl | rfl; exacts [tolOK_code, tolOK_exact]
  simp only [Mart.isReversible, lat_new_sq false (M := (1 : M3)) (by simp), unit_laue t ht,
    C20_reflexive t htol]
  simp

example : (tetra.det ≠ 0 ∧ Reliable .code tetra candidates3) ∧ cubicR ≠ [] :=
  ⟨⟨by rw [tetra_det]; norm_num, tetra_reliable⟩, by simp [cubicR, cubicLaue]⟩

end Verif.Props
