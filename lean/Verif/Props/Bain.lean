import Verif.Spec.Bain
import Verif.Props.Coincide

/-!
# C99: from face-centred to body-centred cubic `lat_cor` finds Bain's correspondence
-/

namespace Verif.Props

open Matrix Verif.Spec Verif.Model Verif.Lemmas

/-- twice the fcc basis for the edge one -/
def fccInt : Matrix (Fin 3) (Fin 3) ℤ := !![1, 0, 1; 1, 1, 0; 0, 1, 1]

/-- the inverse of the bcc basis for the edge one -/
def bccRec : Matrix (Fin 3) (Fin 3) ℤ := !![1, 0, 1; -1, 1, 0; 0, -1, 1]

theorem fcc_eq (a : ℝ) : fcc a = (a / 2) • toR fccInt := by
  ext i j
  fin_cases i <;> fin_cases j <;> simp [fcc, fccInt, toR]

theorem bcc_inv {b : ℝ} (hb : b ≠ 0) : (bcc b)⁻¹ = (1 / b) • toR bccRec := by
  apply Matrix.inv_eq_right_inv
  ext i j
  fin_cases i <;> fin_cases j <;>
    simp [bcc, bccRec, toR, Matrix.mul_apply, Fin.sum_univ_three] <;> field_simp <;> norm_num

/-- the integer matrix that describes a correspondence in terms of the cube edges -/
def cubeForm (L : Matrix (Fin 3) (Fin 3) ℤ) : Matrix (Fin 3) (Fin 3) ℤ := fccInt * L * bccRec

theorem cubeForm_eq {a b : ℝ} (hb : b ≠ 0) (L : Matrix (Fin 3) (Fin 3) ℤ) :
    fcc a * toR L * (bcc b)⁻¹ = (a / (2 * b)) • toR (cubeForm L) := by
  rw [fcc_eq, bcc_inv hb, cubeForm, toR_mul, toR_mul, Matrix.smul_mul, Matrix.smul_mul, Matrix.mul_smul, smul_smul]
  congr 1
  field_simp

theorem cubeForm_det (L : Matrix (Fin 3) (Fin 3) ℤ) : (cubeForm L).det = 4 * L.det := by
  have h1 : fccInt.det = 2 := by decide
  have h2 : bccRec.det = 2 := by decide
  rw [cubeForm, Matrix.det_mul, Matrix.det_mul, h1, h2]
  ring

/-- the Gram matrix of the rows -/
def rowGram (W : Matrix (Fin 3) (Fin 3) ℤ) : Matrix (Fin 3) (Fin 3) ℤ := W * Wᵀ

theorem rowGram_diag (W : Matrix (Fin 3) (Fin 3) ℤ) (i : Fin 3) :
    rowGram W i i = W i 0 ^ 2 + W i 1 ^ 2 + W i 2 ^ 2 := by
  simp only [rowGram, Matrix.mul_apply, Matrix.transpose_apply, Fin.sum_univ_three]
  ring

theorem cubeForm_row_even (L : Matrix (Fin 3) (Fin 3) ℤ) (i : Fin 3) :
    ∃ k, cubeForm L i 0 + cubeForm L i 1 + cubeForm L i 2 = 2 * k := by
  refine ⟨(fccInt * L) i 0, ?_⟩
  simp only [cubeForm, Matrix.mul_apply (M := fccInt * L), Fin.sum_univ_three]
  simp [bccRec]
  ring

theorem cubeForm_col_even (L : Matrix (Fin 3) (Fin 3) ℤ) (j : Fin 3) :
    ∃ k, cubeForm L 0 j + cubeForm L 1 j + cubeForm L 2 j = 2 * k := by
  refine ⟨(L * bccRec) 0 j + (L * bccRec) 1 j + (L * bccRec) 2 j, ?_⟩
  rw [cubeForm, Matrix.mul_assoc]
  generalize L * bccRec = X
  simp only [Matrix.mul_apply, Fin.sum_univ_three]
  simp [fccInt]
  ring

theorem cubeForm_total (L : Matrix (Fin 3) (Fin 3) ℤ) :
    ∃ k, (cubeForm L 0 0 + cubeForm L 1 0 + cubeForm L 2 0) + (cubeForm L 0 1 + cubeForm L 1 1 + cubeForm L 2 1)
      + (cubeForm L 0 2 + cubeForm L 1 2 + cubeForm L 2 2) = 4 * k := by
  refine ⟨L 0 0 + L 1 0 + L 2 0, ?_⟩
  simp only [cubeForm, Matrix.mul_apply, Fin.sum_univ_three]
  simp [fccInt, bccRec]
  ring

/-- the twelve shortest vectors with integer entries of even sum -/
def twelve : List (ℤ × ℤ × ℤ) :=
  [(1, 1, 0), (1, -1, 0), (-1, 1, 0), (-1, -1, 0), (1, 0, 1), (1, 0, -1), (-1, 0, 1), (-1, 0, -1),
    (0, 1, 1), (0, 1, -1), (0, -1, 1), (0, -1, -1)]

theorem mem_twelve {x y z : ℤ} (h : x ^ 2 + y ^ 2 + z ^ 2 = 2) : (x, y, z) ∈ twelve := by
  have b : ∀ u : ℤ, u ^ 2 ≤ 2 → -1 ≤ u ∧ u ≤ 1 := fun u hu => ⟨by nlinarith, by nlinarith⟩
  obtain ⟨x1, x2⟩ := b x (by nlinarith [pow_two_nonneg y, pow_two_nonneg z])
  obtain ⟨y1, y2⟩ := b y (by nlinarith [pow_two_nonneg x, pow_two_nonneg z])
  obtain ⟨z1, z2⟩ := b z (by nlinarith [pow_two_nonneg x, pow_two_nonneg y])
  interval_cases x <;> interval_cases y <;> interval_cases z <;> simp [twelve] at h ⊢

/-- three of the twelve that satisfy the congruences are linearly dependent -/
theorem twelve_dependent : ∀ u ∈ twelve, ∀ v ∈ twelve, ∀ w ∈ twelve,
    (u.1 + v.1 + w.1) % 2 = 0 → (u.2.1 + v.2.1 + w.2.1) % 2 = 0 → (u.2.2 + v.2.2 + w.2.2) % 2 = 0 →
    ((u.1 + v.1 + w.1) + (u.2.1 + v.2.1 + w.2.1) + (u.2.2 + v.2.2 + w.2.2)) % 4 = 0 →
    u.1 * v.2.1 * w.2.2 - u.1 * v.2.2 * w.2.1 - u.2.1 * v.1 * w.2.2 + u.2.1 * v.2.2 * w.1
      + u.2.2 * v.1 * w.2.1 - u.2.2 * v.2.1 * w.1 = 0 := by
  decide +kernel

theorem rowGram_even (L : Matrix (Fin 3) (Fin 3) ℤ) (i : Fin 3) : rowGram (cubeForm L) i i % 2 = 0 := by
  obtain ⟨k, hk⟩ := cubeForm_row_even L i
  rw [rowGram_diag]
  have h : ∀ x : ℤ, x ^ 2 % 2 = x % 2 := by
    intro x
    rcases Int.emod_two_eq_zero_or_one x with h | h <;> simp [pow_two, Int.mul_emod, h]
  have := h (cubeForm L i 0)
  have := h (cubeForm L i 1)
  have := h (cubeForm L i 2)
  omega

theorem rowGram_ge {L : Matrix (Fin 3) (Fin 3) ℤ} (hL : L.det ≠ 0) (i : Fin 3) : 2 ≤ rowGram (cubeForm L) i i := by
  have he := rowGram_even L i
  have hp : 0 < rowGram (cubeForm L) i i := by
    rw [rowGram_diag]
    by_contra h0
    have h0 : cubeForm L i 0 ^ 2 + cubeForm L i 1 ^ 2 + cubeForm L i 2 ^ 2 ≤ 0 := not_lt.mp h0
    have hz : ∀ j, cubeForm L i j = 0 := by
      have a := pow_two_nonneg (cubeForm L i 0)
      have b := pow_two_nonneg (cubeForm L i 1)
      have c := pow_two_nonneg (cubeForm L i 2)
      intro j
      apply pow_eq_zero_iff (two_ne_zero) |>.mp
      fin_cases j
      · change cubeForm L i 0 ^ 2 = 0; linarith
      · change cubeForm L i 1 ^ 2 = 0; linarith
      · change cubeForm L i 2 ^ 2 = 0; linarith
    have := Matrix.det_eq_zero_of_row_eq_zero i hz
    rw [cubeForm_det] at this
    omega
  omega

/-- not all rows have the least length -/
theorem rowGram_four {L : Matrix (Fin 3) (Fin 3) ℤ} (hL : L.det ≠ 0) : ∃ i, 4 ≤ rowGram (cubeForm L) i i := by
  by_contra hno
  simp only [not_exists, not_le] at hno
  have h2 : ∀ i, cubeForm L i 0 ^ 2 + cubeForm L i 1 ^ 2 + cubeForm L i 2 ^ 2 = 2 := by
    intro i
    have h1 := rowGram_even L i
    have h2 := rowGram_ge hL i
    have h3 := hno i
    rw [← rowGram_diag]
    omega
  obtain ⟨k0, h0⟩ := cubeForm_col_even L 0
  obtain ⟨k1, h1⟩ := cubeForm_col_even L 1
  obtain ⟨k2, h2'⟩ := cubeForm_col_even L 2
  obtain ⟨k3, h3⟩ := cubeForm_total L
  have := twelve_dependent _ (mem_twelve (h2 0)) _ (mem_twelve (h2 1)) _ (mem_twelve (h2 2)) (by simp only; omega)
    (by simp only; omega) (by simp only; omega) (by simp only; omega)
  have hd := cubeForm_det L
  rw [Matrix.det_fin_three] at hd
  simp only at this
  rw [this] at hd
  omega

/-! ### The least distance -/

theorem fcc_bcc_mismatch {a b : ℝ} (hb : b ≠ 0) (L : Matrix (Fin 3) (Fin 3) ℤ) :
    mismatch (fcc a) (bcc b) L =
      ∑ i, ∑ j, ((a / (2 * b)) ^ 2 * (rowGram (cubeForm L) i j : ℝ) - (1 : Matrix (Fin 3) (Fin 3) ℝ) i j) ^ 2 := by
  unfold mismatch
  change ∑ i, ∑ j, ((fcc a * toR L * (bcc b)⁻¹ * (fcc a * toR L * (bcc b)⁻¹)ᵀ - 1) i j) ^ 2 = _
  rw [cubeForm_eq hb, Matrix.transpose_smul, Matrix.smul_mul, Matrix.mul_smul, smul_smul, ← pow_two]
  refine Finset.sum_congr rfl fun i _ => Finset.sum_congr rfl fun j _ => ?_
  rw [Matrix.sub_apply, Matrix.smul_apply, smul_eq_mul]
  congr 3
  simp only [rowGram, toR, Matrix.mul_apply, Matrix.transpose_apply, Matrix.map_apply]
  push_cast
  rfl

theorem sq_mono {s x y : ℝ} (hs : 1 / 3 < s) (hy : y ≤ x) (h : 6 ≤ x + y) :
    (s * y - 1) ^ 2 ≤ (s * x - 1) ^ 2 ∧ ((s * x - 1) ^ 2 = (s * y - 1) ^ 2 → x = y) := by
  have e : (s * x - 1) ^ 2 - (s * y - 1) ^ 2 = (x - y) * (s * (s * (x + y) - 2)) := by ring
  have hp : 0 < s * (s * (x + y) - 2) := by
    apply mul_pos (by linarith)
    nlinarith
  constructor
  · nlinarith [mul_nonneg (sub_nonneg.mpr hy) hp.le]
  · intro h0
    rw [h0, sub_self] at e
    rcases mul_eq_zero.mp e.symm with h | h
    · linarith
    · exact absurd h hp.ne'

theorem sq_two {s x : ℝ} (hs : 1 / 3 < s) (hx : x = 2 ∨ 4 ≤ x) :
    (s * 2 - 1) ^ 2 ≤ (s * x - 1) ^ 2 ∧ ((s * x - 1) ^ 2 = (s * 2 - 1) ^ 2 → x = 2) := by
  rcases hx with rfl | hx
  · exact ⟨le_rfl, fun _ => rfl⟩
  · exact sq_mono hs (by linarith) (by linarith)

/-- Bain's distance, with `s = (a / 2b)²` -/
noncomputable def bainDist (s : ℝ) : ℝ := 2 * (s * 2 - 1) ^ 2 + (s * 4 - 1) ^ 2

/-- a least sum, and when it is attained -/
theorem bain_sum {s : ℝ} (hs : 1 / 3 < s) (x y z p q r p' q' r' : ℝ) (hx : x = 2 ∨ 4 ≤ x) (hy : y = 2 ∨ 4 ≤ y)
    (hz : 4 ≤ z) :
    bainDist s ≤ (s * x - 1) ^ 2 + (s * y - 1) ^ 2 + (s * z - 1) ^ 2 + ((s * p) ^ 2 + (s * q) ^ 2 + (s * r) ^ 2)
      + ((s * p') ^ 2 + (s * q') ^ 2 + (s * r') ^ 2) ∧
    ((s * x - 1) ^ 2 + (s * y - 1) ^ 2 + (s * z - 1) ^ 2 + ((s * p) ^ 2 + (s * q) ^ 2 + (s * r) ^ 2)
      + ((s * p') ^ 2 + (s * q') ^ 2 + (s * r') ^ 2) = bainDist s →
      x = 2 ∧ y = 2 ∧ z = 4 ∧ p = 0 ∧ q = 0 ∧ r = 0 ∧ p' = 0 ∧ q' = 0 ∧ r' = 0) := by
  obtain ⟨x1, x2⟩ := sq_two hs hx
  obtain ⟨y1, y2⟩ := sq_two hs hy
  obtain ⟨z1, z2⟩ := sq_mono hs hz (by linarith)
  have h1 := pow_two_nonneg (s * p)
  have h2 := pow_two_nonneg (s * q)
  have h3 := pow_two_nonneg (s * r)
  have h4 := pow_two_nonneg (s * p')
  have h5 := pow_two_nonneg (s * q')
  have h6 := pow_two_nonneg (s * r')
  have hs0 : s ≠ 0 := by linarith
  have hz : ∀ u : ℝ, (s * u) ^ 2 = 0 → u = 0 := by
    intro u hu
    rcases mul_eq_zero.mp (pow_eq_zero_iff two_ne_zero |>.mp hu) with h | h
    · exact absurd h hs0
    · exact h
  unfold bainDist
  constructor
  · linarith
  · intro h
    exact ⟨x2 (by linarith), y2 (by linarith), z2 (by linarith), hz _ (by linarith), hz _ (by linarith),
      hz _ (by linarith), hz _ (by linarith), hz _ (by linarith), hz _ (by linarith)⟩

/-- No correspondence is closer than Bain's, and those as close are Bain's. -/
theorem bain_least {a b : ℝ} (ha : 0 < a) (hb : 0 < b) (hab : 4 * b ^ 2 < 3 * a ^ 2) {L : Matrix (Fin 3) (Fin 3) ℤ}
    (hL : L.det ≠ 0) :
    bainDist ((a / (2 * b)) ^ 2) ≤ mismatch (fcc a) (bcc b) L ∧
    (mismatch (fcc a) (bcc b) L = bainDist ((a / (2 * b)) ^ 2) →
      ∃ k, rowGram (cubeForm L) = Matrix.diagonal fun i => if i = k then 4 else 2) := by
  have hs : 1 / 3 < (a / (2 * b)) ^ 2 := by
    rw [div_pow, div_lt_div_iff₀ (by norm_num) (by positivity)]
    nlinarith
  have hor : ∀ i, (rowGram (cubeForm L) i i : ℝ) = 2 ∨ 4 ≤ (rowGram (cubeForm L) i i : ℝ) := by
    intro i
    have h1 := rowGram_even L i
    have h2 := rowGram_ge hL i
    have : rowGram (cubeForm L) i i = 2 ∨ 4 ≤ rowGram (cubeForm L) i i := by omega
    exact_mod_cast this
  obtain ⟨k, hk⟩ := rowGram_four hL
  have hk : 4 ≤ (rowGram (cubeForm L) k k : ℝ) := by exact_mod_cast hk
  rw [fcc_bcc_mismatch hb.ne']
  generalize (a / (2 * b)) ^ 2 = s at hs ⊢
  generalize rowGram (cubeForm L) = G at hor hk ⊢
  have fin : ∀ k : Fin 3, (∀ i j, (G i j : ℝ) = if i = j then (if i = k then 4 else 2) else 0) →
      ∃ k, G = Matrix.diagonal fun i => if i = k then 4 else 2 := by
    intro k h
    refine ⟨k, ?_⟩
    ext i j
    have := h i j
    rw [Matrix.diagonal_apply]
    exact_mod_cast this
  simp only [Fin.sum_univ_three, Matrix.one_apply]
  fin_cases k
  · have := bain_sum hs (G 1 1) (G 2 2) (G 0 0) (G 0 1) (G 0 2) (G 1 0) (G 1 2) (G 2 0) (G 2 1) (hor 1) (hor 2) hk
    constructor
    · refine this.1.trans (le_of_eq ?_)
      simp; ring
    · intro h
      obtain ⟨h1, h2, h3, h4, h5, h6, h7, h8, h9⟩ := this.2 (by rw [← h]; simp; ring)
      refine fin 0 fun i j => ?_
      fin_cases i <;> fin_cases j <;> simp [h1, h2, h3, h4, h5, h6, h7, h8, h9]
  · have := bain_sum hs (G 0 0) (G 2 2) (G 1 1) (G 0 1) (G 0 2) (G 1 0) (G 1 2) (G 2 0) (G 2 1) (hor 0) (hor 2) hk
    constructor
    · refine this.1.trans (le_of_eq ?_)
      simp; ring
    · intro h
      obtain ⟨h1, h2, h3, h4, h5, h6, h7, h8, h9⟩ := this.2 (by rw [← h]; simp; ring)
      refine fin 1 fun i j => ?_
      fin_cases i <;> fin_cases j <;> simp [h1, h2, h3, h4, h5, h6, h7, h8, h9]
  · have := bain_sum hs (G 0 0) (G 1 1) (G 2 2) (G 0 1) (G 0 2) (G 1 0) (G 1 2) (G 2 0) (G 2 1) (hor 0) (hor 1) hk
    constructor
    · refine this.1.trans (le_of_eq ?_)
      simp; ring
    · intro h
      obtain ⟨h1, h2, h3, h4, h5, h6, h7, h8, h9⟩ := this.2 (by rw [← h]; simp; ring)
      refine fin 2 fun i j => ?_
      fin_cases i <;> fin_cases j <;> simp [h1, h2, h3, h4, h5, h6, h7, h8, h9]

/-- one of Bain's correspondences, in terms of the two bases -/
def bainL : Matrix (Fin 3) (Fin 3) ℤ := !![1, 0, -1; 0, 1, 0; 0, 0, 1]

theorem bainL_gram : rowGram (cubeForm bainL) = Matrix.diagonal fun i => if i = 1 then 4 else 2 := by
  decide

theorem bainL_mismatch {a b : ℝ} (hb : b ≠ 0) :
    mismatch (fcc a) (bcc b) bainL = bainDist ((a / (2 * b)) ^ 2) := by
  rw [fcc_bcc_mismatch hb, bainL_gram]
  generalize (a / (2 * b)) ^ 2 = s
  simp [Fin.sum_univ_three, Matrix.one_apply, Matrix.diagonal_apply, bainDist]
  ring

theorem bainStretch_posDef {a b : ℝ} (ha : 0 < a) (hb : 0 < b) (k : Fin 3) : (bainStretch a b k).PosDef := by
  refine Matrix.PosDef.diagonal fun i => ?_
  split_ifs <;> positivity

/-- the stretch that is reported for one of Bain's correspondences -/
theorem bain_report {a b : ℝ} (ha : 0 < a) (hb : 0 < b) {CA CM cor u : Matrix (Fin 3) (Fin 3) ℝ}
    {L : Matrix (Fin 3) (Fin 3) ℤ} {lams : List ℝ} (h : ConsistentReport (fcc a) (bcc b) CA CM L cor u lams) {k : Fin 3}
    (hk : rowGram (cubeForm L) = Matrix.diagonal fun i => if i = k then 4 else 2) :
    u = bainStretch a b k ∧ lams = [b / a, Real.sqrt 2 * (b / a), Real.sqrt 2 * (b / a)] := by
  obtain ⟨F, hF, -, hu⟩ := h.gradient
  have hM : (bcc b).det ≠ 0 := by
    have : bcc b * (bcc b)⁻¹ = 1 := by
      rw [bcc_inv hb.ne']
      ext i j
      fin_cases i <;> fin_cases j <;>
        simp [bcc, bccRec, toR, Matrix.mul_apply, Fin.sum_univ_three] <;> field_simp <;> norm_num
    intro h0
    have := congrArg Matrix.det this
    rw [Matrix.det_mul, h0, zero_mul, Matrix.det_one] at this
    exact zero_ne_one this
  set X := fcc a * toR L * (bcc b)⁻¹ with hX
  have hFX : F * X = 1 := by
    rw [hX, ← Matrix.mul_assoc, show F * (fcc a * toR L) = bcc b from hF]
    exact Matrix.mul_nonsing_inv _ (isUnit_det_of_ne hM)
  have hXF : X * F = 1 := mul_eq_one_comm.mp hFX
  have hG : X * Xᵀ = Matrix.diagonal fun i => if i = k then (a / b) ^ 2 else (a / b) ^ 2 / 2 := by
    have e : toR (cubeForm L) * (toR (cubeForm L))ᵀ = toR (rowGram (cubeForm L)) := by
      rw [rowGram, toR_mul]
      rfl
    rw [hX, cubeForm_eq hb.ne', Matrix.transpose_smul, Matrix.smul_mul, Matrix.mul_smul, smul_smul, e, hk]
    ext i j
    simp only [toR, Matrix.smul_apply, Matrix.map_apply, Matrix.diagonal_apply, smul_eq_mul]
    split_ifs <;> push_cast <;> ring
  have huX : u * u * (X * Xᵀ) = 1 := by
    rw [hu]
    calc Fᵀ * F * (X * Xᵀ) = Fᵀ * (F * X) * Xᵀ := by simp only [Matrix.mul_assoc]
      _ = (X * F)ᵀ := by rw [hFX, Matrix.mul_one, ← Matrix.transpose_mul]
      _ = 1 := by rw [hXF, Matrix.transpose_one]
  have hB : bainStretch a b k * bainStretch a b k * (X * Xᵀ) = 1 := by
    rw [hG, bainStretch, Matrix.diagonal_mul_diagonal, Matrix.diagonal_mul_diagonal, ← Matrix.diagonal_one]
    congr 1
    funext i
    have h2 : Real.sqrt 2 * Real.sqrt 2 = 2 := Real.mul_self_sqrt (by norm_num)
    split_ifs
    · field_simp
    · calc Real.sqrt 2 * (b / a) * (Real.sqrt 2 * (b / a)) * ((a / b) ^ 2 / 2)
          = Real.sqrt 2 * Real.sqrt 2 * ((b / a) * (b / a) * ((a / b) ^ 2 / 2)) := by ring
        _ = 1 := by rw [h2]; field_simp
  have huB : u * u = bainStretch a b k * bainStretch a b k := by
    have h1 : X * Xᵀ * (u * u) = 1 := mul_eq_one_comm.mp huX
    calc u * u = bainStretch a b k * bainStretch a b k * (X * Xᵀ) * (u * u) := by rw [hB, Matrix.one_mul]
      _ = _ := by rw [Matrix.mul_assoc _ (X * Xᵀ), h1, Matrix.mul_one]
  have hub := posDef_root_unique h.posDef (bainStretch_posDef ha hb k) huB
  refine ⟨hub, roots_unique h.sorted ?_ ?_⟩
  · have h2 : 1 ≤ Real.sqrt 2 := Real.one_le_sqrt.mpr (by norm_num)
    have : b / a ≤ Real.sqrt 2 * (b / a) := le_mul_of_one_le_left (by positivity) h2
    simp [this]
  · rw [← h.eigenvalues, hub, bainStretch, Matrix.charpoly_diagonal]
    fin_cases k <;> simp [Fin.prod_univ_three] <;> ring

/-- the first solution of a finished call is a best one -/
theorem bestList_head {N : ℕ} {EA EM : Matrix (Fin N) (Fin N) ℝ} {GA GM : List (Matrix (Fin N) (Fin N) ℤ)}
    {r : Report N} {rs : List (Report N)} (hb : BestList EA EM GA GM (r :: rs)) {L : Matrix (Fin N) (Fin N) ℤ}
    (hL : L.det ≠ 0) : r.d ≤ mismatch EA EM L := by
  by_cases hex : ∃ s ∈ r :: rs, Equivalent GA GM s.l L
  · obtain ⟨s, hs, he⟩ := hex
    rw [mismatch_equivalent hb he, ← (hb.dist s hs).1]
    rcases List.mem_cons.mp hs with rfl | hs
    · exact le_rfl
    · exact ((List.pairwise_cons.mp hb.sorted).1 s hs).1
  · exact (hb.best L hL hex r List.mem_cons_self).le

/-- **C99**: if a face-centred cubic lattice with the edge `a` becomes a body-centred cubic one with the edge
`b < √3/2 a`, then the first solution of a finished call is Bain's: the stretch is Bain's along one of the cube axes. -/
theorem C99_bain {t : Tol} {a b : ℝ} (ha : 0 < a) (hb : 0 < b) (hab : b < Real.sqrt 3 / 2 * a) {n : ℕ}
    {rs : List (Report 3)} (h : Finished t none (fcc a) (bcc b) n rs) :
    ∃ r, rs.head? = some r ∧ (∃ k, r.u = bainStretch a b k) ∧
      r.lams = [b / a, Real.sqrt 2 * (b / a), Real.sqrt 2 * (b / a)] ∧
      r.d = 2 * (a ^ 2 / (2 * b ^ 2) - 1) ^ 2 + (a ^ 2 / b ^ 2 - 1) ^ 2 := by
  have hab : 4 * b ^ 2 < 3 * a ^ 2 := by
    have h3 : Real.sqrt 3 ^ 2 = 3 := Real.sq_sqrt (by norm_num)
    have : b ^ 2 < (Real.sqrt 3 / 2 * a) ^ 2 := pow_lt_pow_left₀ hab hb.le two_ne_zero
    rw [mul_pow, div_pow, h3] at this
    linarith
  obtain ⟨-, -, -, -, -, hl, GA, GM, -, -, hbest⟩ := finished_best (dim := none) h
  obtain ⟨CA, CM, hrep⟩ := finished_reports (dim := none) h
  obtain ⟨-, -, -, -, -, -, -, -, -, -, -, -, -, -, -, -, -, -, -, h1, -⟩ := h
  cases rs with
  | nil => exact absurd (h1.trans hl) (Nat.not_succ_le_zero 0)
  | cons r rs =>
    have hr := hbest.dist r List.mem_cons_self
    have hle : r.d ≤ bainDist ((a / (2 * b)) ^ 2) := by
      rw [← bainL_mismatch hb.ne']
      exact bestList_head hbest (by decide)
    obtain ⟨l1, l2⟩ := bain_least ha hb hab hr.2
    have hd : r.d = bainDist ((a / (2 * b)) ^ 2) := le_antisymm hle (hr.1 ▸ l1)
    obtain ⟨k, hk⟩ := l2 (hr.1 ▸ hd)
    obtain ⟨e1, e2⟩ := bain_report ha hb (hrep r List.mem_cons_self) hk
    refine ⟨r, rfl, ⟨k, e1⟩, e2, ?_⟩
    rw [hd, bainDist, div_pow, mul_pow]
    have e3 : a ^ 2 / (2 ^ 2 * b ^ 2) * 2 = a ^ 2 / (2 * b ^ 2) := by field_simp
    have e4 : a ^ 2 / (2 ^ 2 * b ^ 2) * 4 = a ^ 2 / b ^ 2 := by field_simp; norm_num
    rw [e3, e4]

/-! ### Calls with these lattices -/

/-- the base of a face-centred cubic cell (type 2) and its conventional cell -/
theorem constructs_fcc (py : Py) {a : ℝ} (ha : 0 < a) :
    ∃ C, Constructs py 2 (.list (.float [a])) 3 (fcc a) C ∧ fcc a * C = a • (1 : Matrix (Fin 3) (Fin 3) ℝ) := by
  have hbase : primBase3 py false 2 (Nums.get (.float [a])) = some (fcc a) := by
    simp only [primBase3, Nums.get, Nums.vals]
    norm_num
    ext i j
    fin_cases i <;> fin_cases j <;> simp [fcc] <;> ring
  have hdet : (fcc a).det ≠ 0 := by
    have : (fcc a).det = a ^ 3 / 4 := by
      rw [Matrix.det_fin_three]
      simp [fcc]
      ring
    rw [this]
    positivity
  refine ⟨(centring3 2)⁻¹, ⟨⟨3, some (fcc a), 2, .float [a], (centring3 2)⁻¹⟩, rfl, ?_, rfl, rfl⟩, ?_⟩
  · have hch : checkParam (.list (.float [a])) = .ok (.float [a]) := by
      simp only [checkParam]
      rw [if_neg]
      simp [Nums.vals, ha]
    have hi : initBase (some (fcc a)) = .ok () := by
      simp only [initBase]
      rw [lat_new_sq false hdet]
    simp only [BLat.new, hch]
    norm_num [Nums.vals, paramLen3, Nums.isInt, hbase, hi]
  · have : (centring3 2)⁻¹ = !![1, 1, -1; -1, 1, 1; 1, -1, 1] := by
      apply Matrix.inv_eq_right_inv
      ext i j
      fin_cases i <;> fin_cases j <;> simp [centring3, Matrix.mul_apply, Fin.sum_univ_three] <;> norm_num
    rw [this]
    ext i j
    fin_cases i <;> fin_cases j <;> simp [fcc, Matrix.mul_apply, Fin.sum_univ_three]

/-- the base of a body-centred cubic cell (type 3) and its conventional cell -/
theorem constructs_bcc (py : Py) {b : ℝ} (hb : 0 < b) :
    ∃ C, Constructs py 3 (.list (.float [b])) 3 (bcc b) C ∧ bcc b * C = b • (1 : Matrix (Fin 3) (Fin 3) ℝ) := by
  have hbase : primBase3 py false 3 (Nums.get (.float [b])) = some (bcc b) := by
    simp only [primBase3, Nums.get, Nums.vals]
    norm_num
    ext i j
    fin_cases i <;> fin_cases j <;> simp [bcc] <;> ring
  have hdet : (bcc b).det ≠ 0 := by
    have : (bcc b).det = b ^ 3 / 2 := by
      rw [Matrix.det_fin_three]
      simp [bcc]
      ring
    rw [this]
    positivity
  refine ⟨(centring3 3)⁻¹, ⟨⟨3, some (bcc b), 3, .float [b], (centring3 3)⁻¹⟩, rfl, ?_, rfl, rfl⟩, ?_⟩
  · have hch : checkParam (.list (.float [b])) = .ok (.float [b]) := by
      simp only [checkParam]
      rw [if_neg]
      simp [Nums.vals, hb]
    have hi : initBase (some (bcc b)) = .ok () := by
      simp only [initBase]
      rw [lat_new_sq false hdet]
    simp only [BLat.new, hch]
    norm_num [Nums.vals, paramLen3, Nums.isInt, hbase, hi]
    exact fun h => absurd rfl h
  · have : (centring3 3)⁻¹ = !![1, 0, 1; -1, 1, 0; 0, -1, 1] := by
      apply Matrix.inv_eq_right_inv
      ext i j
      fin_cases i <;> fin_cases j <;> simp [centring3, Matrix.mul_apply, Fin.sum_univ_three] <;> norm_num
    rw [this]
    ext i j
    fin_cases i <;> fin_cases j <;> simp [bcc, Matrix.mul_apply, Fin.sum_univ_three] <;> ring

/-- the test for a symmetry, for a base that is a multiple of an integer matrix with a half-integer inverse -/
theorem halves {c : ℝ} (hc : c ≠ 0) {M W : Matrix (Fin 3) (Fin 3) ℤ} (h : M * W = (2 : ℤ) • 1) (Q : Matrix (Fin 3) (Fin 3) ℝ) :
    (c • toR M)⁻¹ * (Q * (c • toR M)) = (1 / 2 : ℝ) • (toR W * Q * toR M) := by
  have hinv : (c • toR M)⁻¹ = (1 / (2 * c)) • toR W := by
    apply Matrix.inv_eq_right_inv
    have h2 : toR M * toR W = (2 : ℝ) • 1 := by
      rw [← toR_mul, h]
      ext i j
      simp only [toR, Matrix.map_apply, Matrix.smul_apply, Matrix.one_apply, smul_eq_mul]
      split_ifs <;> norm_num
    rw [Matrix.smul_mul, Matrix.mul_smul, h2, smul_smul, smul_smul]
    rw [show c * (1 / (2 * c)) * 2 = 1 by field_simp, one_smul]
  rw [hinv, Matrix.smul_mul, Matrix.mul_smul, Matrix.mul_smul, smul_smul, Matrix.mul_assoc]
  congr 1
  field_simp

theorem halves_sym {c : ℝ} (hc : c ≠ 0) {M W : Matrix (Fin 3) (Fin 3) ℤ} (h : M * W = (2 : ℤ) • 1)
    (hd : (c • toR M).det ≠ 0) {R : Matrix (Fin 3) (Fin 3) ℤ} (hR : R ∈ cubicLaue)
    (he : ∀ i j, (W * R * M) i j % 2 = 0) : InPointGroup (c • toR M) (toR R) := by
  rw [inPointGroup_iff hd, halves hc h]
  refine ⟨by rw [← toR_transpose, ← toR_mul, cubic_ortho R hR, toR_one], fun i j => ?_⟩
  refine ⟨(W * R * M) i j / 2, ?_⟩
  rw [← toR_mul, ← toR_mul]
  have : (W * R * M) i j = 2 * ((W * R * M) i j / 2) := by have := he i j; omega
  simp only [Matrix.smul_apply, toR, Matrix.map_apply, smul_eq_mul]
  rw [this]
  push_cast
  ring_nf
  simp

/-- the symmetry tests of the code are right for every face-centred cubic lattice -/
theorem fcc_reliable {a : ℝ} (ha : 0 < a) : Reliable .code (fcc a) candidates3 := by
  refine .inr ⟨rfl, ?_⟩
  have hc : a / 2 ≠ 0 := by positivity
  have hMW : fccInt * !![1, 1, -1; -1, 1, 1; 1, -1, 1] = (2 : ℤ) • 1 := by decide
  have hd : ((a / 2) • toR fccInt).det ≠ 0 := by
    rw [Matrix.det_smul, toR_det, show fccInt.det = 2 by decide]
    positivity
  have hall : ∀ R ∈ cubicLaue, ∀ i j, (!![1, 1, -1; -1, 1, 1; 1, -1, 1] * R * fccInt : Matrix (Fin 3) (Fin 3) ℤ) i j % 2 = 0 := by
    unfold cubicLaue fccInt; decide +kernel
  rw [fcc_eq]
  have hsym : ∀ R ∈ cubicLaue, InPointGroup ((a / 2) • toR fccInt) (toR R) :=
    fun R hR => halves_sym hc hMW hd hR (hall R hR)
  have hent : ∀ Q : Matrix (Fin 3) (Fin 3) ℝ, (((a / 2) • toR fccInt)⁻¹ * (Q * ((a / 2) • toR fccInt))) 0 0
      = 1 / 2 * (Q 0 0 + Q 0 1 + Q 1 0 + Q 1 1 - (Q 2 0 + Q 2 1)) := by
    intro Q
    rw [halves hc hMW]
    simp only [Matrix.smul_apply, Matrix.mul_apply, Fin.sum_univ_three, smul_eq_mul]
    simp [toR, fccInt]
    ring
  intro Q hQ
  rcases List.mem_append.mp hQ with hQ | hQ
  · obtain ⟨R, hR, rfl⟩ := List.mem_map.mp hQ
    exact .inl (hsym R hR)
  · simp only [hexLaue, List.map_cons, List.map_nil, List.mem_cons, List.not_mem_nil, or_false, NMat.val] at hQ
    rcases hQ with rfl | rfl | rfl | rfl | rfl | rfl | rfl | rfl | rfl | rfl | rfl | rfl
    · exact .inl (hsym _ (by unfold cubicLaue; decide +kernel))
    · exact .inl (hsym _ (by unfold cubicLaue; decide +kernel))
    · exact .inl (hsym _ (by unfold cubicLaue; decide +kernel))
    · exact .inl (hsym _ (by unfold cubicLaue; decide +kernel))
    all_goals
      right
      obtain ⟨s1, s2⟩ := hexS_bounds
      refine ⟨0, 0, ?_⟩
      rw [hent]
      first
        | exact far_of_between 0 (by norm_num) (by simp [hexC_eq]; linarith) (by simp [hexC_eq]; linarith)
        | exact far_of_between (-1) (by norm_num) (by simp [hexC_eq]; linarith) (by simp [hexC_eq]; linarith)

/-- the symmetry tests of the code are right for every body-centred cubic lattice -/
theorem bcc_reliable {b : ℝ} (hb : 0 < b) : Reliable .code (bcc b) candidates3 := by
  refine .inr ⟨rfl, ?_⟩
  have hc : b / 2 ≠ 0 := by positivity
  have hM : bcc b = (b / 2) • toR !![1, -1, -1; 1, 1, -1; 1, 1, 1] := by
    ext i j
    fin_cases i <;> fin_cases j <;> simp [bcc, toR] <;> ring
  have hMW : !![1, -1, -1; 1, 1, -1; 1, 1, 1] * bccRec = (2 : ℤ) • 1 := by decide
  have hd : ((b / 2) • toR !![1, -1, -1; 1, 1, -1; 1, 1, 1]).det ≠ 0 := by
    rw [Matrix.det_smul, toR_det, show (!![1, -1, -1; 1, 1, -1; 1, 1, 1] : Matrix (Fin 3) (Fin 3) ℤ).det = 4 by decide]
    positivity
  have hall : ∀ R ∈ cubicLaue, ∀ i j, (bccRec * R * !![1, -1, -1; 1, 1, -1; 1, 1, 1] : Matrix (Fin 3) (Fin 3) ℤ) i j % 2 = 0 := by
    unfold cubicLaue bccRec; decide +kernel
  rw [hM]
  have hsym : ∀ R ∈ cubicLaue, InPointGroup ((b / 2) • toR !![1, -1, -1; 1, 1, -1; 1, 1, 1]) (toR R) :=
    fun R hR => halves_sym hc hMW hd hR (hall R hR)
  have hent : ∀ Q : Matrix (Fin 3) (Fin 3) ℝ, (((b / 2) • toR !![1, -1, -1; 1, 1, -1; 1, 1, 1])⁻¹ * (Q * ((b / 2) • toR !![1, -1, -1; 1, 1, -1; 1, 1, 1]))) 0 0
      = 1 / 2 * (Q 0 0 + Q 0 1 + Q 0 2 + Q 2 0 + Q 2 1 + Q 2 2) := by
    intro Q
    rw [halves hc hMW]
    simp only [Matrix.smul_apply, Matrix.mul_apply, Fin.sum_univ_three, smul_eq_mul]
    simp [toR, bccRec]
    ring
  intro Q hQ
  rcases List.mem_append.mp hQ with hQ | hQ
  · obtain ⟨R, hR, rfl⟩ := List.mem_map.mp hQ
    exact .inl (hsym R hR)
  · simp only [hexLaue, List.map_cons, List.map_nil, List.mem_cons, List.not_mem_nil, or_false, NMat.val] at hQ
    rcases hQ with rfl | rfl | rfl | rfl | rfl | rfl | rfl | rfl | rfl | rfl | rfl | rfl
    · exact .inl (hsym _ (by unfold cubicLaue; decide +kernel))
    · exact .inl (hsym _ (by unfold cubicLaue; decide +kernel))
    · exact .inl (hsym _ (by unfold cubicLaue; decide +kernel))
    · exact .inl (hsym _ (by unfold cubicLaue; decide +kernel))
    all_goals
      right
      obtain ⟨s1, s2⟩ := hexS_bounds
      refine ⟨0, 0, ?_⟩
      rw [hent]
      first
        | exact far_of_between 0 (by norm_num) (by simp [hexC_eq]; linarith) (by simp [hexC_eq]; linarith)
        | exact far_of_between (-1) (by norm_num) (by simp [hexC_eq]; linarith) (by simp [hexC_eq]; linarith)
        | exact far_of_between 1 (by norm_num) (by simp [hexC_eq]; linarith) (by simp [hexC_eq]; linarith)
        | exact far_of_between (-2) (by norm_num) (by simp [hexC_eq]; linarith) (by simp [hexC_eq]; linarith)

/-- Finished calls exist whenever a best correspondence can be drawn at the start. -/
theorem finished_start (t : Tol) (py : Py) (dim : Option ℕ) (id id' : ℤ) (p p' : PArg)
    (EA CA EM CM : Matrix (Fin (readkw dim 3)) (Fin (readkw dim 3)) ℝ) (hA : Constructs py id p (readkw dim 3) EA CA)
    (hM : Constructs py id' p' (readkw dim 3) EM CM) (rA : Reliable t EA (candidates _))
    (rM : Reliable t EM (candidates _)) (a b : Matrix (Fin (readkw dim 3)) (Fin (readkw dim 3)) ℤ)
    (ha : a.det = 1) (hb : b.det = 1) (hbest : ∀ L : Matrix (Fin (readkw dim 3)) (Fin (readkw dim 3)) ℤ, L.det ≠ 0 →
      mismatch EA EM a ≤ mismatch EA EM L) (hab : mismatch EA EM a < mismatch EA EM b) :
    ∃ (o : Outside (readkw dim 3)) (rs : List (Report (readkw dim 3))), Sound o ∧
      (∀ s ∈ o.shifts, s = a - startL0 EA EM ∨ s = b - startL0 EA EM) ∧
      latCor t py ⟨none, none, dim, none, none⟩ o id p id' p' = .ok (some rs, [List.replicate (readkw dim 3 ^ 2) 0]) ∧
      Finished t dim EA EM 1 rs := by
  obtain ⟨hN, dA, dC⟩ := constructs_det hA
  obtain ⟨-, dM, -⟩ := constructs_det hM
  obtain ⟨o, ho, hs, rs, hrs⟩ := start_core hN t dA dM rA rM (CA := CA) (CM := CM) dC (v := 0.1) (by norm_num)
    (by norm_num) (sz := 100) (by norm_num) a b ha hb (by simpa only [mismatch_eq] using hbest)
    (by simpa only [mismatch_eq] using hab)
  have hcall := (latCor_eq (kw := ⟨none, none, dim, none, none⟩) (t := t) (o := o) hA hM).trans hrs
  refine ⟨o, rs, ho, hs, hcall, py, none, none, none, none, o, id, id', p, p', CA, CM, _, ho, hA, hM, rA, rM, rfl, le_rfl,
    by simp [readkw], by norm_num [readkw], by norm_num [readkw], hcall, ?_⟩
  simp only [List.mem_singleton, forall_eq, PositiveThenZero, List.tail_replicate]
  exact List.pairwise_replicate.mpr (.inr fun h => absurd h (lt_irrefl 0))

/-- where the search starts -/
theorem bain_start {a b : ℝ} (ha : 0 < a) (h1 : 2 / 3 * a < b) (h2 : b < a) :
    startL0 (fcc a) (bcc b) = !![0, -1, -2; 0, 1, 0; 0, -1, 0] := by
  have hinv : (fcc a)⁻¹ = (1 / a) • !![1, 1, -1; -1, 1, 1; 1, -1, 1] := by
    apply Matrix.inv_eq_right_inv
    ext i j
    fin_cases i <;> fin_cases j <;> simp [fcc, Matrix.mul_apply, Fin.sum_univ_three] <;> field_simp <;> norm_num
  have hr1 : 2 / 3 < b / a := by rw [lt_div_iff₀ ha]; exact h1
  have hr2 : b / a < 1 := by rw [div_lt_one ha]; exact h2
  have hprod : (fcc a)⁻¹ * bcc b = (b / a) • !![1 / 2, -1 / 2, -3 / 2; 1 / 2, 3 / 2, 1 / 2; 1 / 2, -1 / 2, 1 / 2] := by
    rw [hinv]
    ext i j
    fin_cases i <;> fin_cases j <;> simp [bcc, Matrix.mul_apply, Fin.sum_univ_three] <;> field_simp <;> norm_num
  unfold startL0
  rw [hprod]
  generalize b / a = q at hr1 hr2
  ext i j
  rw [Matrix.of_apply, Int.floor_eq_iff]
  fin_cases i <;> fin_cases j <;> simp <;> constructor <;> linarith

/-- a correspondence that is not Bain's -/
def bainOff : Matrix (Fin 3) (Fin 3) ℤ := !![1, 0, -1; 0, 1, 1; 0, 0, 1]

/-- The hypotheses of `C99` are met: for every pair of edges with `2/3 a < b < √3/2 a` there is a finished call with the
default options, all of whose random numbers are -1, 0 or 1. -/
theorem C99_finished (t : Tol) (py : Py) {a b : ℝ} (ha : 0 < a) (h1 : 2 / 3 * a < b) (h2 : b < Real.sqrt 3 / 2 * a)
    (ht : t = .code ∨ t = .exact) :
    ∃ (o : Outside 3) (rs : List (Report 3)) (trace : List (List ℤ)), Sound o ∧ (∀ s ∈ o.shifts, ∀ i j, |s i j| ≤ 1) ∧
      latCor t py {} o 2 (.list (.float [a])) 3 (.list (.float [b])) = .ok (some rs, trace) ∧
      Finished t none (fcc a) (bcc b) 1 rs := by
  have hb : 0 < b := by linarith
  have h3 : Real.sqrt 3 ^ 2 = 3 := Real.sq_sqrt (by norm_num)
  have h4 : Real.sqrt 3 < 2 := by nlinarith [Real.sqrt_nonneg 3]
  have hba : b < a := by nlinarith
  have hab : 4 * b ^ 2 < 3 * a ^ 2 := by
    have : b ^ 2 < (Real.sqrt 3 / 2 * a) ^ 2 := pow_lt_pow_left₀ h2 hb.le two_ne_zero
    rw [mul_pow, div_pow, h3] at this
    linarith
  have rA : Reliable t (fcc a) candidates3 := ht.elim (fun h => h ▸ fcc_reliable ha) .inl
  have rM : Reliable t (bcc b) candidates3 := ht.elim (fun h => h ▸ bcc_reliable hb) .inl
  obtain ⟨CA, cA, -⟩ := constructs_fcc py ha
  obtain ⟨CM, cM, -⟩ := constructs_bcc py hb
  have hlt : mismatch (fcc a) (bcc b) bainL < mismatch (fcc a) (bcc b) bainOff := by
    rw [bainL_mismatch hb.ne']
    obtain ⟨l1, l2⟩ := bain_least ha hb hab (L := bainOff) (by decide)
    refine lt_of_le_of_ne l1 fun h => ?_
    have := l2 h.symm
    revert this
    decide
  obtain ⟨o, rs, ho, hs, hcall, hfin⟩ := finished_start t py none 2 3 _ _ _ CA _ CM cA cM rA rM bainL bainOff (by decide)
    (by decide) (fun L hL => by
      change mismatch (fcc a) (bcc b) bainL ≤ mismatch (fcc a) (bcc b) L
      rw [bainL_mismatch hb.ne']
      exact (bain_least ha hb hab hL).1) hlt
  refine ⟨o, rs, _, ho, ?_, hcall, hfin⟩
  intro s h
  replace hs : s = bainL - startL0 (fcc a) (bcc b) ∨ s = bainOff - startL0 (fcc a) (bcc b) := hs s h
  rw [bain_start ha h1 hba] at hs
  rcases hs with rfl | rfl <;> decide

/-- **C99**: the same for a call of `lat_cor` with the lattice types 2 and 3, with the correspondence it prints: in terms
of the cube edges, one row is an edge and the others are half diagonals of the face across it. -/
theorem C99_lat_cor {t : Tol} (ht : t = .code ∨ t = .exact) (py : Py) {a b : ℝ} (ha : 0 < a) (hb : 0 < b)
    (hab : b < Real.sqrt 3 / 2 * a) (nsol : Option ℕ) (volTh : Option ℝ) (sliceSz : Option ℕ) (dist : Option String)
    (o : Outside 3) (ho : Sound o) (hn : 1 ≤ readkw nsol 1) (hsz : 1 ≤ readkw sliceSz 100) (hv : 0 < readkw volTh 0.1)
    (hv1 : readkw volTh 0.1 ≤ 1) (rs : List (Report 3)) (trace : List (List ℤ))
    (h : latCor t py ⟨nsol, volTh, none, sliceSz, dist⟩ o 2 (.list (.float [a])) 3 (.list (.float [b]))
      = .ok (some rs, trace)) (hc : ∀ c ∈ trace, PositiveThenZero c.tail) :
    ∃ r, rs.head? = some r ∧ r.lams = [b / a, Real.sqrt 2 * (b / a), Real.sqrt 2 * (b / a)] ∧
      r.d = 2 * (a ^ 2 / (2 * b ^ 2) - 1) ^ 2 + (a ^ 2 / b ^ 2 - 1) ^ 2 ∧
      ∃ k, r.u = bainStretch a b k ∧ r.cor * r.corᵀ = Matrix.diagonal (fun i => if i = k then 1 else 1 / 2) ∧
        (∃ W : Matrix (Fin 3) (Fin 3) ℤ, r.cor = (1 / 2 : ℝ) • toR W) ∧ 0 < r.cor.det := by
  have rA : Reliable t (fcc a) candidates3 := ht.elim (fun h => h ▸ fcc_reliable ha) .inl
  have rM : Reliable t (bcc b) candidates3 := ht.elim (fun h => h ▸ bcc_reliable hb) .inl
  obtain ⟨CA, cA, eA⟩ := constructs_fcc py ha
  obtain ⟨CM, cM, eM⟩ := constructs_bcc py hb
  have hfin : Finished t none (fcc a) (bcc b) (readkw nsol 1) rs :=
    ⟨py, nsol, volTh, sliceSz, dist, o, 2, 3, _, _, CA, CM, trace, ho, cA, cM, rA, rM, rfl, hn, hsz, hv, hv1, h, hc⟩
  obtain ⟨r, hr, ⟨k, hu⟩, hl, hd⟩ := C99_bain ha hb hab hfin
  refine ⟨r, hr, hl, hd, k, hu, ?_⟩
  obtain ⟨GA, GM, -, -, -, -, -, -, hh⟩ := C77_lat_cor_partial t py ⟨nsol, volTh, none, sliceSz, dist⟩ o ho 2 3 _ _ (fcc a) CA
    (bcc b) CM cA cM rA rM hn hsz hv hv1
  rcases hh with h' | ⟨tr, h'⟩ | ⟨rs', tr, h', -, -, hrep, -⟩
  · cases h.symm.trans h'
  · cases h.symm.trans h'
  have h' := h.symm.trans h'
  injection h' with h'
  injection h' with h' h2
  injection h' with h'
  subst h' h2
  obtain ⟨-, -, hpos, hcons⟩ := hrep r (List.mem_of_mem_head? hr)
  replace hcons : ConsistentReport (fcc a) (bcc b) CA CM r.l r.cor r.u r.lams := hcons
  have hpos : 0 < r.l.det := hpos rfl
  obtain ⟨F, hF, hF', hFu⟩ := hcons.gradient
  change F * (fcc a * toR r.l) = bcc b at hF
  replace hF' : F * (fcc a * CA) * r.cor = bcc b * CM := hF'
  rw [eA, eM] at hF'
  have dM : (bcc b).det ≠ 0 := (constructs_det cM).2.1
  have hFX : F * ((a / (2 * b)) • toR (cubeForm r.l)) = 1 := by
    rw [← cubeForm_eq hb.ne', ← Matrix.mul_assoc, hF]
    exact Matrix.mul_nonsing_inv _ (isUnit_det_of_ne dM)
  have hXF := mul_eq_one_comm.mp hFX
  have hcor : r.cor = (1 / 2 : ℝ) • toR (cubeForm r.l) := by
    rw [Matrix.mul_smul, Matrix.mul_one, Matrix.smul_mul] at hF'
    have e1 : a • r.cor = b • ((a / (2 * b)) • toR (cubeForm r.l)) := by
      have := congrArg (fun Y => ((a / (2 * b)) • toR (cubeForm r.l)) * Y) hF'
      simp only [Matrix.mul_smul, ← Matrix.mul_assoc, hXF, Matrix.one_mul, Matrix.mul_one] at this
      exact this
    have e2 : (1 / a) • (a • r.cor) = r.cor := by rw [smul_smul, one_div_mul_cancel ha.ne', one_smul]
    rw [← e2, e1, smul_smul, smul_smul]
    congr 1
    field_simp
  refine ⟨?_, ⟨_, hcor⟩, ?_⟩
  · have hB : r.u * r.u * (((a / (2 * b)) • toR (cubeForm r.l)) * ((a / (2 * b)) • toR (cubeForm r.l))ᵀ) = 1 := by
      rw [hFu]
      calc Fᵀ * F * (((a / (2 * b)) • toR (cubeForm r.l)) * ((a / (2 * b)) • toR (cubeForm r.l))ᵀ)
          = Fᵀ * (F * ((a / (2 * b)) • toR (cubeForm r.l))) * ((a / (2 * b)) • toR (cubeForm r.l))ᵀ := by
            simp only [Matrix.mul_assoc]
        _ = 1 := by rw [hFX, Matrix.mul_one, ← Matrix.transpose_mul, hXF, Matrix.transpose_one]
    have e : (a / (2 * b)) • toR (cubeForm r.l) = (a / b) • r.cor := by
      rw [hcor, smul_smul]
      congr 1
      field_simp
    rw [e, Matrix.transpose_smul, Matrix.smul_mul, Matrix.mul_smul, Matrix.mul_smul, Matrix.mul_smul, smul_smul, hu, bainStretch,
      Matrix.diagonal_mul_diagonal] at hB
    have hs2 : Real.sqrt 2 * Real.sqrt 2 = 2 := Real.mul_self_sqrt (by norm_num)
    ext i j
    have := congrFun (congrFun hB i) j
    rw [Matrix.smul_apply, Matrix.diagonal_mul, smul_eq_mul, Matrix.one_apply] at this
    rw [Matrix.diagonal_apply]
    by_cases hik : i = k
    · rw [if_pos hik, ← mul_assoc, show a / b * (a / b) * (b / a * (b / a)) = 1 by field_simp, one_mul] at this
      rw [if_pos hik]
      exact this
    · rw [if_neg hik, ← mul_assoc, show a / b * (a / b) * (Real.sqrt 2 * (b / a) * (Real.sqrt 2 * (b / a)))
        = Real.sqrt 2 * Real.sqrt 2 * (a / b * (a / b) * (b / a * (b / a))) by ring, hs2,
        show (2 : ℝ) * (a / b * (a / b) * (b / a * (b / a))) = 2 by field_simp] at this
      rw [if_neg hik]
      by_cases hij : i = j
      · rw [if_pos hij] at this ⊢
        linarith
      · rw [if_neg hij] at this ⊢
        linarith
  · rw [hcor, Matrix.det_smul, toR_det, cubeForm_det]
    have : (0 : ℝ) < (r.l.det : ℝ) := by exact_mod_cast hpos
    rw [Int.cast_mul]
    exact mul_pos (by positivity) (mul_pos (by norm_num) this)

/-! ### The hypotheses are met -/

/-- the edges are in the ratio of equal volumes per atom, to three digits -/
example (py : Py) : ∃ (o : Outside 3) (rs : List (Report 3)) (trace : List (List ℤ)), Sound o ∧
    latCor .code py {} o 2 (.list (.float [1])) 3 (.list (.float [0.794])) = .ok (some rs, trace) ∧
    ∃ r, rs.head? = some r ∧ ∃ k, r.u = bainStretch 1 0.794 k := by
  have h3 : (1.7 : ℝ) < Real.sqrt 3 := by
    rw [Real.lt_sqrt (by norm_num)]
    norm_num
  obtain ⟨o, rs, trace, ho, -, h, hf⟩ := C99_finished .code py (a := 1) (b := 0.794) one_pos (by norm_num)
    (by norm_num at h3 ⊢; linarith) (.inl rfl)
  obtain ⟨r, hr, hk, -⟩ := C99_bain one_pos (by norm_num) (by norm_num at h3 ⊢; linarith) hf
  exact ⟨o, rs, trace, ho, h, r, hr, hk⟩

end Verif.Props
