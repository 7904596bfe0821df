import Verif.Props.Pipeline

/-!
# C97: the distance and the principal stretches of a solution

The distance that is printed for a solution and the principal stretches that are printed below it say the same.
-/

namespace Verif.Props

open Matrix Verif.Spec Verif.Model Verif.Lemmas

variable {N : ℕ}

/-- A stretch with given eigenvalues, diagonalised. -/
theorem diagonalised {u : Matrix (Fin N) (Fin N) ℝ} {lams : List ℝ} (hu : u.PosDef)
    (he : u.charpoly = (lams.map fun x => Polynomial.X - Polynomial.C x).prod) :
    ∃ (Q : Matrix (Fin N) (Fin N) ℝ) (l : Fin N → ℝ), IsOrtho Q ∧ u = Q * Matrix.diagonal l * Qᵀ ∧
      (∀ i, 0 < l i) ∧ ∀ f : ℝ → ℝ, (lams.map f).sum = ∑ i, f (l i) := by
  have hH := hu.isHermitian
  refine ⟨hH.eigenvectorUnitary, hH.eigenvalues, ?_, ?_, hu.eigenvalues_pos, ?_⟩
  · have := Matrix.mem_unitaryGroup_iff'.mp hH.eigenvectorUnitary.2
    simpa [IsOrtho, Matrix.star_eq_conjTranspose] using this
  · have := hH.spectral_theorem
    simpa [Matrix.star_eq_conjTranspose, Unitary.conjStarAlgAut_apply] using this
  · intro f
    have e1 : (lams : Multiset ℝ) = Finset.univ.val.map hH.eigenvalues := by
      have h1 := Polynomial.roots_multiset_prod_X_sub_C (lams : Multiset ℝ)
      have h2 := Polynomial.roots_multiset_prod_X_sub_C (Finset.univ.val.map hH.eigenvalues)
      rw [← h1, ← h2]
      congr 1
      rw [Multiset.map_coe, Multiset.prod_coe, ← he, hH.charpoly_eq, Multiset.map_map]
      rfl
    calc (lams.map f).sum = ((lams : Multiset ℝ).map f).sum := by simp
      _ = _ := by rw [e1, Multiset.map_map]; rfl

/-- the sum of the squares of the entries, as a trace -/
theorem sq_trace (A : Matrix (Fin N) (Fin N) ℝ) : ∑ i, ∑ j, A i j ^ 2 = (A * Aᵀ).trace := by
  simp only [Matrix.trace, Matrix.diag_apply, Matrix.mul_apply, Matrix.transpose_apply, pow_two]

/-- **C97**: the distance of a solution is the sum of `(1/λ² - 1)²` over its principal stretches. -/
theorem C97_distance {EA EM CA CM : Matrix (Fin N) (Fin N) ℝ} {L : Matrix (Fin N) (Fin N) ℤ}
    {cor u : Matrix (Fin N) (Fin N) ℝ} {lams : List ℝ} (h : ConsistentReport EA EM CA CM L cor u lams)
    (hM : EM.det ≠ 0) : mismatch EA EM L = (lams.map fun x => (1 / x ^ 2 - 1) ^ 2).sum := by
  obtain ⟨F, hF, -, hu⟩ := h.gradient
  obtain ⟨Q, l, hQ, e, hl, hs⟩ := diagonalised h.posDef h.eigenvalues
  have hQ' : Q * Qᵀ = 1 := mul_eq_one_comm.mp hQ
  rw [hs]
  set X := EA * L.map (Int.cast : ℤ → ℝ) with hX
  have hXF : X * EM⁻¹ * F = 1 := by
    rw [mul_eq_one_comm, ← Matrix.mul_assoc, hF]
    exact Matrix.mul_nonsing_inv _ (isUnit_iff_ne_zero.mpr hM)
  have hFX : F * (X * EM⁻¹) = 1 := mul_eq_one_comm.mp hXF
  have hD : Matrix.diagonal l * Matrix.diagonal (fun i => 1 / l i) = 1 := by
    rw [Matrix.diagonal_mul_diagonal, ← Matrix.diagonal_one]
    congr 1
    funext i
    rw [mul_one_div_cancel (hl i).ne']
  set D := Matrix.diagonal l
  set D' := Matrix.diagonal (fun i => 1 / l i) with hD'
  have huu : u * u = Q * (D * D) * Qᵀ := by
    rw [e]
    calc Q * D * Qᵀ * (Q * D * Qᵀ) = Q * D * (Qᵀ * Q) * (D * Qᵀ) := by simp only [Matrix.mul_assoc]
      _ = _ := by rw [show Qᵀ * Q = 1 from hQ, Matrix.mul_one]; simp only [Matrix.mul_assoc]
  have hinv : u * u * (Q * (D' * D') * Qᵀ) = 1 := by
    rw [huu]
    calc Q * (D * D) * Qᵀ * (Q * (D' * D') * Qᵀ) = Q * (D * D) * (Qᵀ * Q) * ((D' * D') * Qᵀ) := by
          simp only [Matrix.mul_assoc]
      _ = Q * (D * (D * D') * D') * Qᵀ := by
          rw [show Qᵀ * Q = 1 from hQ, Matrix.mul_one]; simp only [Matrix.mul_assoc]
      _ = 1 := by rw [hD, Matrix.mul_one, hD, Matrix.mul_one, hQ']
  have hC : X * EM⁻¹ * (X * EM⁻¹)ᵀ = Q * (D' * D') * Qᵀ := by
    have h1 : X * EM⁻¹ * (X * EM⁻¹)ᵀ * (u * u) = 1 := by
      rw [hu]
      calc X * EM⁻¹ * (X * EM⁻¹)ᵀ * (Fᵀ * F) = X * EM⁻¹ * (F * (X * EM⁻¹))ᵀ * F := by
            rw [Matrix.transpose_mul F]; simp only [Matrix.mul_assoc]
        _ = 1 := by rw [hFX, Matrix.transpose_one, Matrix.mul_one, hXF]
    calc X * EM⁻¹ * (X * EM⁻¹)ᵀ = X * EM⁻¹ * (X * EM⁻¹)ᵀ * (u * u * (Q * (D' * D') * Qᵀ)) := by
          rw [hinv, Matrix.mul_one]
      _ = X * EM⁻¹ * (X * EM⁻¹)ᵀ * (u * u) * (Q * (D' * D') * Qᵀ) := by simp only [Matrix.mul_assoc]
      _ = _ := by rw [h1, Matrix.one_mul]
  have hB : X * EM⁻¹ * (X * EM⁻¹)ᵀ - 1 = Q * Matrix.diagonal (fun i => 1 / l i ^ 2 - 1) * Qᵀ := by
    have : Matrix.diagonal (fun i => 1 / l i ^ 2 - 1) = D' * D' - 1 := by
      rw [hD', Matrix.diagonal_mul_diagonal, ← Matrix.diagonal_one, Matrix.diagonal_sub]
      congr 1
      funext i
      rw [div_mul_div_comm, one_mul, pow_two]
    rw [hC, this, Matrix.mul_sub, Matrix.sub_mul, Matrix.mul_one, hQ']
  unfold mismatch
  rw [← hX, sq_trace, hB]
  have hT : ∀ d : Fin N → ℝ, (Q * Matrix.diagonal d * Qᵀ * (Q * Matrix.diagonal d * Qᵀ)ᵀ).trace = ∑ i, d i ^ 2 := by
    intro d
    rw [Matrix.transpose_mul, Matrix.transpose_mul, Matrix.transpose_transpose, Matrix.diagonal_transpose]
    calc (Q * Matrix.diagonal d * Qᵀ * (Q * (Matrix.diagonal d * Qᵀ))).trace
        = (Q * (Matrix.diagonal d * (Qᵀ * Q) * Matrix.diagonal d) * Qᵀ).trace := by simp only [Matrix.mul_assoc]
      _ = (Qᵀ * (Q * (Matrix.diagonal d * Matrix.diagonal d))).trace := by
          rw [show Qᵀ * Q = 1 from hQ, Matrix.mul_one, Matrix.trace_mul_comm]
      _ = _ := by
          rw [← Matrix.mul_assoc, show Qᵀ * Q = 1 from hQ, Matrix.one_mul, Matrix.diagonal_mul_diagonal,
            Matrix.trace_diagonal]
          simp only [pow_two]
  exact hT _

/-- The principal stretches are positive, and there are as many as dimensions. -/
theorem stretches_pos {EA EM CA CM : Matrix (Fin N) (Fin N) ℝ} {L : Matrix (Fin N) (Fin N) ℤ}
    {cor u : Matrix (Fin N) (Fin N) ℝ} {lams : List ℝ} (h : ConsistentReport EA EM CA CM L cor u lams) :
    lams.length = N ∧ ∀ x ∈ lams, 0 < x := by
  obtain ⟨Q, l, -, -, hl, hs⟩ := diagonalised h.posDef h.eigenvalues
  constructor
  · have := hs fun _ => 1
    simpa using this
  · intro x hx
    by_contra hn
    have := hs fun y => if y = x then 1 else 0
    have h0 : ∑ i, (if l i = x then (1 : ℝ) else 0) = 0 :=
      Finset.sum_eq_zero fun i _ => if_neg fun (e : l i = x) => hn (e ▸ hl i)
    rw [h0] at this
    have h1 : (1 : ℝ) ≤ (lams.map fun y => if y = x then (1 : ℝ) else 0).sum :=
      List.single_le_sum (by
        intro y hy
        obtain ⟨z, -, rfl⟩ := List.mem_map.mp hy
        split_ifs <;> norm_num) 1 (List.mem_map.mpr ⟨x, hx, if_pos rfl⟩)
    rw [this] at h1
    exact absurd h1 (by norm_num)

/-- **C97**: the product of the principal stretches is the ratio of the volumes of the two cells that correspond. -/
theorem C97_volume {EA EM CA CM : Matrix (Fin N) (Fin N) ℝ} {L : Matrix (Fin N) (Fin N) ℤ}
    {cor u : Matrix (Fin N) (Fin N) ℝ} {lams : List ℝ} (h : ConsistentReport EA EM CA CM L cor u lams) :
    lams.prod * (|EA.det| * |(L.det : ℝ)|) = |EM.det| := by
  obtain ⟨F, hF, -, hu⟩ := h.gradient
  have hprod : u.det = lams.prod := by
    have e := Matrix.det_eq_sign_charpoly_coeff u
    have hl := (stretches_pos h).1
    rw [e, h.eigenvalues, Fintype.card_fin]
    have h0 : ((lams.map fun x => Polynomial.X - Polynomial.C x).prod).coeff 0 = (lams.map fun x => -x).prod := by
      rw [Polynomial.coeff_zero_eq_eval_zero, Polynomial.eval_list_prod, List.map_map]
      congr 1
      refine List.map_congr_left fun x _ => by simp
    rw [h0, show (fun x : ℝ => -x) = fun x => (-1) * x from funext fun x => (neg_one_mul x).symm,
      List.prod_map_mul, List.map_const', List.prod_replicate, hl, List.map_id'', ← mul_assoc, ← mul_pow]
    · norm_num
    · exact fun _ => rfl
  have hpos := h.posDef.det_pos
  have habs : lams.prod = |F.det| := by
    rw [← hprod]
    have := congrArg Matrix.det hu
    rw [Matrix.det_mul, Matrix.det_mul, Matrix.det_transpose] at this
    rw [← abs_of_pos hpos]
    exact abs_eq_abs.mpr (mul_self_eq_mul_self_iff.mp this)
  have hd := congrArg Matrix.det hF
  rw [Matrix.det_mul, Matrix.det_mul] at hd
  change F.det * (EA.det * (toR L).det) = _ at hd
  rw [toR_det] at hd
  rw [habs, ← hd, abs_mul, abs_mul]

/-- **C97**: no principal stretch is farther from one than the distance says. -/
theorem C97_bound {EA EM CA CM : Matrix (Fin N) (Fin N) ℝ} {L : Matrix (Fin N) (Fin N) ℤ}
    {cor u : Matrix (Fin N) (Fin N) ℝ} {lams : List ℝ} (h : ConsistentReport EA EM CA CM L cor u lams)
    (hM : EM.det ≠ 0) : ∀ x ∈ lams, |1 / x ^ 2 - 1| ≤ √(mismatch EA EM L) := by
  intro x hx
  apply Real.abs_le_sqrt
  rw [C97_distance h hM]
  refine List.single_le_sum ?_ _ (List.mem_map.mpr ⟨x, hx, rfl⟩)
  intro y hy
  obtain ⟨z, -, rfl⟩ := List.mem_map.mp hy
  positivity

/-- **C97**: the distance is zero just if all principal stretches are one, just if there is no stretch at all. -/
theorem C97_zero {EA EM CA CM : Matrix (Fin N) (Fin N) ℝ} {L : Matrix (Fin N) (Fin N) ℤ}
    {cor u : Matrix (Fin N) (Fin N) ℝ} {lams : List ℝ} (h : ConsistentReport EA EM CA CM L cor u lams)
    (hM : EM.det ≠ 0) : (mismatch EA EM L = 0 ↔ ∀ x ∈ lams, x = 1) ∧ (mismatch EA EM L = 0 ↔ u = 1) := by
  have h1 : mismatch EA EM L = 0 ↔ ∀ x ∈ lams, x = 1 := by
    constructor
    · intro h0 x hx
      have hb := C97_bound h hM x hx
      have hp := (stretches_pos h).2 x hx
      rw [h0, Real.sqrt_zero] at hb
      have h2 : 1 / x ^ 2 = 1 := sub_eq_zero.mp (abs_nonpos_iff.mp hb)
      have h3 : x ^ 2 = 1 := by
        rw [div_eq_one_iff_eq (by positivity)] at h2
        exact h2.symm
      nlinarith
    · intro h0
      rw [C97_distance h hM]
      refine List.sum_eq_zero fun y hy => ?_
      obtain ⟨x, hx, rfl⟩ := List.mem_map.mp hy
      rw [h0 x hx]
      norm_num
  refine ⟨h1, h1.trans ?_⟩
  obtain ⟨Q, l, hQ, e, hl, hs⟩ := diagonalised h.posDef h.eigenvalues
  constructor
  · intro h0
    have hz : ∑ i, (l i - 1) ^ 2 = 0 := by
      rw [← hs fun x => (x - 1) ^ 2]
      refine List.sum_eq_zero fun y hy => ?_
      obtain ⟨x, hx, rfl⟩ := List.mem_map.mp hy
      rw [h0 x hx]
      norm_num
    have hi : l = fun _ => 1 := by
      funext i
      have := (Finset.sum_eq_zero_iff_of_nonneg fun i _ => sq_nonneg (l i - 1)).mp hz i (Finset.mem_univ i)
      exact sub_eq_zero.mp (pow_eq_zero_iff two_ne_zero |>.mp this)
    rw [e, hi, Matrix.diagonal_one, Matrix.mul_one]
    exact mul_eq_one_comm.mp hQ
  · intro hu
    refine h1.mp ?_
    obtain ⟨F, hF, -, hFF⟩ := h.gradient
    have hXF : EA * L.map (Int.cast : ℤ → ℝ) * EM⁻¹ * F = 1 := by
      rw [mul_eq_one_comm, ← Matrix.mul_assoc, hF]
      exact Matrix.mul_nonsing_inv _ (isUnit_iff_ne_zero.mpr hM)
    have hFX := mul_eq_one_comm.mp hXF
    rw [hu, Matrix.mul_one] at hFF
    have : EA * L.map (Int.cast : ℤ → ℝ) * EM⁻¹ = Fᵀ := by
      calc EA * L.map (Int.cast : ℤ → ℝ) * EM⁻¹ = Fᵀ * F * (EA * L.map (Int.cast : ℤ → ℝ) * EM⁻¹) := by
            rw [← hFF, Matrix.one_mul]
        _ = Fᵀ := by rw [Matrix.mul_assoc, hFX, Matrix.mul_one]
    unfold mismatch
    rw [this, Matrix.transpose_transpose, ← hFF]
    simp

/-- **C97**, `lat_cor`: whenever a call returns, the distance, the stretch tensor and the principal stretches of every
solution agree in this way. -/
theorem C97_lat_cor (t : Tol) (py : Py) (kw : LatCorKw) (o : Outside (readkw kw.dim 3)) (ho : Sound o)
    (brava bravm : ℤ) (pa pm : PArg) (EA CA EM CM : Matrix (Fin (readkw kw.dim 3)) (Fin (readkw kw.dim 3)) ℝ)
    (hA : Constructs py brava pa (readkw kw.dim 3) EA CA) (hM : Constructs py bravm pm (readkw kw.dim 3) EM CM)
    (hrA : Reliable t EA (candidates _)) (hrM : Reliable t EM (candidates _))
    (hn : 1 ≤ readkw kw.nsol 1) (hsz : 1 ≤ readkw kw.sliceSz 100)
    (hv : 0 < readkw kw.volTh 0.1) (hv1 : readkw kw.volTh 0.1 ≤ 1)
    (rs : List (Report (readkw kw.dim 3))) (trace : List (List ℤ))
    (h : latCor t py kw o brava pa bravm pm = .ok (some rs, trace)) :
    ∀ r ∈ rs, r.lams.length = readkw kw.dim 3 ∧ (∀ x ∈ r.lams, 0 < x) ∧
      r.d = (r.lams.map fun x => (1 / x ^ 2 - 1) ^ 2).sum ∧
      r.lams.prod * (|EA.det| * |(r.l.det : ℝ)|) = |EM.det| ∧ (r.d = 0 ↔ r.u = 1) := by
  obtain ⟨-, dM, -⟩ := constructs_det hM
  obtain ⟨GA, GM, -, -, -, -, -, -, hh⟩ := C77_lat_cor_partial t py kw o ho brava bravm pa pm EA CA EM CM hA hM hrA hrM
    hn hsz hv hv1
  rcases hh with h' | ⟨tr, h'⟩ | ⟨rs', tr, h', -, -, hd, -⟩
  · rw [h] at h'; cases h'
  · rw [h] at h'; cases h'
  · rw [h] at h'
    injection h' with h'
    injection h' with h' h2
    injection h' with h'
    subst h' h2
    intro r hr
    obtain ⟨h1, -, -, hc⟩ := hd r hr
    exact ⟨(stretches_pos hc).1, (stretches_pos hc).2, h1.trans (C97_distance hc dM), C97_volume hc,
      h1 ▸ (C97_zero hc dM).2⟩

/-! ### The hypotheses are met -/

/-- from the simple cubic to the tetragonal lattice: the distance is 9/16 -/
example : ∃ lams, ConsistentReport 1 tetra 1 1 (1 : Matrix (Fin 3) (Fin 3) ℤ) 1 tetra lams ∧ tetra.det ≠ 0 ∧
    mismatch 1 tetra (1 : Matrix (Fin 3) (Fin 3) ℤ) = 9 / 16 := by
  have hP : tetra.PosDef := by
    rw [tetra_eq]
    exact Matrix.PosDef.diagonal fun i => by fin_cases i <;> simp
  obtain ⟨lams, h⟩ := report_one hP
  refine ⟨lams, h, hP.det_pos.ne', ?_⟩
  have he : tetra.charpoly = (([1, 1, 2] : List ℝ).map fun x => Polynomial.X - Polynomial.C x).prod := by
    rw [tetra_eq, Matrix.charpoly_diagonal, Fin.prod_univ_three]
    simp [mul_assoc]
  have h' : ConsistentReport 1 tetra 1 1 (1 : Matrix (Fin 3) (Fin 3) ℤ) 1 tetra [1, 1, 2] :=
    ⟨h.gradient, hP, by simp, he⟩
  rw [C97_distance h' hP.det_pos.ne']
  norm_num

/-- a call that returns solutions -/
example (py : Py) : ∃ (o : Outside 2) (rs : List (Report 2)) (trace : List (List ℤ)), Sound o ∧
    Constructs py 5 rhombusParam 2 rhombus 1 ∧ Reliable .exact rhombus candidates2 ∧
    latCor .exact py ⟨none, none, some 2, none, none⟩ o 5 rhombusParam 5 rhombusParam = .ok (some rs, trace) ∧
    rs ≠ [] := by
  obtain ⟨o, ho, -, rs, trace, h1, -, r, hr, -⟩ := rhombus_run .exact (.inr rfl) py
  exact ⟨o, rs, trace, ho, rhombus_constructs py, .inl rfl, h1, List.ne_nil_of_mem hr⟩

end Verif.Props
