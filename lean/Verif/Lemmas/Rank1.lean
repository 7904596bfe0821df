import Mathlib.Analysis.Matrix.Spectrum
import Mathlib.Tactic.FinCases
import Mathlib.Tactic.LinearCombination
import Verif.Lemmas.Dist
import Verif.Lemmas.Rotation
import Verif.Model.Rank1
import Verif.Spec.Rank1

/-!
# Lemmas on eigenvalues of symmetric 3 × 3 matrices and on rank-one connections
-/

namespace Verif.Lemmas

open Matrix Verif.Model Verif.Spec

local notation "Mat3" => Matrix (Fin 3) (Fin 3) ℝ

/-! ### eigenvalues -/

theorem charpoly_three {A : Mat3} {l : Fin 3 → ℝ} (h : IsEigenvalues A l) (x : ℝ) :
    (x • (1 : Mat3) - A).det = (x - l 0) * (x - l 1) * (x - l 2) := by
  have := congrArg (Polynomial.eval x) h
  rw [Matrix.eval_charpoly, Fin.prod_univ_three] at this
  simpa [Matrix.smul_one_eq_diagonal] using this

theorem trace_three {A : Mat3} {l : Fin 3 → ℝ} (h : IsEigenvalues A l) :
    A.trace = l 0 + l 1 + l 2 := by
  have h0 := charpoly_three h 0
  have h1 := charpoly_three h 1
  have h2 := charpoly_three h (-1)
  rw [det_fin_three] at h0 h1 h2
  rw [trace_fin_three]
  simp [Matrix.one_apply] at h0 h1 h2
  linarith

theorem det_three {A : Mat3} {l : Fin 3 → ℝ} (h : IsEigenvalues A l) :
    A.det = l 0 * l 1 * l 2 := by
  have h0 := charpoly_three h 0
  rw [det_fin_three] at h0
  rw [det_fin_three]
  simp at h0
  linarith

/-! ### the eigenvalue routine -/

theorem sortEig_spec {eig : Mat3 → EigRes} {A : Mat3} (h : EigOK (eig A).vals (eig A).vecs A) :
    EigOK (sortEig eig A).vals (sortEig eig A).vecs A ∧ Monotone (sortEig eig A).vals := by
  classical
  unfold sortEig
  simp only
  set l0 := (List.finRange 3).map fun i => ((eig A).vals i, (eig A).vecs i) with hl0
  have hp : (l0.insertionSort byVal).Perm l0 := List.perm_insertionSort _ _
  have hs : (l0.insertionSort byVal).Pairwise byVal := by
    haveI : Std.Total byVal := ⟨fun a b => le_total a.1 b.1⟩
    haveI : IsTrans (ℝ × V3) byVal := ⟨fun a b c h1 h2 => le_trans (α := ℝ) h1 h2⟩
    exact List.pairwise_insertionSort _ _
  have hlen : (l0.insertionSort byVal).length = 3 := by rw [hp.length_eq, hl0]; simp
  obtain ⟨a, b, c, habc⟩ := List.length_eq_three.1 hlen
  rw [habc] at hp hs ⊢
  have hmem : ∀ x ∈ [a, b, c], A *ᵥ x.2 = x.1 • x.2 ∧ x.2 ⬝ᵥ x.2 = 1 := by
    intro x hx
    rw [hp.mem_iff, hl0] at hx
    obtain ⟨i, -, rfl⟩ := List.mem_map.1 hx
    exact ⟨h.eigenvector i, h.unit i⟩
  have hprod : (Polynomial.X - Polynomial.C a.1) * (Polynomial.X - Polynomial.C b.1) *
      (Polynomial.X - Polynomial.C c.1) = A.charpoly := by
    have := (hp.map fun x : ℝ × V3 => (Polynomial.X - Polynomial.C x.1 : Polynomial ℝ)).prod_eq
    have he := h.eigenvalues
    unfold IsEigenvalues at he
    rw [he, Fin.prod_univ_three]
    simp only [hl0, List.map_map, List.map_cons, List.map_nil, List.prod_cons, List.prod_nil, mul_one] at this
    rw [mul_assoc, this]
    simp [List.finRange_succ, mul_assoc]
  simp only [List.pairwise_cons, List.mem_cons, List.not_mem_nil, or_false, forall_eq_or_imp, forall_eq,
    byVal] at hs
  refine ⟨⟨?_, ?_, ?_⟩, ?_⟩
  · unfold IsEigenvalues
    rw [← hprod, Fin.prod_univ_three]
    rfl
  · intro i
    fin_cases i
    · exact (hmem a (by simp)).1
    · exact (hmem b (by simp)).1
    · exact (hmem c (by simp)).1
  · intro i
    fin_cases i
    · exact (hmem a (by simp)).2
    · exact (hmem b (by simp)).2
    · exact (hmem c (by simp)).2
  · intro i j hij
    fin_cases i <;> fin_cases j <;> first
      | exact le_refl _
      | exact hs.1.1
      | exact hs.1.2
      | exact hs.2.1
      | (exfalso; revert hij; decide)

/-- There is an eigenvalue routine that keeps its promises. -/
theorem exists_eig : ∃ eig : Mat3 → EigRes, ∀ A : Mat3, Aᵀ = A → EigOK (eig A).vals (eig A).vecs A := by
  classical
  refine ⟨fun A => if h : A.IsHermitian then
    ⟨h.eigenvalues, fun i => (h.eigenvectorBasis i).ofLp⟩ else ⟨0, 0⟩, fun A hA => ?_⟩
  have hH : A.IsHermitian := by
    rw [Matrix.IsHermitian, Matrix.conjTranspose_eq_transpose_of_trivial]; exact hA
  simp only [dif_pos hH]
  refine ⟨isEigenvalues_hermitian hH, fun i => hH.mulVec_eigenvectorBasis i, fun i => ?_⟩
  have := hH.eigenvectorBasis.orthonormal.1 i
  rw [EuclideanSpace.norm_eq] at this
  have h2 := (Real.sqrt_eq_one).1 this
  simp only [dotProduct]
  rw [← h2]
  exact Finset.sum_congr rfl fun j _ => by rw [Real.norm_eq_abs, sq_abs, sq]

/-! ### symmetric matrices -/

theorem sym_dot {A : Mat3} (hA : Aᵀ = A) (x y : V3) : x ⬝ᵥ A *ᵥ y = (A *ᵥ x) ⬝ᵥ y := by
  rw [Matrix.dotProduct_mulVec, ← Matrix.mulVec_transpose, hA]

theorem eig_orth {A : Mat3} (hA : Aᵀ = A) {x y : V3} {a b : ℝ} (hx : A *ᵥ x = a • x)
    (hy : A *ᵥ y = b • y) (hab : a ≠ b) : x ⬝ᵥ y = 0 := by
  have h := sym_dot hA x y
  rw [hx, hy, dotProduct_smul, smul_dotProduct, smul_eq_mul, smul_eq_mul] at h
  have : (b - a) * (x ⬝ᵥ y) = 0 := by linear_combination h
  rcases mul_eq_zero.1 this with h | h
  · exact absurd (by linarith) hab
  · exact h

theorem outer_eq (a b : V3) : outer a b = vecMulVec a b := rfl

/-- The spectral decomposition of a symmetric 3 × 3 matrix, two eigenvectors of which are known. -/
theorem spectral3 {A : Mat3} (hA : Aᵀ = A) {x z : V3} {l0 l1 l2 : ℝ} (hx : A *ᵥ x = l0 • x)
    (hz : A *ᵥ z = l2 • z) (ux : x ⬝ᵥ x = 1) (uz : z ⬝ᵥ z = 1) (hxz : x ⬝ᵥ z = 0)
    (ht : A.trace = l0 + l1 + l2) :
    A = l1 • 1 + (l0 - l1) • vecMulVec x x + (l2 - l1) • vecMulVec z z := by
  have hc := frame_complete uz ux (by rw [dotProduct_comm]; exact hxz)
  set w := z ⨯₃ x with hw
  -- `A w` is a multiple of `w`
  have hwx : x ⬝ᵥ A *ᵥ w = 0 := by
    rw [sym_dot hA, hx, smul_dotProduct]
    have : x ⬝ᵥ w = 0 := by rw [hw, dot3]; simp [cross_apply]; ring
    rw [this, smul_zero]
  have hwz : z ⬝ᵥ A *ᵥ w = 0 := by
    rw [sym_dot hA, hz, smul_dotProduct]
    have : z ⬝ᵥ w = 0 := by rw [hw, dot3]; simp [cross_apply]; ring
    rw [this, smul_zero]
  have hone : (1 : Mat3) = vecMulVec x x + vecMulVec w w + vecMulVec z z := by
    simp only [outer_eq] at hc
    rw [hc]; abel
  have hAw : A *ᵥ w = (w ⬝ᵥ A *ᵥ w) • w := by
    have h1 := congrArg (fun M : Mat3 => M *ᵥ (A *ᵥ w)) hone
    simp only [one_mulVec, add_mulVec, vecMulVec_mulVec, hwx, hwz] at h1
    simpa using h1
  have hAww : vecMulVec (A *ᵥ w) w = (w ⬝ᵥ A *ᵥ w) • vecMulVec w w := by
    rw [← smul_vecMulVec, ← hAw]
  have hsum : A = l0 • vecMulVec x x + (w ⬝ᵥ A *ᵥ w) • vecMulVec w w + l2 • vecMulVec z z := by
    calc A = A * 1 := (mul_one A).symm
      _ = _ := by
        rw [hone, mul_add, mul_add, mul_vecMulVec, mul_vecMulVec, mul_vecMulVec, hx, hz, hAww]
        simp only [smul_vecMulVec]
  have uw : w ⬝ᵥ w = 1 := by rw [hw, cross_norm uz (by rw [dotProduct_comm]; exact hxz), ux]
  have htr : w ⬝ᵥ A *ᵥ w = l1 := by
    have h1 := congrArg Matrix.trace hsum
    simp only [trace_add, trace_smul, trace_vecMulVec, ux, uw, uz, smul_eq_mul, mul_one] at h1
    linarith
  rw [htr] at hsum
  calc A = l0 • vecMulVec x x + l1 • vecMulVec w w + l2 • vecMulVec z z := hsum
    _ = _ := by
      rw [hone]
      simp only [smul_add, sub_smul]
      abel

/-! ### dyads -/

theorem det_one_add_dyad (b m : V3) : (1 + vecMulVec b m : Mat3).det = 1 + m ⬝ᵥ b := by
  rw [det_fin_three, dot3]
  simp [vecMulVec_apply, Matrix.one_apply]
  ring

theorem dyad_square (b m : V3) : (1 + vecMulVec m b : Mat3) * (1 + vecMulVec b m) =
    1 + (vecMulVec m b + vecMulVec b m + (b ⬝ᵥ b) • vecMulVec m m) := by
  rw [add_mul, mul_add, mul_add, one_mul, one_mul, mul_one, vecMulVec_mul_vecMulVec]
  simp only [vecMulVec_smul]
  abel

theorem dyad_transpose (b m : V3) : (1 + vecMulVec b m : Mat3)ᵀ = 1 + vecMulVec m b := by
  rw [transpose_add, transpose_one, transpose_vecMulVec]

theorem cauchy_schwarz (a m : V3) : (a ⬝ᵥ m) ^ 2 ≤ (a ⬝ᵥ a) * (m ⬝ᵥ m) := by
  rw [dot3, dot3, dot3]
  nlinarith [sq_nonneg (a 0 * m 1 - a 1 * m 0), sq_nonneg (a 0 * m 2 - a 2 * m 0),
    sq_nonneg (a 1 * m 2 - a 2 * m 1)]

/-- The middle eigenvalue of `(1 + m ⊗ a) (1 + a ⊗ m)` is one. -/
theorem mid_one {a m : V3} {l : Fin 3 → ℝ}
    (h : SortedEigenvalues ((1 + vecMulVec m a : Mat3) * (1 + vecMulVec a m)) l) : l 1 = 1 := by
  obtain ⟨hm, he⟩ := h
  have h01 : l 0 ≤ l 1 := hm (by decide)
  have h12 : l 1 ≤ l 2 := hm (by decide)
  have hd := det_three he
  have ht := trace_three he
  have h1 := charpoly_three he 1
  rw [det_mul, det_one_add_dyad, det_one_add_dyad, dotProduct_comm m a] at hd
  have hz : ((1 : ℝ) • (1 : Mat3) - (1 + vecMulVec m a) * (1 + vecMulVec a m)).det = 0 := by
    rw [dyad_square, det_fin_three]
    simp [vecMulVec_apply, Matrix.one_apply]
    ring
  rw [hz] at h1
  rw [dyad_square] at ht
  simp only [trace_add, trace_smul, trace_vecMulVec, trace_one, Fintype.card_fin, smul_eq_mul] at ht
  rw [dotProduct_comm m a] at ht
  have hcs := cauchy_schwarz a m
  push_cast at ht
  rcases mul_eq_zero.1 h1.symm with h | h
  · rcases mul_eq_zero.1 h with h | h
    · have h0 : l 0 = 1 := by linarith
      rw [h0] at hd ht h01
      have hp : (l 1 - 1) * (l 2 - 1) ≤ 0 := by nlinarith
      nlinarith
    · linarith
  · have h0 : l 2 = 1 := by linarith
    rw [h0] at hd ht h12
    have hp : (1 - l 0) * (1 - l 1) ≤ 0 := by nlinarith
    nlinarith

/-- Sorted eigenvalues are determined by the matrix. -/
theorem sorted_unique {A : Mat3} {l l' : Fin 3 → ℝ} (h : SortedEigenvalues A l)
    (h' : SortedEigenvalues A l') : l = l' := by
  have e : Finset.univ.val.map l = Finset.univ.val.map l' := by
    rw [← isEigenvalues_multiset h.2, ← isEigenvalues_multiset h'.2]
  have hp : (List.ofFn l).Perm (List.ofFn l') := by
    rw [← Multiset.coe_eq_coe]
    simpa [List.ofFn_eq_map, List.finRange, Fin.univ_def] using e
  have := hp.eq_of_pairwise' (r := (· ≤ ·)) (List.pairwise_ofFn.2 fun i j hij => h.1 hij.le)
    (List.pairwise_ofFn.2 fun i j hij => h'.1 hij.le)
  exact List.ofFn_injective this

/-! ### the formulas of the solvers -/

theorem am_solves {A : Mat3} (hA : Aᵀ = A) {e : EigRes} (he : EigOK e.vals e.vecs A) (h1 : e.vals 1 = 1)
    (h0 : 0 < e.vals 0) (h02 : e.vals 0 < e.vals 2) (hle : e.vals 0 ≤ 1) (hge : 1 ≤ e.vals 2)
    {s : ℝ} (hs : s * s = 1) {c c1 c3 : ℝ} (hc : c = Real.sqrt (e.vals 2 - e.vals 0))
    (hc1 : c1 = Real.sqrt (1 - e.vals 0)) (hc3 : c3 = Real.sqrt (e.vals 2 - 1)) :
    amM e c c1 c3 s ≠ 0 ∧ SolvesRankOne A (amPair e c c1 c3 s).1 (amPair e c c1 c3 s).2 ∧
      0 < 1 + (amPair e c c1 c3 s).2 ⬝ᵥ (amPair e c c1 c3 s).1 := by
  have ux := he.unit 0
  have uz := he.unit 2
  have hxz := eig_orth hA (he.eigenvector 0) (he.eigenvector 2) h02.ne
  have hsp := spectral3 hA (he.eigenvector 0) (he.eigenvector 2) ux uz hxz (trace_three he.eigenvalues)
  rw [h1] at hsp
  set x := e.vecs 0 with hx
  set z := e.vecs 2 with hz
  set al := Real.sqrt (e.vals 0) with hal
  set ga := Real.sqrt (e.vals 2) with hga
  have al2 : al ^ 2 = e.vals 0 := Real.sq_sqrt h0.le
  have ga2 : ga ^ 2 = e.vals 2 := Real.sq_sqrt (h0.trans h02).le
  have alpos : 0 < al := Real.sqrt_pos.2 h0
  have gapos : 0 < ga := Real.sqrt_pos.2 (h0.trans h02)
  have hlt : al < ga := Real.sqrt_lt_sqrt h0.le h02
  have cpos : 0 < c := by rw [hc]; exact Real.sqrt_pos.2 (by linarith)
  have c2 : c ^ 2 = ga ^ 2 - al ^ 2 := by rw [hc, Real.sq_sqrt (by linarith), al2, ga2]
  have c12 : c1 ^ 2 = 1 - al ^ 2 := by rw [hc1, Real.sq_sqrt (by linarith), al2]
  have c32 : c3 ^ 2 = ga ^ 2 - 1 := by rw [hc3, Real.sq_sqrt (by linarith), ga2]
  have rpos : 0 < ga - al := by linarith
  -- the unit normal
  set u := c1 / c with hu
  set v := c3 / c with hv
  have hu2 : u ^ 2 * (ga ^ 2 - al ^ 2) = 1 - al ^ 2 := by
    rw [hu, ← c2, ← c12]; field_simp
  have hv2 : v ^ 2 * (ga ^ 2 - al ^ 2) = ga ^ 2 - 1 := by
    rw [hv, ← c2, ← c32]; field_simp
  have hdpos : 0 < ga ^ 2 - al ^ 2 := by rw [← c2]; positivity
  have huv : u ^ 2 + v ^ 2 = 1 := by
    apply mul_right_cancel₀ hdpos.ne'
    linear_combination hu2 + hv2
  have hb2 : ga ^ 2 * u ^ 2 + al ^ 2 * v ^ 2 = 1 := by
    apply mul_right_cancel₀ hdpos.ne'
    linear_combination ga ^ 2 * hu2 + al ^ 2 * hv2
  have hbm : (ga - al) * (-ga * u ^ 2 + al * v ^ 2) = al * ga - 1 := by
    apply mul_right_cancel₀ hdpos.ne'
    linear_combination (ga - al) * (-ga * hu2 + al * hv2)
  set mh : V3 := -(u • x) + (s * v) • z with hmh
  have hunit : mh ⬝ᵥ mh = 1 := by
    rw [hmh]
    simp only [dotProduct_add, add_dotProduct, dotProduct_smul, smul_dotProduct, smul_eq_mul,
      dotProduct_neg, neg_dotProduct, ux, uz, hxz, dotProduct_comm z x]
    linear_combination huv + v ^ 2 * hs
  have hM : amM e c c1 c3 s = (ga - al) • mh := by
    unfold amM
    rw [hmh, ← hx, ← hz, ← hal, ← hga, hu, hv]
    ext i
    simp
    field_simp
  have hn : vnorm (amM e c c1 c3 s) = ga - al := by
    rw [hM, vnorm_smul_unit hunit rpos.le]
  have hm : (amPair e c c1 c3 s).2 = mh := by
    simp only [amPair, hn]
    rw [hM, smul_smul, inv_mul_cancel₀ rpos.ne', one_smul]
  have hb : (amPair e c c1 c3 s).1 = (ga - al) • ((ga * u) • x + (s * (al * v)) • z) := by
    simp only [amPair, hn, amB]
    rw [← hx, ← hz, ← hal, ← hga, hu, hv, mul_div_assoc, mul_div_assoc]
  set b := (ga - al) • ((ga * u) • x + (s * (al * v)) • z) with hbdef
  have hbb : b ⬝ᵥ b = (ga - al) ^ 2 := by
    rw [hbdef]
    simp only [dotProduct_add, add_dotProduct, dotProduct_smul, smul_dotProduct, smul_eq_mul, ux, uz, hxz,
      dotProduct_comm z x]
    linear_combination (ga - al) ^ 2 * hb2 + (ga - al) ^ 2 * (al * v) ^ 2 * hs
  have hmb : mh ⬝ᵥ b = al * ga - 1 := by
    rw [hbdef, hmh]
    simp only [dotProduct_add, add_dotProduct, dotProduct_smul, smul_dotProduct, smul_eq_mul, ux, uz, hxz,
      dotProduct_comm z x, neg_dotProduct]
    linear_combination hbm + (ga - al) * al * v ^ 2 * hs
  refine ⟨?_, ⟨by rw [hm]; exact hunit, ?_⟩, ?_⟩
  · intro h
    rw [h] at hn
    have : vnorm (0 : V3) = 0 := (vnorm_eq_zero _).2 rfl
    rw [this] at hn
    linarith
  · rw [hm, hb, dyad_square, hbb, hsp, one_smul, ← al2, ← ga2]
    clear_value b mh u v al ga x z
    rw [hbdef, hmh]
    ext i j
    simp only [Matrix.add_apply, Matrix.smul_apply, vecMulVec_apply, smul_eq_mul, Pi.add_apply,
      Pi.smul_apply, Pi.neg_apply]
    linear_combination (-(x i * x j)) * hu2 + z i * z j * hv2 +
      (z i * z j) * (v ^ 2 * (ga ^ 2 - al ^ 2)) * hs
  · rw [hm, hb, hmb]
    have := mul_pos alpos gapos
    linarith

/-- The pair in terms of the eigenvectors. -/
theorem am_formula {A : Mat3} (hA : Aᵀ = A) {e : EigRes} (he : EigOK e.vals e.vecs A)
    (h0 : 0 < e.vals 0) (h02 : e.vals 0 < e.vals 2) (hle : e.vals 0 ≤ 1) (hge : 1 ≤ e.vals 2)
    {s : ℝ} (hs : s * s = 1) {c c1 c3 : ℝ} (hc : c = Real.sqrt (e.vals 2 - e.vals 0))
    (hc1 : c1 = Real.sqrt (1 - e.vals 0)) (hc3 : c3 = Real.sqrt (e.vals 2 - 1)) :
    (amPair e c c1 c3 s).2 = -((c1 / c) • e.vecs 0) + (s * (c3 / c)) • e.vecs 2 ∧
    (amPair e c c1 c3 s).1 = (Real.sqrt (e.vals 2) - Real.sqrt (e.vals 0)) •
      ((Real.sqrt (e.vals 2) * (c1 / c)) • e.vecs 0 + (s * (Real.sqrt (e.vals 0) * (c3 / c))) • e.vecs 2) := by
  have ux := he.unit 0
  have uz := he.unit 2
  have hxz := eig_orth hA (he.eigenvector 0) (he.eigenvector 2) h02.ne
  have hlt : Real.sqrt (e.vals 0) < Real.sqrt (e.vals 2) := Real.sqrt_lt_sqrt h0.le h02
  have cpos : 0 < c := by rw [hc]; exact Real.sqrt_pos.2 (by linarith)
  have c2 : c ^ 2 = e.vals 2 - e.vals 0 := by rw [hc, Real.sq_sqrt (by linarith)]
  have c12 : c1 ^ 2 = 1 - e.vals 0 := by rw [hc1, Real.sq_sqrt (by linarith)]
  have c32 : c3 ^ 2 = e.vals 2 - 1 := by rw [hc3, Real.sq_sqrt (by linarith)]
  have huv : (c1 / c) ^ 2 + (c3 / c) ^ 2 = 1 := by
    rw [div_pow, div_pow, ← add_div, c12, c32, c2]
    exact (div_eq_one_iff_eq (by linarith)).2 (by ring)
  have hunit : (-((c1 / c) • e.vecs 0) + (s * (c3 / c)) • e.vecs 2) ⬝ᵥ
      (-((c1 / c) • e.vecs 0) + (s * (c3 / c)) • e.vecs 2) = 1 := by
    simp only [dotProduct_add, add_dotProduct, dotProduct_smul, smul_dotProduct, smul_eq_mul,
      dotProduct_neg, neg_dotProduct, ux, uz, hxz, dotProduct_comm (e.vecs 2) (e.vecs 0)]
    linear_combination huv + (c3 / c) ^ 2 * hs
  have hM : amM e c c1 c3 s = (Real.sqrt (e.vals 2) - Real.sqrt (e.vals 0)) •
      (-((c1 / c) • e.vecs 0) + (s * (c3 / c)) • e.vecs 2) := by
    unfold amM
    ext i
    simp
    field_simp
  have hn : vnorm (amM e c c1 c3 s) = Real.sqrt (e.vals 2) - Real.sqrt (e.vals 0) := by
    rw [hM, vnorm_smul_unit hunit (by linarith)]
  constructor
  · simp only [amPair, hn]
    rw [hM, smul_smul, inv_mul_cancel₀ (by linarith), one_smul]
  · simp only [amPair, hn, amB]
    rw [mul_div_assoc, mul_div_assoc]

/-- The algebra behind `am_complete`. -/
theorem am_algebra {l0 l2 t mx mw mz bx bw bz al ga : ℝ} (h02 : l0 < l2) (hge : 1 ≤ l2)
    (al2 : al ^ 2 = l0) (ga2 : ga ^ 2 = l2) (alpos : 0 < al) (gapos : 0 < ga)
    (exx : mx * bx + bx * mx + t * (mx * mx) = l0 - 1)
    (ezz : mz * bz + bz * mz + t * (mz * mz) = l2 - 1)
    (eww : mw * bw + bw * mw + t * (mw * mw) = 0)
    (exz : mx * bz + bx * mz + t * (mx * mz) = 0)
    (exw : mx * bw + bx * mw + t * (mx * mw) = 0)
    (ezw : mz * bw + bz * mw + t * (mz * mw) = 0)
    (hmm : mx * mx + mw * mw + mz * mz = 1) (hbb : t = bx * bx + bw * bw + bz * bz)
    (hpos : 0 < 1 + (mx * bx + mw * bw + mz * bz)) :
    mw = 0 ∧ bw = 0 ∧ bx = -(ga * (ga - al) * mx) ∧ bz = al * (ga - al) * mz ∧
      (l2 - l0) * mx ^ 2 = 1 - l0 ∧ (l2 - l0) * mz ^ 2 = l2 - 1 := by
  -- `g = b + t/2 m`
  obtain ⟨gx, hgx⟩ : ∃ r, r = bx + t / 2 * mx := ⟨_, rfl⟩
  obtain ⟨gw, hgw⟩ : ∃ r, r = bw + t / 2 * mw := ⟨_, rfl⟩
  obtain ⟨gz, hgz⟩ : ∃ r, r = bz + t / 2 * mz := ⟨_, rfl⟩
  have fxx : 2 * (mx * gx) = l0 - 1 := by rw [hgx]; linear_combination exx
  have fzz : 2 * (mz * gz) = l2 - 1 := by rw [hgz]; linear_combination ezz
  have fww : mw * gw = 0 := by rw [hgw]; linear_combination eww / 2
  have fxz : mx * gz + gx * mz = 0 := by rw [hgx, hgz]; linear_combination exz
  have fxw : mx * gw + gx * mw = 0 := by rw [hgx, hgw]; linear_combination exw
  have fzw : mz * gw + gz * mw = 0 := by rw [hgz, hgw]; linear_combination ezw
  have hw0 : mw = 0 ∧ gw = 0 := by
    rcases lt_or_eq_of_le hge with h | h
    · have hne : mz * gz ≠ 0 := fun hh => by rw [hh] at fzz; linarith
      have hmz0 := left_ne_zero_of_mul hne
      have hgz0 := right_ne_zero_of_mul hne
      rcases mul_eq_zero.1 fww with h | h
      · refine ⟨h, ?_⟩
        rw [h, mul_zero, add_zero] at fzw
        exact (mul_eq_zero.1 fzw).resolve_left hmz0
      · refine ⟨?_, h⟩
        rw [h, mul_zero, zero_add] at fzw
        exact (mul_eq_zero.1 fzw).resolve_left hgz0
    · have hne : mx * gx ≠ 0 := fun hh => by rw [hh] at fxx; linarith
      have hmx0 := left_ne_zero_of_mul hne
      have hgx0 := right_ne_zero_of_mul hne
      rcases mul_eq_zero.1 fww with h | h
      · refine ⟨h, ?_⟩
        rw [h, mul_zero, add_zero] at fxw
        exact (mul_eq_zero.1 fxw).resolve_left hmx0
      · refine ⟨?_, h⟩
        rw [h, mul_zero, zero_add] at fxw
        exact (mul_eq_zero.1 fxw).resolve_left hgx0
  obtain ⟨rfl, rfl⟩ := hw0
  have hbw0 : bw = 0 := by rw [mul_zero, add_zero] at hgw; exact hgw.symm
  subst hbw0
  have hm2 : mx ^ 2 + mz ^ 2 = 1 := by linear_combination hmm
  have hmz2 : (l2 - l0) * mz ^ 2 = l2 - 1 := by
    linear_combination (1 - mz ^ 2) * fzz + mz ^ 2 * fxx - 2 * mx * mz * fxz + 2 * mz * gz * hm2
  have hmx2 : (l2 - l0) * mx ^ 2 = 1 - l0 := by
    linear_combination (l2 - l0) * hm2 - hmz2
  have hgz' : gz = (l2 - l0) / 2 * mz := by
    linear_combination mz / 2 * fzz - mz / 2 * fxx - gz * hm2 + mx * fxz
  have hgx' : gx = -((l2 - l0) / 2 * mx) := by
    linear_combination (-gx) * hm2 + mz * fxz - mx / 2 * fzz + mx / 2 * fxx
  have hbz' : bz = ((l2 - l0) / 2 - t / 2) * mz := by linear_combination hgz' - hgz
  have hbx' : bx = -(((l2 - l0) / 2 + t / 2) * mx) := by linear_combination hgx' - hgx
  have hquad : (t - (ga - al) ^ 2) * (t - (ga + al) ^ 2) = 0 := by
    have h4 : t = ((l2 - l0) / 2 + t / 2) ^ 2 * mx ^ 2 + ((l2 - l0) / 2 - t / 2) ^ 2 * mz ^ 2 := by
      rw [hbx', hbz'] at hbb
      linear_combination hbb
    have h5 : (t - (ga - al) ^ 2) * (t - (ga + al) ^ 2) = t ^ 2 - 2 * t * (l0 + l2) + (l2 - l0) ^ 2 := by
      rw [← al2, ← ga2]; ring
    rw [h5]
    linear_combination (-4) * h4 - (((l2 - l0) ^ 2 + t ^ 2)) * hm2 - 2 * t * hmx2 + 2 * t * hmz2
  have hb' : 1 + (mx * bx + 0 * 0 + mz * bz) = (l0 + l2 - t) / 2 := by
    rw [hbx', hbz']
    linear_combination (-1 / 2) * hmx2 + 1 / 2 * hmz2 - t / 2 * hm2
  have ht' : t = (ga - al) ^ 2 := by
    rcases mul_eq_zero.1 hquad with h | h
    · linarith
    · exfalso
      rw [hb'] at hpos
      nlinarith [mul_pos alpos gapos]
  have kx : (l2 - l0) / 2 + t / 2 = ga * (ga - al) := by rw [ht', ← al2, ← ga2]; ring
  have kz : (l2 - l0) / 2 - t / 2 = al * (ga - al) := by rw [ht', ← al2, ← ga2]; ring
  rw [kx] at hbx'
  rw [kz] at hbz'
  exact ⟨rfl, rfl, hbx', hbz', hmx2, hmz2⟩

/-- Every orientation-preserving solution is, up to sign, one of the two pairs. -/
theorem am_complete {A : Mat3} (hA : Aᵀ = A) {e : EigRes} (he : EigOK e.vals e.vecs A) (h1 : e.vals 1 = 1)
    (h0 : 0 < e.vals 0) (h02 : e.vals 0 < e.vals 2) (hle : e.vals 0 ≤ 1) (hge : 1 ≤ e.vals 2)
    {c c1 c3 : ℝ} (hc : c = Real.sqrt (e.vals 2 - e.vals 0))
    (hc1 : c1 = Real.sqrt (1 - e.vals 0)) (hc3 : c3 = Real.sqrt (e.vals 2 - 1)) {b m : V3}
    (hbm : SolvesRankOne A b m) (hpos : 0 < 1 + m ⬝ᵥ b) :
    ∃ s t : ℝ, (s = 1 ∨ s = -1) ∧ (t = 1 ∨ t = -1) ∧
      b = t • (amPair e c c1 c3 s).1 ∧ m = t • (amPair e c c1 c3 s).2 := by
  have ux := he.unit 0
  have uz := he.unit 2
  have hxz := eig_orth hA (he.eigenvector 0) (he.eigenvector 2) h02.ne
  have hsp := spectral3 hA (he.eigenvector 0) (he.eigenvector 2) ux uz hxz (trace_three he.eigenvalues)
  have form : ∀ s : ℝ, s * s = 1 → _ := fun s hs => am_formula hA he h0 h02 hle hge hs hc hc1 hc3
  rw [h1, one_smul] at hsp
  set x := e.vecs 0 with hx
  set z := e.vecs 2 with hz
  have hzx : z ⬝ᵥ x = 0 := by rw [dotProduct_comm]; exact hxz
  have hcomp := frame_complete uz ux hzx
  set w := z ⨯₃ x with hw
  have hwx : x ⬝ᵥ w = 0 := by rw [hw, dot3]; simp [cross_apply]; ring
  have hwz : z ⬝ᵥ w = 0 := by rw [hw, dot3]; simp [cross_apply]; ring
  have uw : w ⬝ᵥ w = 1 := by rw [hw, cross_norm uz hzx, ux]
  have hone : (1 : Mat3) = vecMulVec x x + vecMulVec w w + vecMulVec z z := by
    simp only [outer_eq] at hcomp
    rw [hcomp]; abel
  have hexp : ∀ y : V3, y = (x ⬝ᵥ y) • x + (w ⬝ᵥ y) • w + (z ⬝ᵥ y) • z := by
    intro y
    have h1 := congrArg (fun M : Mat3 => M *ᵥ y) hone
    simp only [one_mulVec, add_mulVec, vecMulVec_mulVec] at h1
    simpa using h1
  have hdot : ∀ y y' : V3, y ⬝ᵥ y' = (x ⬝ᵥ y) * (x ⬝ᵥ y') + (w ⬝ᵥ y) * (w ⬝ᵥ y') + (z ⬝ᵥ y) * (z ⬝ᵥ y') := by
    intro y y'
    conv_lhs => rw [hexp y]
    simp only [add_dotProduct, smul_dotProduct, smul_eq_mul]
  -- the equation as a quadratic form
  have heq := hbm.2
  rw [dyad_square, hsp] at heq
  have heq := add_left_cancel (heq.trans (add_assoc _ _ _))
  have form2 : ∀ p q : V3, (p ⬝ᵥ m) * (b ⬝ᵥ q) + (p ⬝ᵥ b) * (m ⬝ᵥ q) + (b ⬝ᵥ b) * ((p ⬝ᵥ m) * (m ⬝ᵥ q)) =
      (e.vals 0 - 1) * ((p ⬝ᵥ x) * (x ⬝ᵥ q)) + (e.vals 2 - 1) * ((p ⬝ᵥ z) * (z ⬝ᵥ q)) := by
    intro p q
    have := congrArg (fun M : Mat3 => p ⬝ᵥ M *ᵥ q) heq
    simp only [add_mulVec, smul_mulVec, vecMulVec_mulVec, dotProduct_add, dotProduct_smul, smul_eq_mul] at this
    simp only [op_smul_eq_smul, smul_eq_mul] at this
    linear_combination this
  have cm : ∀ p q : V3, p ⬝ᵥ q = q ⬝ᵥ p := fun p q => dotProduct_comm p q
  have exx := form2 x x
  have ezz := form2 z z
  have eww := form2 w w
  have exz := form2 x z
  have exw := form2 x w
  have ezw := form2 z w
  have hmm := hbm.1
  rw [hdot m m] at hmm
  have hbb := hdot b b
  rw [hdot m b] at hpos
  rw [cm b x, cm m x] at exx
  rw [cm b z, cm m z] at ezz exz
  rw [cm b w, cm m w] at eww exw ezw
  rw [cm w x, cm w z, hwx, hwz] at eww
  rw [hwx, hwz] at exw ezw
  rw [ux, hxz] at exx
  rw [uz, hzx] at ezz
  rw [ux, uz, hxz] at exz
  set t := b ⬝ᵥ b with ht
  set l0 := e.vals 0 with hl0
  set l2 := e.vals 2 with hl2
  have em := hexp m
  have eb := hexp b
  have al2 : Real.sqrt l0 ^ 2 = l0 := Real.sq_sqrt h0.le
  have ga2 : Real.sqrt l2 ^ 2 = l2 := Real.sq_sqrt (h0.trans h02).le
  obtain ⟨hmw, hbw, hbx', hbz', hmx2, hmz2⟩ := am_algebra h02 hge al2 ga2 (Real.sqrt_pos.2 h0)
    (Real.sqrt_pos.2 (h0.trans h02)) (by linear_combination exx) (by linear_combination ezz)
    (by linear_combination eww) (by linear_combination exz) (by linear_combination exw)
    (by linear_combination ezw) hmm hbb hpos
  rw [hmw] at em
  rw [hbw] at eb
  set mx := x ⬝ᵥ m
  set mz := z ⬝ᵥ m
  set bx := x ⬝ᵥ b
  set bz := z ⬝ᵥ b
  -- the squares of the components of `m`
  have cpos : 0 < c := by rw [hc]; exact Real.sqrt_pos.2 (by linarith)
  have c2 : c ^ 2 = l2 - l0 := by rw [hc, Real.sq_sqrt (by linarith)]
  have c12 : c1 ^ 2 = 1 - l0 := by rw [hc1, Real.sq_sqrt (by linarith)]
  have c32 : c3 ^ 2 = l2 - 1 := by rw [hc3, Real.sq_sqrt (by linarith)]
  have hu : mx ^ 2 = (c1 / c) ^ 2 := by
    rw [div_pow, c12, c2, ← hmx2, mul_comm, mul_div_assoc, div_self (by linarith), mul_one]
  have hv : mz ^ 2 = (c3 / c) ^ 2 := by
    rw [div_pow, c32, c2, ← hmz2, mul_comm, mul_div_assoc, div_self (by linarith), mul_one]
  have em' : m = mx • x + mz • z := by simpa using em
  have eb' : b = bx • x + bz • z := by simpa using eb
  have fin : ∀ s r : ℝ, s * s = 1 → r * r = 1 → mx = -(r * (c1 / c)) → mz = r * s * (c3 / c) →
      b = r • (amPair e c c1 c3 s).1 ∧ m = r • (amPair e c c1 c3 s).2 := by
    intro s r hs hr e1 e2
    obtain ⟨f2, f1⟩ := form s hs
    rw [f1, f2, em', eb', hbx', hbz', e1, e2]
    constructor
    · ext i
      simp only [Pi.add_apply, Pi.smul_apply, smul_eq_mul]
      ring
    · ext i
      simp only [Pi.add_apply, Pi.smul_apply, smul_eq_mul, Pi.neg_apply]
      ring
  rcases sq_eq_sq_iff_eq_or_eq_neg.1 hu with h | h <;> rcases sq_eq_sq_iff_eq_or_eq_neg.1 hv with h' | h'
  · exact ⟨-1, -1, .inr rfl, .inr rfl, fin (-1) (-1) (by norm_num) (by norm_num) (by rw [h]; ring) (by rw [h']; ring)⟩
  · exact ⟨1, -1, .inl rfl, .inr rfl, fin 1 (-1) (by norm_num) (by norm_num) (by rw [h]; ring) (by rw [h']; ring)⟩
  · exact ⟨1, 1, .inl rfl, .inl rfl, fin 1 1 (by norm_num) (by norm_num) (by rw [h]; ring) (by rw [h']; ring)⟩
  · exact ⟨-1, 1, .inr rfl, .inl rfl, fin (-1) 1 (by norm_num) (by norm_num) (by rw [h]; ring) (by rw [h']; ring)⟩

/-! ### rank-one connections -/

theorem rotation_of_gram {N M : Mat3} (hM : M.det ≠ 0) (h : Nᵀ * N = Mᵀ * M) (hd : 0 < N.det * M.det) :
    IsRotation (N * M⁻¹) := by
  have hu : IsUnit M.det := isUnit_iff_ne_zero.2 hM
  have h1 : (N * M⁻¹)ᵀ * (N * M⁻¹) = 1 := by
    rw [transpose_mul]
    calc (M⁻¹)ᵀ * Nᵀ * (N * M⁻¹) = (M⁻¹)ᵀ * (Nᵀ * N) * M⁻¹ := by simp only [Matrix.mul_assoc]
      _ = ((M⁻¹)ᵀ * Mᵀ) * (M * M⁻¹) := by rw [h]; simp only [Matrix.mul_assoc]
      _ = 1 := by rw [← transpose_mul, Matrix.mul_nonsing_inv _ hu, transpose_one, Matrix.one_mul]
  have h2 : (N * M⁻¹).det ^ 2 = 1 := by
    have := congrArg Matrix.det h1
    rw [det_mul, det_transpose, det_one] at this
    rw [sq]; exact this
  have h3 : 0 < (N * M⁻¹).det := by
    rw [det_mul, det_nonsing_inv, Ring.inverse_eq_inv']
    rcases lt_or_gt_of_ne hM with h | h
    · have : N.det < 0 := by nlinarith
      exact mul_pos_of_neg_of_neg this (inv_lt_zero.2 h)
    · have : 0 < N.det := by nlinarith
      exact mul_pos this (inv_pos.2 h)
  refine ⟨mul_eq_one_comm.1 h1, ?_⟩
  nlinarith

theorem gram_eigen_pos {M : Mat3} (hM : M.det ≠ 0) {l : Fin 3 → ℝ} (h : IsEigenvalues (Mᵀ * M) l)
    (i : Fin 3) : 0 < l i := by
  have hp : (Mᵀ * M).PosSemidef := by
    have := Matrix.posSemidef_conjTranspose_mul_self M
    rwa [Matrix.conjTranspose_eq_transpose_of_trivial] at this
  have h0 := eigenvalues_nonneg hp h
  have hd := det_three h
  rw [det_mul, det_transpose] at hd
  have hne : l 0 * l 1 * l 2 ≠ 0 := by rw [← hd]; exact mul_ne_zero hM hM
  refine lt_of_le_of_ne (h0 i) fun hi => hne ?_
  fin_cases i <;> simp at hi <;> rw [← hi] <;> ring

theorem gram_symm (M : Mat3) : (Mᵀ * M)ᵀ = Mᵀ * M := by
  rw [transpose_mul, transpose_transpose]

/-- Two matrices are rank-one connected exactly if the middle eigenvalue of the relative metric is one. -/
theorem rankOne_iff {F G : Mat3} (hF : F.det ≠ 0) (hd : 0 < F.det * G.det) {l : Fin 3 → ℝ}
    (hl : SortedEigenvalues ((G * F⁻¹)ᵀ * (G * F⁻¹)) l) : RankOneConnected F G ↔ l 1 = 1 := by
  have hFu : IsUnit F.det := isUnit_iff_ne_zero.2 hF
  have hG : G.det ≠ 0 := fun h => by rw [h, mul_zero] at hd; exact lt_irrefl _ hd
  set M := G * F⁻¹ with hMdef
  have hMF : M * F = G := by rw [hMdef, Matrix.mul_assoc, Matrix.nonsing_inv_mul _ hFu, Matrix.mul_one]
  have hMd : 0 < M.det := by
    have : M.det * F.det = G.det := by rw [← det_mul, hMF]
    rw [← this] at hd
    by_contra hc
    push Not at hc
    have := mul_nonpos_of_nonpos_of_nonneg hc (sq_nonneg F.det)
    nlinarith
  have hMu : IsUnit M.det := isUnit_iff_ne_zero.2 hMd.ne'
  constructor
  · rintro ⟨Q, a, n, hQ, h⟩
    -- the normal in the frame of `F`
    have hN : Q * M = 1 + vecMulVec a ((F⁻¹)ᵀ *ᵥ n) := by
      have h1 : Q * G = F + vecMulVec a n := by rw [← h]; abel
      calc Q * M = Q * G * F⁻¹ := by rw [hMdef, Matrix.mul_assoc]
        _ = 1 + vecMulVec a ((F⁻¹)ᵀ *ᵥ n) := by
          rw [h1, add_mul, Matrix.mul_nonsing_inv _ hFu, vecMulVec_mul, mulVec_transpose]
    have hC : Mᵀ * M = (1 + vecMulVec ((F⁻¹)ᵀ *ᵥ n) a) * (1 + vecMulVec a ((F⁻¹)ᵀ *ᵥ n)) := by
      have hQ' : Qᵀ * Q = 1 := mul_eq_one_comm.1 hQ.1
      have : (Q * M)ᵀ * (Q * M) = Mᵀ * M := by
        rw [transpose_mul, Matrix.mul_assoc, ← Matrix.mul_assoc Qᵀ, hQ', Matrix.one_mul]
      rw [← this, hN, dyad_transpose]
    rw [hC] at hl
    exact mid_one hl
  · intro h1
    have hpos := gram_eigen_pos hMd.ne' hl.2
    have h01 : l 0 ≤ l 1 := hl.1 (by decide)
    have h12 : l 1 ≤ l 2 := hl.1 (by decide)
    -- an exact factorisation
    have key : ∃ b m : V3, (1 + vecMulVec m b : Mat3) * (1 + vecMulVec b m) = Mᵀ * M ∧
        0 < 1 + m ⬝ᵥ b := by
      rcases eq_or_lt_of_le (h01.trans h12) with h02 | h02
      · refine ⟨0, 0, ?_, by simp⟩
        have hH : (Mᵀ * M).IsHermitian := by
          rw [Matrix.IsHermitian, Matrix.conjTranspose_eq_transpose_of_trivial]; exact gram_symm M
        rw [eq_one_of_eigenvalues hH hl.2 (by
          intro i
          fin_cases i
          · show l 0 = 1; linarith
          · exact h1
          · show l 2 = 1; linarith)]
        simp
      · obtain ⟨eig, heig⟩ := exists_eig
        obtain ⟨hs, hmono⟩ := sortEig_spec (heig _ (gram_symm M))
        have hu := sorted_unique hl ⟨hmono, hs.eigenvalues⟩
        rw [hu] at h1 h01 h12 h02 hpos
        obtain ⟨-, h2, h3⟩ := am_solves (gram_symm M) hs h1 (hpos 0) h02 (by linarith) (by linarith)
          (s := 1) (by norm_num) rfl rfl rfl
        exact ⟨_, _, h2.2, h3⟩
    obtain ⟨b, m, hC, hbm⟩ := key
    have hrot : IsRotation ((1 + vecMulVec b m) * M⁻¹) := by
      refine rotation_of_gram hMd.ne' ?_ ?_
      · rw [dyad_transpose, hC]
      · rw [det_one_add_dyad]; exact mul_pos hbm hMd
    refine ⟨_, b, Fᵀ *ᵥ m, hrot, ?_⟩
    rw [← hMF, ← Matrix.mul_assoc, Matrix.mul_assoc _ M⁻¹ M, Matrix.nonsing_inv_mul _ hMu, Matrix.mul_one,
      add_mul, Matrix.one_mul, vecMulVec_mul, ← mulVec_transpose]
    abel

end Verif.Lemmas
