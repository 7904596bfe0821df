import Verif.Props.LatticeGroups

/-!
# Property C88: small errors in the base vectors do not change the symmetry groups
-/

namespace Verif.Props

open Matrix Verif.Model Verif.Spec Verif.Lemmas

variable {n : ℕ}

/-- All absolute row sums are at most `c`. -/
def RowSums (A : Matrix (Fin n) (Fin n) ℝ) (c : ℝ) : Prop := ∀ i, ∑ j, |A i j| ≤ c

/-- Every candidate is a symmetry of the lattice, or fails to be one by more than the tolerances of the code and
a margin `δ`: some coefficient of the images of the base vectors is that far from all integers. -/
def SeparatedBy (δ : ℝ) (E : Matrix (Fin n) (Fin n) ℝ) (G : List (Matrix (Fin n) (Fin n) ℝ)) : Prop :=
  ∀ Q ∈ G, InPointGroup E Q ∨
    ∃ i j, ∀ z : ℤ, 1 / 10 ^ 8 + 1 / 10 ^ 5 * |(z : ℝ)| + δ < |(E⁻¹ * (Q * E)) i j - z|

section norm

attribute [local instance] Matrix.linftyOpNormedRing Matrix.linftyOpNormedAddCommGroup

theorem rowSums_iff {A : Matrix (Fin n) (Fin n) ℝ} {c : ℝ} (hc : 0 ≤ c) : RowSums A c ↔ ‖A‖ ≤ c := by
  rw [Matrix.linfty_opNorm_def]
  lift c to NNReal using hc
  rw [NNReal.coe_le_coe, Finset.sup_le_iff]
  unfold RowSums
  simp only [Finset.mem_univ, true_implies]
  refine forall_congr' fun i => ?_
  rw [← NNReal.coe_le_coe]
  push_cast
  simp only [Real.norm_eq_abs]

theorem entry_le {A : Matrix (Fin n) (Fin n) ℝ} {c : ℝ} (hA : RowSums A c) (i j : Fin n) : |A i j| ≤ c :=
  (Finset.single_le_sum (f := fun j => |A i j|) (fun _ _ => abs_nonneg _) (Finset.mem_univ j)).trans (hA i)

theorem det_one_add {F : Matrix (Fin n) (Fin n) ℝ} {φ : ℝ} (h0 : 0 ≤ φ) (hF : RowSums F φ) (hφ : φ ≤ 1 / 2) :
    (1 + F).det ≠ 0 := by
  intro h
  obtain ⟨v, hv, he⟩ := Matrix.exists_mulVec_eq_zero_iff.mpr h
  have e1 : v = -(F *ᵥ v) := by
    rw [Matrix.add_mulVec, Matrix.one_mulVec] at he
    exact eq_neg_of_add_eq_zero_left he
  have e2 : ‖v‖ ≤ ‖F‖ * ‖v‖ := by
    calc ‖v‖ = ‖F *ᵥ v‖ := by conv_lhs => rw [e1, norm_neg]
      _ ≤ _ := Matrix.linfty_opNorm_mulVec F v
  have e3 := (rowSums_iff h0).mp hF
  have : 0 < ‖v‖ := norm_pos_iff.mpr hv
  nlinarith

/-- How far the coefficients of the images of the base vectors move. -/
theorem conj_moves {E F Q : Matrix (Fin n) (Fin n) ℝ} (hE : E.det ≠ 0) {φ K : ℝ} (h0 : 0 ≤ φ) (hK0 : 0 ≤ K)
    (hF : RowSums F φ) (hφ : φ ≤ 1 / 2) (hK : RowSums (E⁻¹ * (Q * E)) K) (i j : Fin n) :
    |((E * (1 + F))⁻¹ * (Q * (E * (1 + F)))) i j - (E⁻¹ * (Q * E)) i j| ≤ 4 * φ * K := by
  set M := E⁻¹ * (Q * E) with hM
  set M' := (E * (1 + F))⁻¹ * (Q * (E * (1 + F))) with hM'
  have hd := det_one_add h0 hF hφ
  have e1 : (1 + F) * M' = M * (1 + F) := by
    rw [hM', hM, Matrix.mul_inv_rev]
    simp only [← Matrix.mul_assoc]
    rw [Matrix.mul_nonsing_inv _ (isUnit_det_of_ne hd), Matrix.one_mul]
  have e2 : M' - M = (M * F - F * M) - F * (M' - M) := by
    have : M' + F * M' = M + M * F := by
      rw [Matrix.add_mul, Matrix.one_mul, Matrix.mul_add, Matrix.mul_one] at e1
      exact e1
    rw [Matrix.mul_sub]
    have h2 : M' = M + M * F - F * M' := eq_sub_of_add_eq this
    nth_rewrite 1 [h2]
    abel
  have nF := (rowSums_iff h0).mp hF
  have nM := (rowSums_iff hK0).mp hK
  have n1 : ‖M' - M‖ ≤ (‖M‖ * ‖F‖ + ‖F‖ * ‖M‖) + ‖F‖ * ‖M' - M‖ := by
    calc ‖M' - M‖ = ‖(M * F - F * M) - F * (M' - M)‖ := by rw [← e2]
      _ ≤ ‖M * F - F * M‖ + ‖F * (M' - M)‖ := norm_sub_le _ _
      _ ≤ (‖M * F‖ + ‖F * M‖) + ‖F * (M' - M)‖ := by gcongr; exact norm_sub_le _ _
      _ ≤ _ := by gcongr <;> exact norm_mul_le _ _
  have p1 := norm_nonneg M
  have p2 := norm_nonneg F
  have p3 := norm_nonneg (M' - M)
  have hMF : ‖F‖ * ‖M‖ ≤ φ * K := mul_le_mul nF nM p1 h0
  have n2 : ‖M' - M‖ ≤ 4 * φ * K := by nlinarith
  exact entry_le ((rowSums_iff (by positivity)).mpr n2) i j

end norm

/-- The candidates recognised are the same, and so are their integer matrices. -/
theorem passes_perturbed {E F : Matrix (Fin n) (Fin n) ℝ} (hE : E.det ≠ 0) {φ K δ : ℝ} (h0 : 0 ≤ φ) (hK0 : 0 ≤ K)
    (hF : RowSums F φ) (hφ : φ ≤ 1 / 2) {G : List (Matrix (Fin n) (Fin n) ℝ)}
    (hK : ∀ Q ∈ G, RowSums (E⁻¹ * (Q * E)) K) (hδ : 4 * φ * K ≤ δ) (hδ' : δ ≤ 1 / 10 ^ 8)
    (hs : SeparatedBy δ E G) (Q : NMat n) (hQ : Q.val ∈ G) :
    (passes .code (E * (1 + F)) Q = passes .exact E Q) ∧
      (passes .exact E Q = true →
        rintMat ((E * (1 + F))⁻¹ * (Q.val * (E * (1 + F)))) = rintMat (E⁻¹ * (Q.val * E)) ∧
        rintMat ((E * (1 + F))⁻¹ * (-Q.val * (E * (1 + F)))) = rintMat (E⁻¹ * (-Q.val * E))) := by
  have hm := fun i j => (conj_moves (Q := Q.val) hE h0 hK0 hF hφ (hK _ hQ) i j).trans hδ
  have near : InPointGroup E Q.val → ∀ i j, ∃ z : ℤ, (E⁻¹ * (Q.val * E)) i j = z ∧
      |((E * (1 + F))⁻¹ * (Q.val * (E * (1 + F)))) i j - z| ≤ 1 / 10 ^ 8 := by
    intro h i j
    obtain ⟨z, hz⟩ := ((inPointGroup_iff hE).mp h).2 i j
    refine ⟨z, hz, ?_⟩
    rw [← hz]
    exact (hm i j).trans hδ'
  constructor
  · rcases hs _ hQ with h | ⟨i, j, h⟩
    · rw [(passes_exact hE Q).mpr h]
      have e1 : eqTest .code (E * (1 + F)) (Q.val * (E * (1 + F))) = true := by
        refine eqTest_code_of_near fun i j => ?_
        obtain ⟨z, -, hz⟩ := near h i j
        have hz0 := abs_nonneg (z : ℝ)
        exact ⟨z, hz.trans_lt (by norm_num), hz.trans (by linarith [mul_nonneg (show (0 : ℝ) ≤ 1 / 10 ^ 5 by norm_num) hz0])⟩
      cases Q with
      | int M => simp only [passes, Bool.and_eq_true]; exact ⟨inO3_of_ortho tolOK_code _ h.1, e1⟩
      | float M => simp only [passes, Bool.and_eq_true]; exact ⟨inO3_of_ortho tolOK_code _ h.1, e1⟩
    · have e1 : eqTest .code (E * (1 + F)) (Q.val * (E * (1 + F))) = false := by
        refine eqTest_of_far (.inl rfl) (i := i) (j := j) fun z => ?_
        have h1 := h z
        have h2 := hm i j
        have h3 := abs_sub_abs_le_abs_sub ((E⁻¹ * (Q.val * E)) i j - z)
          (((E * (1 + F))⁻¹ * (Q.val * (E * (1 + F)))) i j - z)
        rw [sub_sub_sub_cancel_right, abs_sub_comm ((E⁻¹ * (Q.val * E)) i j)
          (((E * (1 + F))⁻¹ * (Q.val * (E * (1 + F)))) i j)] at h3
        linarith
      have e2 : passes .exact E Q = false := by
        rw [Bool.eq_false_iff, Ne, passes_exact hE Q]
        intro hp
        obtain ⟨z, hz⟩ := ((inPointGroup_iff hE).mp hp).2 i j
        have h1 := h z
        rw [hz, sub_self, abs_zero] at h1
        have := abs_nonneg (z : ℝ)
        have hd0 : 0 ≤ δ := le_trans (by positivity) hδ
        nlinarith
      rw [e2]
      cases Q with
      | int M => exact Bool.and_eq_false_iff.mpr (.inr e1)
      | float M => exact Bool.and_eq_false_iff.mpr (.inr e1)
  · intro hp
    constructor
    · ext i j
      obtain ⟨z, hz, hz'⟩ := near ((passes_exact hE Q).mp hp) i j
      simp only [rintMat]
      rw [roundEven_of_near (z := z) (hz'.trans_lt (by norm_num)), hz, roundEven_intCast]
    · ext i j
      obtain ⟨z, hz, hz'⟩ := near ((passes_exact hE Q).mp hp) i j
      simp only [rintMat, Matrix.neg_mul, Matrix.mul_neg, Matrix.neg_apply]
      rw [roundEven_of_near (z := -z), hz, ← Int.cast_neg, roundEven_intCast]
      refine lt_of_le_of_lt ?_ (show (1 : ℝ) / 10 ^ 8 < 1 / 2 by norm_num)
      rw [← abs_neg]
      push_cast
      rw [show ∀ x y : ℝ, -(-x - -y) = x - y from fun x y => by ring]
      exact hz'

theorem select_perturbed {E E' : Matrix (Fin n) (Fin n) ℝ} (hE : E.det ≠ 0) (hE' : E'.det ≠ 0)
    {G H : List (NMat n)} (k : ℕ) (hG : ∀ Q ∈ G, passes .code E' Q = passes .exact E Q)
    (hH : ∀ Q ∈ H, passes .code E' Q = passes .exact E Q) :
    Lat.select .code ⟨n, E'⟩ G H k = Lat.select .exact ⟨n, E⟩ G H k := by
  simp only [Lat.select, filter_ok .code hE', filter_ok .exact hE]
  rw [List.filter_congr hG, List.filter_congr hH]

theorem select_recognised {t : Tol} {E : Matrix (Fin n) (Fin n) ℝ} (hE : E.det ≠ 0) {G H : List (NMat n)} {k : ℕ}
    {g : List (Matrix (Fin n) (Fin n) ℝ)} (h : Lat.select t ⟨n, E⟩ G H k = .ok g) :
    ∀ Q ∈ g, ∃ R, (R ∈ G ∨ R ∈ H) ∧ R.val = Q ∧ passes t E R = true := by
  obtain ⟨T, hT, h'⟩ := select_ok t hE G H k
  rw [h] at h'
  injection h' with h'
  subst h'
  intro Q hQ
  obtain ⟨R, hR, rfl⟩ := List.mem_map.mp hQ
  rw [List.mem_filter] at hR
  refine ⟨R, ?_, rfl, hR.2⟩
  rcases hT with rfl | rfl
  · exact .inl hR.1
  · exact .inr hR.1

/-- **C88** in three dimensions.  Let every candidate be a symmetry of the lattice with base `E` or fail to be one
by more than the tolerances and the margin `δ`.  Then the four groups computed for every base that differs from `E`
by an error `E * F` with `4 * φ * K ≤ δ`, where `φ` and `K` bound the row sums of `F` and of the candidates in
lattice coordinates, are exactly those of `E`. -/
theorem C88_perturbed_3d (E F : Matrix (Fin 3) (Fin 3) ℝ) (hE : E.det ≠ 0) (φ K δ : ℝ) (h0 : 0 ≤ φ) (hK0 : 0 ≤ K)
    (hF : RowSums F φ) (hφ : φ ≤ 1 / 2) (hK : ∀ Q ∈ candidates3, RowSums (E⁻¹ * (Q * E)) K)
    (hδ : 4 * φ * K ≤ δ) (hδ' : δ ≤ 1 / 10 ^ 8) (hs : SeparatedBy δ E candidates3) :
    Lat.laueGroup .code ⟨3, E + E * F⟩ = Lat.laueGroup .exact ⟨3, E⟩ ∧
    Lat.pointGroup .code ⟨3, E + E * F⟩ = Lat.pointGroup .exact ⟨3, E⟩ ∧
    Lat.specialLatticeGroup .code ⟨3, E + E * F⟩ = Lat.specialLatticeGroup .exact ⟨3, E⟩ ∧
    Lat.latticeGroup .code ⟨3, E + E * F⟩ = Lat.latticeGroup .exact ⟨3, E⟩ := by
  have eF : E + E * F = E * (1 + F) := by rw [Matrix.mul_add, Matrix.mul_one]
  rw [eF]
  have hE' : (E * (1 + F)).det ≠ 0 := by
    rw [Matrix.det_mul]
    exact mul_ne_zero hE (det_one_add h0 hF hφ)
  have key := fun (Q : NMat 3) (hQ : Q.val ∈ candidates3) =>
    passes_perturbed hE h0 hK0 hF hφ hK hδ hδ' hs Q hQ
  have hc : ∀ Q : NMat 3, Q ∈ cubicLaue.map NMat.int ∨ Q ∈ hexLaue → Q.val ∈ candidates3 := by
    rintro Q (hQ | hQ)
    · obtain ⟨R, hR, rfl⟩ := List.mem_map.mp hQ
      exact List.mem_append_left _ (List.mem_map.mpr ⟨R, hR, rfl⟩)
    · exact List.mem_append_right _ (List.mem_map.mpr ⟨Q, hQ, rfl⟩)
  have h1 : Lat.laueGroup .code ⟨3, E * (1 + F)⟩ = Lat.laueGroup .exact ⟨3, E⟩ := by
    rw [laueGroup_three, laueGroup_three]
    exact select_perturbed hE hE' 4 (fun Q hQ => (key Q (hc Q (.inl hQ))).1)
      (fun Q hQ => (key Q (hc Q (.inr hQ))).1)
  obtain ⟨g, hg, -, -⟩ := C15_laue_group_3d .exact E hE (.inl rfl)
  have hg' := hg
  rw [laueGroup_three] at hg'
  have hconj : ∀ Q ∈ g, Lat.conj ⟨3, E * (1 + F)⟩ Q = Lat.conj ⟨3, E⟩ Q ∧
      Lat.conj ⟨3, E * (1 + F)⟩ (-Q) = Lat.conj ⟨3, E⟩ (-Q) := by
    intro Q hQ
    obtain ⟨R, hR, rfl, hp⟩ := select_recognised hE hg' Q hQ
    exact (key R (hc R hR)).2 hp
  have h2 : Lat.pointGroup .code ⟨3, E * (1 + F)⟩ = Lat.pointGroup .exact ⟨3, E⟩ := by
    have h1' : Lat.laueGroup .code ⟨3, E * (1 + F)⟩ = .ok g := h1.trans hg
    simp only [Lat.pointGroup, if_pos, h1', hg]
  refine ⟨h1, h2, ?_, ?_⟩
  · simp only [Lat.specialLatticeGroup, h1, hg]
    congr 1
    exact List.map_congr_left fun Q hQ => (hconj Q hQ).1
  · have hp : Lat.pointGroup .exact ⟨3, E⟩ = .ok (g ++ g.map (fun Q => -Q)) := by
      simp only [Lat.pointGroup, if_pos, hg]
    simp only [Lat.latticeGroup, h2, hp]
    congr 1
    refine List.map_congr_left fun Q hQ => ?_
    rcases List.mem_append.mp hQ with h | h
    · exact (hconj Q h).1
    · obtain ⟨R, hR, rfl⟩ := List.mem_map.mp h
      exact (hconj R hR).2

/-- **C88** in two dimensions. -/
theorem C88_perturbed_2d (E F : Matrix (Fin 2) (Fin 2) ℝ) (hE : E.det ≠ 0) (φ K δ : ℝ) (h0 : 0 ≤ φ) (hK0 : 0 ≤ K)
    (hF : RowSums F φ) (hφ : φ ≤ 1 / 2) (hK : ∀ Q ∈ candidates2, RowSums (E⁻¹ * (Q * E)) K)
    (hδ : 4 * φ * K ≤ δ) (hδ' : δ ≤ 1 / 10 ^ 8) (hs : SeparatedBy δ E candidates2) :
    Lat.laueGroup .code ⟨2, E + E * F⟩ = Lat.laueGroup .exact ⟨2, E⟩ ∧
    Lat.pointGroup .code ⟨2, E + E * F⟩ = Lat.pointGroup .exact ⟨2, E⟩ ∧
    Lat.specialLatticeGroup .code ⟨2, E + E * F⟩ = Lat.specialLatticeGroup .exact ⟨2, E⟩ ∧
    Lat.latticeGroup .code ⟨2, E + E * F⟩ = Lat.latticeGroup .exact ⟨2, E⟩ := by
  have eF : E + E * F = E * (1 + F) := by rw [Matrix.mul_add, Matrix.mul_one]
  rw [eF]
  have hE' : (E * (1 + F)).det ≠ 0 := by
    rw [Matrix.det_mul]
    exact mul_ne_zero hE (det_one_add h0 hF hφ)
  have key := fun (Q : NMat 2) (hQ : Q.val ∈ candidates2) =>
    passes_perturbed hE h0 hK0 hF hφ hK hδ hδ' hs Q hQ
  have hc : ∀ Q : NMat 2, Q ∈ squareExt.map NMat.int ∨ Q ∈ hex2dExt → Q.val ∈ candidates2 := by
    rintro Q (hQ | hQ)
    · obtain ⟨R, hR, rfl⟩ := List.mem_map.mp hQ
      exact List.mem_append_left _ (List.mem_map.mpr ⟨R, hR, rfl⟩)
    · exact List.mem_append_right _ (List.mem_map.mpr ⟨Q, hQ, rfl⟩)
  have hc' : ∀ Q : NMat 2, Q ∈ squareRot.map NMat.int ∨ Q ∈ hex2dRot → Q.val ∈ candidates2 := by
    rintro Q (hQ | hQ)
    · obtain ⟨R, hR, rfl⟩ := List.mem_map.mp hQ
      exact hc _ (.inl (List.mem_map.mpr ⟨R, squareRot_sub R hR, rfl⟩))
    · exact hc _ (.inr (hex2dRot_sub Q hQ))
  have h1 : Lat.laueGroup .code ⟨2, E * (1 + F)⟩ = Lat.laueGroup .exact ⟨2, E⟩ := by
    rw [laueGroup_two, laueGroup_two]
    exact select_perturbed hE hE' 2 (fun Q hQ => (key Q (hc' Q (.inl hQ))).1)
      (fun Q hQ => (key Q (hc' Q (.inr hQ))).1)
  have h2 : Lat.pointGroup .code ⟨2, E * (1 + F)⟩ = Lat.pointGroup .exact ⟨2, E⟩ := by
    rw [pointGroup_two, pointGroup_two]
    exact select_perturbed hE hE' 4 (fun Q hQ => (key Q (hc Q (.inl hQ))).1)
      (fun Q hQ => (key Q (hc Q (.inr hQ))).1)
  refine ⟨h1, h2, ?_, ?_⟩
  · obtain ⟨g, hg, -, -⟩ := C15_laue_group_2d .exact E hE (.inl rfl)
    simp only [Lat.specialLatticeGroup, h1, hg]
    rw [laueGroup_two] at hg
    congr 1
    refine List.map_congr_left fun Q hQ => ?_
    obtain ⟨R, hR, rfl, hp⟩ := select_recognised hE hg Q hQ
    exact ((key R (hc' R hR)).2 hp).1
  · obtain ⟨g, hg, -⟩ := C16_point_group_2d_partial .exact E hE (.inl rfl)
    simp only [Lat.latticeGroup, h2, hg]
    rw [pointGroup_two] at hg
    congr 1
    refine List.map_congr_left fun Q hQ => ?_
    obtain ⟨R, hR, rfl, hp⟩ := select_recognised hE hg Q hQ
    exact ((key R (hc R hR)).2 hp).1

/-! ### A cell that is cubic up to an error of one part in a thousand million -/

/-- a number strictly between two small integers is far from all integers -/
theorem far_by {x : ℝ} (h : x = 1 / 2 ∨ x = -1 / 2) (z : ℤ) :
    1 / 10 ^ 8 + 1 / 10 ^ 5 * |(z : ℝ)| + 1 / 10 ^ 8 < |x - z| := by
  have hz : (1 : ℝ) / 2 ≤ |x - z| := by
    rcases le_or_gt z 0 with hz | hz
    · rcases hz.lt_or_eq with hz | rfl
      · have : (z : ℝ) ≤ -1 := by exact_mod_cast (show z ≤ -1 by omega)
        rw [abs_of_nonneg (by rcases h with rfl | rfl <;> linarith)]
        rcases h with rfl | rfl <;> linarith
      · rcases h with rfl | rfl <;> norm_num [abs_of_nonneg]
    · have : (1 : ℝ) ≤ z := by exact_mod_cast hz
      rw [abs_sub_comm, abs_of_nonneg (by rcases h with rfl | rfl <;> linarith)]
      rcases h with rfl | rfl <;> linarith
  have hzx : |(z : ℝ)| ≤ |x - z| + 1 / 2 := by
    have := abs_sub_abs_le_abs_sub (z : ℝ) x
    rw [abs_sub_comm] at this
    rcases h with rfl | rfl
    · rw [abs_of_nonneg (show (0 : ℝ) ≤ 1 / 2 by norm_num)] at this
      linarith
    · rw [show |(-1 / 2 : ℝ)| = 1 / 2 by rw [abs_of_nonpos (by norm_num)]; norm_num] at this
      linarith
  norm_num
  linarith

theorem hexS_abs : |hexS| ≤ 1 := by
  have := hexS_bounds
  rw [abs_of_nonneg (by linarith)]
  linarith

theorem cubic_rows : ∀ Q ∈ candidates3, RowSums Q 2 := by
  intro Q hQ
  rcases List.mem_append.mp hQ with hQ | hQ
  · obtain ⟨R, hR, rfl⟩ := List.mem_map.mp hQ
    have h : ∀ R ∈ cubicLaue, ∀ i : Fin 3, ∑ j, |R i j| ≤ 2 := by unfold cubicLaue; decide +kernel
    intro i
    have := h R hR i
    simp only [toR, Matrix.map_apply]
    exact_mod_cast this
  · have hS := hexS_abs
    simp only [hexLaue, List.map_cons, List.map_nil, List.mem_cons, List.not_mem_nil, or_false,
      NMat.val] at hQ
    rcases hQ with rfl | rfl | rfl | rfl | rfl | rfl | rfl | rfl | rfl | rfl | rfl | rfl <;>
      (intro i; fin_cases i <;> simp [Fin.sum_univ_three, toR, hexC_eq, abs_of_nonneg] <;> norm_num <;> linarith)

theorem cubic_separated : SeparatedBy (1 / 10 ^ 8) (1 : Matrix (Fin 3) (Fin 3) ℝ) candidates3 := by
  intro Q hQ
  rcases List.mem_append.mp hQ with hQ | hQ
  · obtain ⟨R, hR, rfl⟩ := List.mem_map.mp hQ
    exact .inl (inPointGroup_unit (cubic_ortho R hR))
  · have half : ∀ Q : Matrix (Fin 3) (Fin 3) ℝ, Q 0 0 = 1 / 2 ∨ Q 0 0 = -1 / 2 →
        ∃ i j : Fin 3, ∀ z : ℤ, 1 / 10 ^ 8 + 1 / 10 ^ 5 * |(z : ℝ)| + 1 / 10 ^ 8 <
          |((1 : Matrix (Fin 3) (Fin 3) ℝ)⁻¹ * (Q * 1) : Matrix (Fin 3) (Fin 3) ℝ) i j - z| := by
      intro Q hQ
      refine ⟨0, 0, ?_⟩
      rw [inv_one, Matrix.one_mul, Matrix.mul_one]
      exact far_by hQ
    simp only [hexLaue, List.map_cons, List.map_nil, List.mem_cons, List.not_mem_nil, or_false,
      NMat.val] at hQ
    rcases hQ with rfl | rfl | rfl | rfl | rfl | rfl | rfl | rfl | rfl | rfl | rfl | rfl
    · exact .inl (inPointGroup_unit (by decide +kernel))
    · exact .inl (inPointGroup_unit (by decide +kernel))
    · exact .inl (inPointGroup_unit (by decide +kernel))
    · exact .inl (inPointGroup_unit (by decide +kernel))
    all_goals
      refine .inr (half _ ?_)
      first
        | (left; simp [hexC_eq]; done)
        | (right; simp [hexC_eq]; norm_num; done)

/-- The hypotheses of `C88_perturbed_3d` are met by a cell whose third edge is longer by one part in a thousand
million. -/
example : Lat.latticeGroup .code ⟨3, 1 + 1 * Matrix.diagonal ![0, 0, 1 / 10 ^ 9]⟩
    = Lat.latticeGroup .exact ⟨3, 1⟩ := by
  refine (C88_perturbed_3d 1 (Matrix.diagonal ![0, 0, 1 / 10 ^ 9]) (by simp) (1 / 10 ^ 9) 2 (1 / 10 ^ 8) (by norm_num)
    (by norm_num) ?_ (by norm_num) ?_ (by norm_num) le_rfl cubic_separated).2.2.2
  · intro i
    fin_cases i <;> simp [Fin.sum_univ_three, abs_of_nonneg]
  · intro Q hQ
    rw [inv_one, Matrix.one_mul, Matrix.mul_one]
    exact cubic_rows Q hQ

end Verif.Props
