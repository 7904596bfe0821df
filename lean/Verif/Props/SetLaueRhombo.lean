import Verif.Props.SetLaueSystems
import Verif.Lemmas.LLL

/-!
# C76: the rhombohedral type

The parameters `[2, 120]` in the table of `setLaue` describe a degenerate cell: three unit vectors at
120 degrees to each other lie in a plane.
-/

namespace Verif.Props

open Matrix Verif.Spec Verif.Model Verif.Lemmas

theorem cos_120 : Real.cos (radians 120) = -(1 / 2) := by
  have e : radians 120 = Real.pi - Real.pi / 3 := by unfold radians; ring
  rw [e, Real.cos_pi_sub, Real.cos_pi_div_three]

/-- The rhombohedral base with `q = √2 ty` and `w = tz`. -/
noncomputable def rhomboBase (k q w : ℝ) : M3 :=
  k • !![w - 2 * q, w + q, w + q; w + q, w - 2 * q, w + q; w + q, w + q, w - 2 * q]

theorem rhomboBase_det (k q w : ℝ) : (rhomboBase k q w).det = 27 * k ^ 3 * q ^ 2 * w := by
  simp [rhomboBase, Matrix.det_fin_three]
  ring

/-- C76 (negation): in exact arithmetic `setLaue(5)` always raises. -/
theorem C76_rhombohedral_fails (t : Tol) (py : Py) (m : Mart) :
    m.setLaue t py (.int 5) = .error .valueError := by
  have hp : laueParams.getD ((5 : ℤ) - 1).toNat .other = .list (.int [2, 120]) := rfl
  have hE : primBase3 py true 5 (Nums.int [2, 120]).get =
      some (rhomboBase (2 / Real.sqrt 3) (Real.sqrt 2 * Real.sqrt (1 / 4)) 0) := by
    have g0 : (Nums.int [2, 120]).get 0 = 2 := by simp [getD_get, Nums.vals]
    have g1 : (Nums.int [2, 120]).get 1 = 120 := by simp [getD_get, Nums.vals]
    simp only [primBase3, g0, g1, cos_120]
    norm_num
    ext i j
    fin_cases i <;> fin_cases j <;> simp [rhomboBase] <;> ring
  have hn : BLat.new py 5 (.list (.int [2, 120])) 3 = .error .valueError := by
    have hc : checkParam (.list (.int [2, 120])) = .ok (.int [2, 120]) := by
      simp [checkParam, Nums.vals]
    have hl : (Nums.int [2, 120]).vals.length = paramLen3.getD ((5 : ℤ) - 1).toNat 0 := rfl
    simp only [BLat.new, hc, show (Nums.int [2, 120]).isInt = true from rfl, hE, initBase_some]
    rw [if_pos trivial, if_neg (by norm_num), if_neg (by simp [hl]),
      if_pos (by rw [rhomboBase_det]; ring)]
  simp only [Mart.setLaue]
  rw [if_pos (by norm_num), hp, hn]

/-! ## The effect of rounding the cosine -/

/-- The sums of the rows and columns of the members of the cubic table. -/
theorem cubic_sums : ∀ Q ∈ cubicLaue, ∀ i j,
    (∃ e : ℤ, (e = 1 ∨ e = -1) ∧ ∑ l, Q i l = e ∧ ∑ l, Q l j = e ∧ ∑ l, ∑ l', Q l l' = 3 * e) ∨
    ((∑ l, Q i l = 1 ∨ ∑ l, Q i l = -1) ∧ (∑ l, Q l j = 1 ∨ ∑ l, Q l j = -1) ∧
      (∑ l, ∑ l', Q l l' = 1 ∨ ∑ l, ∑ l', Q l l' = -1)) := by
  have key : ∀ Q ∈ cubicLaue, ∀ i j,
    ((∑ l, Q i l = 1 ∧ ∑ l, Q l j = 1 ∧ ∑ l, ∑ l', Q l l' = 3) ∨
     (∑ l, Q i l = -1 ∧ ∑ l, Q l j = -1 ∧ ∑ l, ∑ l', Q l l' = -3)) ∨
    ((∑ l, Q i l = 1 ∨ ∑ l, Q i l = -1) ∧ (∑ l, Q l j = 1 ∨ ∑ l, Q l j = -1) ∧
      (∑ l, ∑ l', Q l l' = 1 ∨ ∑ l, ∑ l', Q l l' = -1)) := by
    unfold cubicLaue; decide +kernel
  intro Q hQ i j
  rcases key Q hQ i j with (⟨h1, h2, h3⟩ | ⟨h1, h2, h3⟩) | h
  · exact .inl ⟨1, .inl rfl, h1, h2, h3⟩
  · exact .inl ⟨-1, .inr rfl, h1, h2, h3⟩
  · exact .inr h

theorem cubic_entry : ∀ Q ∈ cubicLaue, ∀ i j, |Q i j| ≤ 1 := by
  unfold cubicLaue; decide +kernel

noncomputable def rhomboInv (k q w : ℝ) : M3 :=
  k⁻¹ • (Matrix.of fun i j => (w + q) / (9 * q * w) - if i = j then 1 / (3 * q) else 0)

theorem rhombo_left {k q w : ℝ} (hk : k ≠ 0) (hq : q ≠ 0) (hw : w ≠ 0) :
    rhomboInv k q w * rhomboBase k q w = 1 := by
  ext i j
  fin_cases i <;> fin_cases j <;>
    simp [rhomboInv, rhomboBase, Matrix.mul_apply, Fin.sum_univ_three] <;> field_simp <;> ring

theorem rhombo_entry {k q w : ℝ} (hk : k ≠ 0) (hq : q ≠ 0) (hw : w ≠ 0)
    (Q : Matrix (Fin 3) (Fin 3) ℤ) (i j : Fin 3) :
    ((rhomboBase k q w)⁻¹ * (toR Q * rhomboBase k q w)) i j = (Q i j : ℝ) +
      (w + q) / (9 * q * w) * ((w + q) * ((∑ l, ∑ l', Q l l' : ℤ) : ℝ) - 3 * w * ((∑ l, Q i l : ℤ) : ℝ)
        - 3 * q * ((∑ l, Q l j : ℤ) : ℝ)) := by
  rw [Matrix.inv_eq_left_inv (rhombo_left hk hq hw)]
  push_cast
  simp only [Fin.sum_univ_three]
  fin_cases i <;> fin_cases j <;>
    simp [rhomboInv, rhomboBase, toR, Matrix.mul_apply, Fin.sum_univ_three] <;> field_simp <;> ring

/-- An entry that is large passes the comparison with its rounded value, whatever it is. -/
theorem large_near {x : ℝ} (h : 60000 ≤ |x|) :
    |x - roundEven x| ≤ 1 / 10 ^ 8 + 1 / 10 ^ 5 * |(roundEven x : ℝ)| := by
  have h1 := roundEven_near x
  have h2 : |x| ≤ |(roundEven x : ℝ)| + |x - roundEven x| := by
    have := abs_sub_abs_le_abs_sub x (roundEven x : ℝ)
    linarith
  linarith

theorem rhombo_large {q w r c T y : ℝ} (hq : 7 / 10 ≤ q) (hq' : q ≤ 1) (hw : 0 < w)
    (hw' : w ≤ 11 / 10 ^ 7) (hr : r = 1 ∨ r = -1) (hc : c = 1 ∨ c = -1) (hT : T = 1 ∨ T = -1)
    (hy : |y| ≤ 1) :
    60000 ≤ |y + (w + q) / (9 * q * w) * ((w + q) * T - 3 * w * r - 3 * q * c)| := by
  have hp : 0 < 9 * q * w := by positivity
  have hA : 70000 ≤ (w + q) / (9 * q * w) := by
    rw [le_div_iff₀ hp]
    nlinarith
  have hB : 1 ≤ |(w + q) * T - 3 * w * r - 3 * q * c| := by
    rcases hr with rfl | rfl <;> rcases hc with rfl | rfl <;> rcases hT with rfl | rfl <;>
      first
        | (refine le_trans ?_ (le_abs_self _); linarith)
        | (refine le_trans ?_ (neg_le_abs _); linarith)
  have h1 : 70000 ≤ |(w + q) / (9 * q * w) * ((w + q) * T - 3 * w * r - 3 * q * c)| := by
    rw [abs_mul, abs_of_nonneg (by linarith)]
    nlinarith
  generalize (w + q) / (9 * q * w) * ((w + q) * T - 3 * w * r - 3 * q * c) = z at h1
  have h2 := abs_sub_abs_le_abs_sub z (-y)
  rw [abs_neg, sub_neg_eq_add] at h2
  rw [add_comm y z]
  linarith

/-- With a cell that is nearly flat, every rotation of the cubic table passes the test. -/
theorem rhombo_passes {k q w : ℝ} (hk : k ≠ 0) (hq : 7 / 10 ≤ q) (hq' : q ≤ 1) (hw : 0 < w)
    (hw' : w ≤ 11 / 10 ^ 7) : ∀ Q ∈ cubicLaue, passes .code (rhomboBase k q w) (.int Q) = true := by
  intro Q hQ
  have ho : toR Q * (toR Q)ᵀ = 1 := by
    have h1 := ((C19_cubic_complete Q).mp hQ).1
    have h2 := congrArg (toR (m := 3) (n := 3)) h1
    rw [toR_mul, toR_one] at h2
    rw [← h2]
    rfl
  have hq0 : q ≠ 0 := by linarith
  simp only [passes, Bool.and_eq_true]
  refine ⟨inO3_of_ortho tolOK_code _ ho, ?_⟩
  show eqTest .code (rhomboBase k q w) (toR Q * rhomboBase k q w) = true
  simp only [eqTest, decide_eq_true_eq]
  intro i j
  show |_ - ((roundEven _ : ℤ) : ℝ)| ≤ 1 / 10 ^ 8 + 1 / 10 ^ 5 * |((roundEven _ : ℤ) : ℝ)|
  rw [rhombo_entry hk hq0 hw.ne']
  rcases cubic_sums Q hQ i j with ⟨e, -, h1, h2, h3⟩ | ⟨h1, h2, h3⟩
  · rw [h1, h2, h3, show (Q i j : ℝ) + (w + q) / (9 * q * w) * ((w + q) * ((3 * e : ℤ) : ℝ) - 3 * w * (e : ℝ)
      - 3 * q * (e : ℝ)) = (Q i j : ℝ) by push_cast; ring, roundEven_intCast, sub_self, abs_zero]
    positivity
  · have cst : ∀ z : ℤ, z = 1 ∨ z = -1 → (z : ℝ) = 1 ∨ (z : ℝ) = -1 := by
      rintro z (rfl | rfl) <;> simp
    refine large_near (rhombo_large hq hq' hw hw' (cst _ h1) (cst _ h2) (cst _ h3) ?_)
    have := cubic_entry Q hQ i j
    rw [← Int.cast_abs]
    exact_mod_cast this

theorem cubicLaue_length : cubicLaue.length = 24 := by unfold cubicLaue; decide +kernel

/-- The bounds on the cosine of an angle just below 120 degrees. -/
theorem cos_near {θ : ℝ} (h1 : 120 - 1 / 10 ^ 10 ≤ θ) (h2 : θ < 120) :
    -(1 / 2) < Real.cos (radians θ) ∧ Real.cos (radians θ) ≤ -(1 / 2) + 18 / 10 ^ 13 := by
  have p1 := Real.pi_gt_d4
  have p2 := Real.pi_lt_d4
  have hd : radians 120 - radians θ = (120 - θ) * (Real.pi / 180) := by unfold radians; ring
  have hpos : 0 < radians θ := by unfold radians; have : 0 < θ := by linarith
                                  positivity
  have hle : radians 120 ≤ Real.pi := by unfold radians; linarith
  have hlt : radians θ < radians 120 := by nlinarith
  constructor
  · rw [← cos_120]
    exact Real.cos_lt_cos_of_nonneg_of_le_pi hpos.le hle hlt
  · have := Real.abs_cos_sub_cos_le (radians θ) (radians 120)
    rw [cos_120, abs_sub_comm (radians θ), abs_of_pos (by linarith : 0 < radians 120 - radians θ), hd] at this
    have h3 := le_trans (le_abs_self _) this
    have h4 : (120 - θ) * (Real.pi / 180) ≤ 1 / 10 ^ 10 * (Real.pi / 180) :=
      mul_le_mul_of_nonneg_right (by linarith) (by positivity)
    linarith

/-- C76 (negation), with the angle of the table perturbed as rounding does: for every angle just below
120 degrees the rhombohedral lattice is constructed, and the group computed for it consists of all 24
rotations of the cube, not of the 6 rotations of the rhombohedral system.  (The cosine of 120 degrees in
double precision lies above `-1/2`, so that this, and not the exception of `C76_rhombohedral_fails`, is
what a machine computes.) -/
theorem C76_rhombohedral_rounding_fails (py : Py) {θ : ℝ} (h1 : 120 - 1 / 10 ^ 10 ≤ θ) (h2 : θ < 120) :
    ∃ L, BLat.new py 5 (.list (.float [2, θ])) 3 = .ok L ∧
      L.laue3 .code = .ok (cubicLaue.map toR) ∧
      ((cubicLaue.map (toR (m := 3) (n := 3))).length ≠ (systemOf 5).order) ∧
      ∃ Q ∈ cubicLaue.map (toR (m := 3) (n := 3)), ¬ (systemOf 5).Rotation Q := by
  obtain ⟨c1, c2⟩ := cos_near h1 h2
  set c := Real.cos (radians θ) with hc
  set q := Real.sqrt 2 * Real.sqrt ((1 - c) / 6) with hq
  set w := Real.sqrt ((1 + 2 * c) / 3) with hw
  have hqq : q * q = (1 - c) / 3 := by
    rw [hq, mul_mul_mul_comm, Real.mul_self_sqrt (by norm_num), Real.mul_self_sqrt (by linarith)]; ring
  have hq0 : 0 ≤ q := by positivity
  have hww : w * w = (1 + 2 * c) / 3 := Real.mul_self_sqrt (by linarith)
  have hw0 : 0 < w := Real.sqrt_pos.mpr (by linarith)
  have hq1 : 7 / 10 ≤ q := by nlinarith
  have hq2 : q ≤ 1 := by nlinarith
  have hw1 : w ≤ 11 / 10 ^ 7 := by nlinarith
  have hk : (2 / Real.sqrt 3 : ℝ) ≠ 0 := by positivity
  have hE : primBase3 py false 5 (Nums.float [2, θ]).get = some (rhomboBase (2 / Real.sqrt 3) q w) := by
    have g0 : (Nums.float [2, θ]).get 0 = 2 := rfl
    have g1 : (Nums.float [2, θ]).get 1 = θ := rfl
    simp only [primBase3, g0, g1, ← hc]
    rw [if_neg (by norm_num), if_neg (by norm_num), if_neg (by norm_num), if_neg (by norm_num),
      if_pos trivial, if_neg (by push Not; constructor <;> linarith)]
    congr 1
    ext i j
    fin_cases i <;> fin_cases j <;> simp [rhomboBase, hq, hw] <;> ring
  have hd : (rhomboBase (2 / Real.sqrt 3) q w).det ≠ 0 := by
    rw [rhomboBase_det]
    have : 0 < q := by linarith
    positivity
  have hn : BLat.new py 5 (.list (.float [2, θ])) 3 =
      .ok ⟨3, some (rhomboBase (2 / Real.sqrt 3) q w), 5, .float [2, θ], (centring3 5)⁻¹⟩ := by
    have hc : checkParam (.list (.float [2, θ])) = .ok (.float [2, θ]) := by
      simp only [checkParam]
      rw [if_neg]
      push Not
      intro v hv
      simp only [Nums.vals, List.mem_cons, List.not_mem_nil, or_false] at hv
      rcases hv with rfl | rfl <;> linarith
    have hl : (Nums.float [2, θ]).vals.length = paramLen3.getD ((5 : ℤ) - 1).toNat 0 := rfl
    simp only [BLat.new, hc, show (Nums.float [2, θ]).isInt = false from rfl, hE, initBase_some, if_neg hd]
    rw [if_pos trivial, if_neg (by norm_num), if_neg (by simp [hl])]
  refine ⟨_, hn, ?_, ?_, ?_⟩
  · have hf : (cubicLaue.map NMat.int).filter (passes .code (rhomboBase (2 / Real.sqrt 3) q w)) =
        cubicLaue.map NMat.int := by
      refine List.filter_eq_self.mpr fun Q hQ => ?_
      obtain ⟨R, hR, rfl⟩ := List.mem_map.mp hQ
      exact rhombo_passes hk hq1 hq2 hw0 hw1 R hR
    have hv : (cubicLaue.map NMat.int).map NMat.val = cubicLaue.map toR := by
      rw [List.map_map]; rfl
    have hg : Lat.laueGroup .code ⟨3, rhomboBase (2 / Real.sqrt 3) q w⟩ = .ok (cubicLaue.map toR) := by
      rw [laueGroup_three]
      simp only [Lat.select, filter_ok .code hd, hf, hv]
      rw [if_neg (by rw [List.length_map, cubicLaue_length]; norm_num)]
    simp only [BLat.laue3, Lat.getLauegroup, hg, dif_pos]
    congr 1
  · rw [List.length_map, cubicLaue_length]; decide
  · refine ⟨toR !![1, 0, 0; 0, -1, 0; 0, 0, -1], List.mem_map_of_mem (by unfold cubicLaue; decide +kernel), ?_⟩
    rintro ⟨-, h | h⟩
    · have := congrFun h 1
      simp [toR, Matrix.mulVec, dotProduct, Fin.sum_univ_three] at this
      norm_num at this
    · have := congrFun h 0
      simp [toR, Matrix.mulVec, dotProduct, Fin.sum_univ_three] at this
      norm_num at this

/-! ## Instances -/

/-- The six rotations that the rhombohedral system would require exist. -/
example : (systemOf 5).Rotation !![0, 0, 1; 1, 0, 0; 0, 1, 0] := by
  refine ⟨⟨?_, ?_, ?_⟩, .inl ?_⟩
  · intro i j
    fin_cases i <;> fin_cases j <;> first | (refine ⟨0, ?_⟩; simp; done) | (refine ⟨1, ?_⟩; simp; done)
  · ext i j; fin_cases i <;> fin_cases j <;> simp [Matrix.mul_apply, Fin.sum_univ_three]
  · simp [Matrix.det_fin_three]
  · ext i; fin_cases i <;> simp [Matrix.mulVec, dotProduct, Fin.sum_univ_three]

/-- The tetragonal group of the code is neither the cubic one nor trivial. -/
example (py : Py) (m : Mart) : ∃ g, m.setLaue .code py (.int 6) = .ok ⟨m.U, g⟩ ∧
    !![0, -1, 0; 1, 0, 0; 0, 0, 1] ∈ g ∧ !![0, 0, 1; 1, 0, 0; 0, 1, 0] ∉ g := by
  obtain ⟨g, hg, -, -, hm⟩ := C76_system_partial .code (.inl rfl) py m 6 (by norm_num) (by norm_num)
    (by norm_num)
  refine ⟨g, hg, (hm _).mpr ⟨⟨?_, ?_, ?_⟩, .inl ?_⟩, fun h => ?_⟩
  · intro i j
    fin_cases i <;> fin_cases j <;>
      first | (refine ⟨0, ?_⟩; simp; done) | (refine ⟨1, ?_⟩; simp; done) | (refine ⟨-1, ?_⟩; simp; done)
  · ext i j; fin_cases i <;> fin_cases j <;> simp [Matrix.mul_apply, Fin.sum_univ_three]
  · simp [Matrix.det_fin_three]
  · ext i; fin_cases i <;> simp [Matrix.mulVec, dotProduct, Fin.sum_univ_three]
  · obtain ⟨-, h | h⟩ := (hm _).mp h
    · have := congrFun h 0
      simp [Matrix.mulVec, dotProduct, Fin.sum_univ_three] at this
    · have := congrFun h 0
      simp [Matrix.mulVec, dotProduct, Fin.sum_univ_three] at this

example : ∃ θ : ℝ, 120 - 1 / 10 ^ 10 ≤ θ ∧ θ < 120 := ⟨120 - 1 / 10 ^ 11, by norm_num, by norm_num⟩

end Verif.Props
