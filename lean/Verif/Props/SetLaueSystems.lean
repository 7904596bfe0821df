import Verif.Props.SetLaueTrig

/-!
# C76: the statements, and the hexagonal and rhombohedral types
-/

namespace Verif.Props

open Matrix Verif.Spec Verif.Model Verif.Lemmas

/-! ## The hexagonal type -/

noncomputable def hexInv : M3 :=
  !![1 / 2, -(1 / 4) * hexS⁻¹, 0; 0, hexS⁻¹ / 2, 0; 0, 0, 1 / 3]

theorem hex_left : hexInv * hexBase 2 3 = 1 := by
  have := hexS_pos.ne'
  ext i j
  fin_cases i <;> fin_cases j <;>
    simp [hexInv, hexBase, Matrix.mul_apply, Fin.sum_univ_three] <;> field_simp <;> norm_num

theorem hex_cases : ∀ Q ∈ cubicLaue, Q ∉ cubicLaue.take 4 →
    (Q 2 0 = 1 ∨ Q 2 0 = -1) ∨ Q 2 0 = 0 ∧ (Q 2 1 = 1 ∨ Q 2 1 = -1) ∨ Q 2 0 = 0 ∧ (Q 1 0 = 1 ∨ Q 1 0 = -1) := by
  unfold cubicLaue; decide +kernel

theorem hex_all (a c : ℝ) : ∀ V ∈ hexLaue.map NMat.val, ∃ M : Matrix (Fin 3) (Fin 3) ℤ,
    V * hexBase a c = hexBase a c * toR M := by
  have hs : hexS * (a * hexS) = 3 / 4 * a := by rw [← hexS_sq]; ring
  have key : List.Forall₂ (fun M V => V * hexBase a c = hexBase a c * toR M) hexRots
      (hexLaue.map NMat.val) := by
    simp only [hexRots, hexLaue, List.map_cons, List.map_nil, NMat.val, List.forall₂_cons,
      List.forall₂_nil_left_iff, and_true]
    refine ⟨?_, ?_, ?_, ?_, ?_, ?_, ?_, ?_, ?_, ?_, ?_, ?_⟩ <;>
    · ext i j
      fin_cases i <;> fin_cases j <;>
        simp [hexBase, toR, Matrix.mul_apply, Fin.sum_univ_three, hexC_eq] <;> linarith
  intro V hV
  obtain ⟨i, hi, rfl⟩ := List.getElem_of_mem hV
  have hl := key.length_eq
  exact ⟨_, key.get (hl ▸ hi) hi⟩

theorem hex_separated : Separated (hexBase 2 3) candidates3 := by
  have hpos := hexS_pos
  obtain ⟨b1, b2⟩ := hexS_bounds
  have hi : hexS * hexS⁻¹ = 1 := mul_inv_cancel₀ hpos.ne'
  have hi1 : 115 / 100 < hexS⁻¹ ∧ hexS⁻¹ < 116 / 100 := by
    constructor
    · by_contra hc; push Not at hc; nlinarith
    · by_contra hc; push Not at hc; nlinarith
  have hin : ∀ V ∈ hexLaue.map NMat.val, InPointGroup (hexBase 2 3) V := by
    intro V hV
    obtain ⟨M, hM⟩ := hex_all 2 3 V hV
    exact (hexagonal_sym (by norm_num) (by norm_num) hV hM).1
  intro Q hQ
  rcases List.mem_append.mp hQ with hQ | hQ
  · obtain ⟨R, hR, rfl⟩ := List.mem_map.mp hQ
    by_cases h4 : R ∈ cubicLaue.take 4
    · left
      apply hin
      simp only [cubicLaue, List.take, List.mem_cons, List.not_mem_nil, or_false] at h4
      simp only [hexLaue, List.map_cons, List.map_nil, List.mem_cons, NMat.val]
      rcases h4 with rfl | rfl | rfl | rfl
      · left; rfl
      · right; left; rfl
      · right; right; left; rfl
      · right; right; right; left; rfl
    · right
      rw [Matrix.inv_eq_left_inv hex_left]
      suffices h : ∃ i j, FarInt ((hexInv * (toR R * hexBase 2 3)) i j) by
        obtain ⟨i, j, h⟩ := h
        exact ⟨i, j, h.far⟩
      rcases hex_cases R hR h4 with h | ⟨h, h'⟩ | ⟨h, h'⟩
      · refine ⟨2, 0, ?_⟩
        rcases h with h | h
        · refine ⟨0, ?_, ?_, ?_⟩ <;>
            simp [hexInv, hexBase, toR, Matrix.mul_apply, Fin.sum_univ_three, h] <;> norm_num
        · refine ⟨-1, ?_, ?_, ?_⟩ <;>
            simp [hexInv, hexBase, toR, Matrix.mul_apply, Fin.sum_univ_three, h] <;> norm_num
      · refine ⟨2, 1, ?_⟩
        rcases h' with h' | h'
        · refine ⟨0, ?_, ?_, ?_⟩ <;>
            simp [hexInv, hexBase, toR, Matrix.mul_apply, Fin.sum_univ_three, h, h'] <;> linarith
        · refine ⟨-1, ?_, ?_, ?_⟩ <;>
            simp [hexInv, hexBase, toR, Matrix.mul_apply, Fin.sum_univ_three, h, h'] <;> linarith
      · refine ⟨1, 0, ?_⟩
        rcases h' with h' | h'
        · refine ⟨1, ?_, ?_, ?_⟩ <;>
            simp [hexInv, hexBase, toR, Matrix.mul_apply, Fin.sum_univ_three, h'] <;> linarith
        · refine ⟨-2, ?_, ?_, ?_⟩ <;>
            simp [hexInv, hexBase, toR, Matrix.mul_apply, Fin.sum_univ_three, h'] <;> linarith
  · exact .inl (hin Q hQ)

theorem cos_sin_sixths (k : ℤ) :
    (k % 6 = 0 ∧ Real.cos (k * (Real.pi / 3)) = 1 ∧ Real.sin (k * (Real.pi / 3)) = 0) ∨
    (k % 6 = 1 ∧ Real.cos (k * (Real.pi / 3)) = hexC ∧ Real.sin (k * (Real.pi / 3)) = hexS) ∨
    (k % 6 = 2 ∧ Real.cos (k * (Real.pi / 3)) = -hexC ∧ Real.sin (k * (Real.pi / 3)) = hexS) ∨
    (k % 6 = 3 ∧ Real.cos (k * (Real.pi / 3)) = -1 ∧ Real.sin (k * (Real.pi / 3)) = 0) ∨
    (k % 6 = 4 ∧ Real.cos (k * (Real.pi / 3)) = -hexC ∧ Real.sin (k * (Real.pi / 3)) = -hexS) ∨
    (k % 6 = 5 ∧ Real.cos (k * (Real.pi / 3)) = hexC ∧ Real.sin (k * (Real.pi / 3)) = -hexS) := by
  have red : ∀ r : ℤ, k % 6 = r → (k : ℝ) * (Real.pi / 3) =
      r * (Real.pi / 3) + ((k / 6 : ℤ) : ℝ) * (2 * Real.pi) := by
    intro r hr
    have : 6 * (k / 6) + r = k := by rw [← hr]; exact Int.mul_ediv_add_emod k 6
    have h' : (k : ℝ) = 6 * ((k / 6 : ℤ) : ℝ) + r := by exact_mod_cast this.symm
    rw [h']; ring
  have h6 : k % 6 = 0 ∨ k % 6 = 1 ∨ k % 6 = 2 ∨ k % 6 = 3 ∨ k % 6 = 4 ∨ k % 6 = 5 := by omega
  rcases h6 with h | h | h | h | h | h
  · left
    refine ⟨h, ?_, ?_⟩ <;> rw [red _ h]
    · rw [Real.cos_add_int_mul_two_pi]; simp
    · rw [Real.sin_add_int_mul_two_pi]; simp
  · right; left
    refine ⟨h, ?_, ?_⟩ <;> rw [red _ h]
    · rw [Real.cos_add_int_mul_two_pi]; simp [hexC]
    · rw [Real.sin_add_int_mul_two_pi]; simp [hexS]
  · right; right; left
    refine ⟨h, ?_, ?_⟩ <;> rw [red _ h]
    · rw [Real.cos_add_int_mul_two_pi, hexC, ← Real.cos_pi_sub]; congr 1; push_cast; ring
    · rw [Real.sin_add_int_mul_two_pi, hexS, ← Real.sin_pi_sub]; congr 1; push_cast; ring
  · right; right; right; left
    refine ⟨h, ?_, ?_⟩ <;> rw [red _ h]
    · rw [Real.cos_add_int_mul_two_pi, ← Real.cos_pi]; congr 1; push_cast; ring
    · rw [Real.sin_add_int_mul_two_pi, ← Real.sin_pi]; congr 1; push_cast; ring
  · right; right; right; right; left
    refine ⟨h, ?_, ?_⟩ <;> rw [red _ h]
    · rw [Real.cos_add_int_mul_two_pi, hexC, ← Real.cos_add_pi]; congr 1; push_cast; ring
    · rw [Real.sin_add_int_mul_two_pi, hexS, ← Real.sin_add_pi]; congr 1; push_cast; ring
  · right; right; right; right; right
    refine ⟨h, ?_, ?_⟩ <;> rw [red _ h]
    · rw [Real.cos_add_int_mul_two_pi, hexC, ← Real.cos_two_pi_sub]; congr 1; push_cast; ring
    · rw [Real.sin_add_int_mul_two_pi, hexS, ← Real.sin_two_pi_sub]; congr 1; push_cast; ring

theorem rotZ_mul (θ : ℝ) : rotZ θ * !![1, 0, 0; 0, -1, 0; 0, 0, -1] =
    !![Real.cos θ, Real.sin θ, 0; Real.sin θ, -Real.cos θ, 0; 0, 0, -1] := by
  ext i j
  fin_cases i <;> fin_cases j <;> simp [rotZ, Matrix.mul_apply, Fin.sum_univ_three]

/-- The hexagonal table consists of the rotations of the hexagonal system. -/
theorem hexagonal_mem (Q : M3) : Q ∈ hexLaue.map NMat.val ↔ CSystem.hexagonal.Rotation Q := by
  have hc := hexC_eq
  have toI : ∀ a b c d e : ℤ, (NMat.int !![a, b, 0; c, d, 0; 0, 0, e] : NMat 3).val =
      !![(a : ℝ), b, 0; c, d, 0; 0, 0, e] := by
    intro a b c d e
    ext i j
    fin_cases i <;> fin_cases j <;> simp [NMat.val]
  have list : hexLaue.map NMat.val = [
      !![1, 0, 0; 0, 1, 0; 0, 0, 1], !![1, 0, 0; 0, -1, 0; 0, 0, -1], !![-1, 0, 0; 0, 1, 0; 0, 0, -1],
      !![-1, 0, 0; 0, -1, 0; 0, 0, 1],
      !![hexC, -hexS, 0; hexS, hexC, 0; 0, 0, 1], !![hexC, hexS, 0; -hexS, hexC, 0; 0, 0, 1],
      !![-hexC, -hexS, 0; hexS, -hexC, 0; 0, 0, 1], !![-hexC, hexS, 0; -hexS, -hexC, 0; 0, 0, 1],
      !![hexC, -hexS, 0; -hexS, -hexC, 0; 0, 0, -1], !![hexC, hexS, 0; hexS, -hexC, 0; 0, 0, -1],
      !![-hexC, -hexS, 0; -hexS, hexC, 0; 0, 0, -1], !![-hexC, hexS, 0; hexS, hexC, 0; 0, 0, -1]] := by
    simp only [hexLaue, List.map_cons, List.map_nil, toI]
    simp [NMat.val]
  rw [list]
  simp only [List.mem_cons, List.not_mem_nil, or_false, CSystem.Rotation, rotZ_mul]
  constructor
  · intro h
    have c0 := cos_sin_sixths 0
    have c1 := cos_sin_sixths 1
    have c2 := cos_sin_sixths 2
    have c3 := cos_sin_sixths 3
    have c4 := cos_sin_sixths 4
    have c5 := cos_sin_sixths 5
    norm_num only [false_and, true_and, or_false, false_or] at c0 c1 c2 c3 c4 c5
    rcases h with rfl | rfl | rfl | rfl | rfl | rfl | rfl | rfl | rfl | rfl | rfl | rfl
    · exact ⟨0, .inl (by simp [rotZ])⟩
    · exact ⟨0, .inr (by simp)⟩
    · exact ⟨3, .inr (by rw [show ((3 : ℤ) : ℝ) = 3 by norm_num, c3.1, c3.2]; simp)⟩
    · exact ⟨3, .inl (by rw [rotZ, show ((3 : ℤ) : ℝ) = 3 by norm_num, c3.1, c3.2]; simp)⟩
    · exact ⟨1, .inl (by rw [rotZ, show ((1 : ℤ) : ℝ) = 1 by norm_num, c1.1, c1.2])⟩
    · exact ⟨5, .inl (by rw [rotZ, show ((5 : ℤ) : ℝ) = 5 by norm_num, c5.1, c5.2]; simp)⟩
    · exact ⟨2, .inl (by rw [rotZ, show ((2 : ℤ) : ℝ) = 2 by norm_num, c2.1, c2.2])⟩
    · exact ⟨4, .inl (by rw [rotZ, show ((4 : ℤ) : ℝ) = 4 by norm_num, c4.1, c4.2]; simp)⟩
    · exact ⟨5, .inr (by rw [show ((5 : ℤ) : ℝ) = 5 by norm_num, c5.1, c5.2])⟩
    · exact ⟨1, .inr (by rw [show ((1 : ℤ) : ℝ) = 1 by norm_num, c1.1, c1.2])⟩
    · exact ⟨4, .inr (by rw [show ((4 : ℤ) : ℝ) = 4 by norm_num, c4.1, c4.2]; simp)⟩
    · exact ⟨2, .inr (by rw [show ((2 : ℤ) : ℝ) = 2 by norm_num, c2.1, c2.2]; simp)⟩
  · rintro ⟨k, h | h⟩
    · rw [rotZ] at h
      rcases cos_sin_sixths k with ⟨-, e1, e2⟩ | ⟨-, e1, e2⟩ | ⟨-, e1, e2⟩ | ⟨-, e1, e2⟩ |
        ⟨-, e1, e2⟩ | ⟨-, e1, e2⟩ <;> rw [e1, e2] at h <;> (try simp only [neg_neg, neg_zero] at h) <;> tauto
    · rcases cos_sin_sixths k with ⟨-, e1, e2⟩ | ⟨-, e1, e2⟩ | ⟨-, e1, e2⟩ | ⟨-, e1, e2⟩ |
        ⟨-, e1, e2⟩ | ⟨-, e1, e2⟩ <;> rw [e1, e2] at h <;> (try simp only [neg_neg, neg_zero] at h) <;> tauto

section
variable {t : Tol} (ht : t = .code ∨ t = .exact) (py : Py) (m : Mart)
include ht

theorem set_4 : ∃ g, m.setLaue t py (.int 4) = .ok ⟨m.U, g⟩ ∧ g.Nodup ∧
    ∀ Q, Q ∈ g ↔ CSystem.hexagonal.Rotation Q := by
  have hd : (hexBase 2 3).det ≠ 0 := hexBase_det (by norm_num) (by norm_num)
  have hb : primBase3 py true 4 (Nums.int [2, 3]).get = some (hexBase 2 3) := by
    simp only [primBase3, getD_get, Nums.vals]
    norm_num
    ext i j
    fin_cases i <;> fin_cases j <;> simp [hexBase, hexS, Real.sin_pi_div_three]
  have hr : Reliable t (hexBase 2 3) candidates3 := by
    rcases ht with rfl | rfl
    · exact .inr ⟨rfl, hex_separated⟩
    · exact .inl rfl
  have hsym : ∀ V ∈ hexLaue.map NMat.val, IsLatticeRotation (hexBase 2 3) V := by
    intro V hV
    obtain ⟨M, hM⟩ := hex_all 2 3 V hV
    exact hexagonal_sym (by norm_num) (by norm_num) hV hM
  obtain ⟨g, hg, hnd, hfull⟩ := full_of_hex t (hexBase 2 3) hd hr
    (fun Q hQ => hexagonal_table (by norm_num) (by norm_num) hQ)
    (hsym _ (by simp [hexLaue, NMat.val, toR])) (hsym _ (by simp [hexLaue, NMat.val, toR]))
  refine ⟨g, setLaue_of (x := .int [2, 3]) (by norm_num) (by norm_num) (.inr rfl) (by simp [Nums.vals])
    rfl hb hd hg, hnd, fun Q => ?_⟩
  rw [hfull, ← hexagonal_mem]
  exact ⟨fun h => hexagonal_table (by norm_num) (by norm_num) h, fun h => hsym Q h⟩

end

/-! ## The kept members of the cubic table are the rotations of the system -/

theorem axis_iff (Q : M3) : IsAxisRotation Q ↔ ∃ R ∈ cubicLaue, Q = toR R := by
  constructor
  · rintro ⟨h1, h2, h3⟩
    obtain ⟨R, hR, rfl⟩ := List.mem_map.mp (integral_rotation h2 h3 h1)
    exact ⟨R, hR, rfl⟩
  · rintro ⟨R, hR, rfl⟩
    obtain ⟨h1, h2⟩ := (C19_cubic_complete R).mp hR
    refine ⟨isIntegral_toR R, ?_, by rw [toR_det, h2, Int.cast_one]⟩
    have h2 := congrArg (toR (m := 3) (n := 3)) h1
    rw [toR_mul, toR_one] at h2
    rw [← h2]
    rfl

theorem mem_keep {s : CSystem} (hs : s ≠ .hexagonal) (hs' : s ≠ .rhombohedral) (Q : M3) :
    Q ∈ (cubicLaue.filter (keepOf s)).map toR ↔ s.Rotation Q := by
  have mem : Q ∈ (cubicLaue.filter (keepOf s)).map toR ↔ ∃ R ∈ cubicLaue, Q = toR R ∧ keepOf s R = true := by
    simp only [List.mem_map, List.mem_filter]
    constructor
    · rintro ⟨R, ⟨h1, h2⟩, rfl⟩; exact ⟨R, h1, rfl, h2⟩
    · rintro ⟨R, h1, rfl, h2⟩; exact ⟨R, ⟨h1, h2⟩, rfl⟩
  rw [mem]
  have cast0 : ∀ (R : Matrix (Fin 3) (Fin 3) ℤ) i j, toR R i j = (R i j : ℝ) := fun _ _ _ => rfl
  cases s with
  | hexagonal => exact absurd rfl hs
  | rhombohedral => exact absurd rfl hs'
  | cubic =>
    simp only [CSystem.Rotation, axis_iff, keepOf, and_true]
  | tetragonal =>
    simp only [CSystem.Rotation, axis_iff]
    constructor
    · rintro ⟨R, hR, rfl, hk⟩
      refine ⟨⟨R, hR, rfl⟩, ?_⟩
      have key : ∀ R ∈ cubicLaue, keepOf .tetragonal R = true →
          R 0 2 = 0 ∧ R 1 2 = 0 ∧ (R 2 2 = 1 ∨ R 2 2 = -1) := by unfold cubicLaue; decide +kernel
      obtain ⟨h0, h1, h2⟩ := key R hR hk
      rcases h2 with h2 | h2
      · left
        ext i
        fin_cases i <;> simp [Matrix.mulVec, dotProduct, Fin.sum_univ_three, cast0, h0, h1, h2]
      · right
        ext i
        fin_cases i <;> simp [Matrix.mulVec, dotProduct, Fin.sum_univ_three, cast0, h0, h1, h2]
    · rintro ⟨⟨R, hR, rfl⟩, h⟩
      refine ⟨R, hR, rfl, ?_⟩
      have hne : (R 2 2 : ℝ) ≠ 0 := by
        rcases h with h | h
        · have := congrFun h 2
          simp [Matrix.mulVec, dotProduct, Fin.sum_univ_three, cast0] at this
          rw [this]; norm_num
        · have := congrFun h 2
          simp [Matrix.mulVec, dotProduct, Fin.sum_univ_three, cast0] at this
          rw [this]; norm_num
      exact decide_eq_true (by exact_mod_cast hne)
  | orthorhombic =>
    simp only [CSystem.Rotation, axis_iff]
    constructor
    · rintro ⟨R, hR, rfl, hk⟩
      refine ⟨⟨R, hR, rfl⟩, ?_⟩
      obtain ⟨h1, h2, h3, h4, h5, h6⟩ := of_decide_eq_true hk
      intro i j hij
      rw [cast0]
      fin_cases i <;> fin_cases j <;> simp_all
    · rintro ⟨⟨R, hR, rfl⟩, h⟩
      have h' : ∀ i j, i ≠ j → R i j = 0 := fun i j hij => by
        have := h i j hij
        rw [cast0] at this
        exact_mod_cast this
      exact ⟨R, hR, rfl, decide_eq_true ⟨h' 0 1 (by decide), h' 0 2 (by decide), h' 1 0 (by decide),
        h' 1 2 (by decide), h' 2 0 (by decide), h' 2 1 (by decide)⟩⟩
  | monoclinic =>
    have e1 : toR !![1, 0, 0; 0, 1, 0; 0, 0, 1] = (1 : M3) := by
      ext i j; fin_cases i <;> fin_cases j <;> simp [toR]
    have e2 : toR !![-1, 0, 0; 0, 1, 0; 0, 0, -1] = (!![-1, 0, 0; 0, 1, 0; 0, 0, -1] : M3) := by
      ext i j; fin_cases i <;> fin_cases j <;> simp [toR]
    simp only [CSystem.Rotation]
    constructor
    · rintro ⟨R, hR, rfl, hk⟩
      rcases keep_mono hk with rfl | rfl
      · exact .inl e1
      · exact .inr e2
    · rintro (rfl | rfl)
      · exact ⟨_, by unfold cubicLaue; decide +kernel, e1.symm, by decide +kernel⟩
      · exact ⟨_, by unfold cubicLaue; decide +kernel, e2.symm, by decide +kernel⟩
  | triclinic =>
    have e1 : toR !![1, 0, 0; 0, 1, 0; 0, 0, 1] = (1 : M3) := by
      ext i j; fin_cases i <;> fin_cases j <;> simp [toR]
    simp only [CSystem.Rotation]
    constructor
    · rintro ⟨R, hR, rfl, hk⟩
      have hk : R = !![1, 0, 0; 0, 1, 0; 0, 0, 1] := of_decide_eq_true hk
      rw [hk, e1]
    · rintro rfl
      exact ⟨_, by unfold cubicLaue; decide +kernel, e1.symm, by decide +kernel⟩

/-- C76: for the thirteen Bravais types other than the rhombohedral one, and for both the comparisons of
the code and exact ones, `setLaue(id)` returns an object with the same stretch whose Laue group
consists of the rotations of the crystal system, each listed once.
Missing: the rhombohedral type, for which the statement is false (`C76_rhombohedral_fails`). -/
theorem C76_system_partial (t : Tol) (ht : t = .code ∨ t = .exact) (py : Py) (m : Mart) (id : ℤ)
    (h1 : 1 ≤ id) (h2 : id ≤ 14) (h5 : id ≠ 5) :
    ∃ g, m.setLaue t py (.int id) = .ok ⟨m.U, g⟩ ∧ g.Nodup ∧ g.length = (systemOf id).order ∧
      ∀ Q, Q ∈ g ↔ (systemOf id).Rotation Q := by
  have inj : ∀ s, ((cubicLaue.filter (keepOf s)).map (toR (m := 3) (n := 3))).Nodup := fun s =>
    (cubic_nodup.filter _).map toR_injective
  have fin : ∀ s : CSystem, s = systemOf id → s ≠ .hexagonal → s ≠ .rhombohedral →
      (cubicLaue.filter (keepOf s)).length = s.order →
      m.setLaue t py (.int id) = .ok ⟨m.U, (cubicLaue.filter (keepOf s)).map toR⟩ →
      ∃ g, m.setLaue t py (.int id) = .ok ⟨m.U, g⟩ ∧ g.Nodup ∧ g.length = (systemOf id).order ∧
        ∀ Q, Q ∈ g ↔ (systemOf id).Rotation Q := by
    intro s hs n1 n2 hl h
    subst hs
    exact ⟨_, h, inj _, by rw [List.length_map, hl], mem_keep n1 n2⟩
  have hid : id = 1 ∨ id = 2 ∨ id = 3 ∨ id = 4 ∨ id = 6 ∨ id = 7 ∨ id = 8 ∨ id = 9 ∨ id = 10 ∨
      id = 11 ∨ id = 12 ∨ id = 13 ∨ id = 14 := by omega
  have len : ∀ s : CSystem, s ≠ .hexagonal → s ≠ .rhombohedral →
      (cubicLaue.filter (keepOf s)).length = s.order := by
    intro s n1 n2
    cases s with
    | hexagonal => exact absurd rfl n1
    | rhombohedral => exact absurd rfl n2
    | _ => unfold cubicLaue; decide +kernel
  rcases hid with rfl | rfl | rfl | rfl | rfl | rfl | rfl | rfl | rfl | rfl | rfl | rfl | rfl
  · exact fin .cubic rfl (by decide) (by decide) (len _ (by decide) (by decide)) (set_1 ht py m)
  · exact fin .cubic rfl (by decide) (by decide) (len _ (by decide) (by decide)) (set_2 ht py m)
  · exact fin .cubic rfl (by decide) (by decide) (len _ (by decide) (by decide)) (set_3 ht py m)
  · obtain ⟨g, hg, hn, hm⟩ := set_4 ht py m
    refine ⟨g, hg, hn, ?_, hm⟩
    have hp : g.Perm (hexLaue.map NMat.val) := by
      refine (List.perm_ext_iff_of_nodup hn hexLaue_nodup).mpr fun Q => ?_
      rw [hm, hexagonal_mem]
    rw [hp.length_eq, List.length_map]
    rfl
  · exact fin .tetragonal rfl (by decide) (by decide) (len _ (by decide) (by decide)) (set_6 ht py m)
  · exact fin .tetragonal rfl (by decide) (by decide) (len _ (by decide) (by decide)) (set_7 ht py m)
  · exact fin .orthorhombic rfl (by decide) (by decide) (len _ (by decide) (by decide)) (set_8 ht py m)
  · exact fin .orthorhombic rfl (by decide) (by decide) (len _ (by decide) (by decide)) (set_9 ht py m)
  · exact fin .orthorhombic rfl (by decide) (by decide) (len _ (by decide) (by decide)) (set_10 ht py m)
  · exact fin .orthorhombic rfl (by decide) (by decide) (len _ (by decide) (by decide)) (set_11 ht py m)
  · exact fin .monoclinic rfl (by decide) (by decide) (len _ (by decide) (by decide)) (set_12 ht py m)
  · exact fin .monoclinic rfl (by decide) (by decide) (len _ (by decide) (by decide)) (set_13 ht py m)
  · exact fin .triclinic rfl (by decide) (by decide) (len _ (by decide) (by decide)) (set_14 ht py m)

/-- C76: a group is taken over, any other argument than a group or an integer between 1 and 14 is
rejected, and the stretch is never changed. -/
theorem C76_arguments (t : Tol) (py : Py) (m : Mart) :
    (∀ G, m.setLaue t py (.group G) = .ok ⟨m.U, G⟩) ∧
    (∀ k : ℤ, ¬ (1 ≤ k ∧ k ≤ 14) → m.setLaue t py (.int k) = .error .valueError) ∧
    m.setLaue t py .other = .error .valueError ∧
    ∀ a m', m.setLaue t py a = .ok m' → m'.U = m.U := by
  refine ⟨fun G => rfl, fun k hk => ?_, rfl, fun a m' h => ?_⟩
  · simp only [Mart.setLaue]
    rw [if_neg (by omega)]
  · cases a with
    | group G => cases h; rfl
    | other => cases h
    | int k =>
      simp only [Mart.setLaue] at h
      split_ifs at h
      split at h
      · cases h
      · split at h
        · cases h
        · cases h; rfl

end Verif.Props
