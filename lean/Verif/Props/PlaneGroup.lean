import Verif.Props.Planar

/-!
# C16: exactly which plane lattices have a complete `point_group`

A plane lattice with a rotation other than a half turn also has a reflection.  Hence `point_group` is complete if and only if the
reflection in the first coordinate axis is a symmetry, or there is no symmetry but the half turn and the reflections in the two
diagonals.
-/

namespace Verif.Props

open Verif.Model Verif.Spec Verif.Lemmas Matrix

local notation "Mat2" => Matrix (Fin 2) (Fin 2) ℝ

/-- Balanced division. -/
theorem balanced (m X : ℤ) (hm : m ≠ 0) : ∃ q r, X = m * q + r ∧ 2 * |r| ≤ |m| := by
  refine ⟨round ((X : ℚ) / m), X - m * round ((X : ℚ) / m), by ring, ?_⟩
  have h := abs_sub_round ((X : ℚ) / m)
  have hm' : (m : ℚ) ≠ 0 := by exact_mod_cast hm
  have e : ((X - m * round ((X : ℚ) / m) : ℤ) : ℚ) = m * ((X : ℚ) / m - round ((X : ℚ) / m)) := by
    push_cast
    field_simp
  have : ((2 * |X - m * round ((X : ℚ) / m)| : ℤ) : ℚ) ≤ ((|m| : ℤ) : ℚ) := by
    rw [Int.cast_mul, Int.cast_abs, e, abs_mul, Int.cast_abs]
    have := mul_le_mul_of_nonneg_left h (abs_nonneg (m : ℚ))
    push_cast
    linarith
  exact_mod_cast this

theorem sq_half {r m : ℤ} (h : 2 * |r| ≤ |m|) : 4 * r ^ 2 ≤ m ^ 2 := by
  have := mul_self_le_mul_self (mul_nonneg (by norm_num) (abs_nonneg r)) h
  rw [← pow_two, ← pow_two, mul_pow, sq_abs, sq_abs] at this
  linarith

theorem form_small {k m r r' w : ℤ} (hk : k = -1 ∨ k = 0 ∨ k = 1) (b1 : 2 * |r| ≤ |m|) (b2 : 2 * |r'| ≤ |m|)
    (hom : r ^ 2 + k * r * r' + r' ^ 2 = m * w) (hm : m ≠ 0) (hmin : w ≠ 0 → |m| ≤ |w|) : r' = 0 := by
  have s1 := sq_half b1
  have s2 := sq_half b2
  have m0 : 0 < m ^ 2 := by positivity
  have n1 := sq_nonneg (r + r')
  have n2 := sq_nonneg (r - r')
  have n3 := sq_nonneg r
  have n4 := sq_nonneg r'
  have lo : 0 ≤ r ^ 2 + k * r * r' + r' ^ 2 ∧ 4 * (r ^ 2 + k * r * r' + r' ^ 2) ≤ 3 * m ^ 2 := by
    rcases hk with rfl | rfl | rfl <;> constructor <;> linarith
  have hw0 : w = 0 := by
    by_contra hne
    have h1 := mul_le_mul_of_nonneg_left (hmin hne) (abs_nonneg m)
    have p2 : |m| * |w| = m * w := by rw [← abs_mul, abs_of_nonneg (by rw [← hom]; exact lo.1)]
    have p3 : |m| * |m| = m ^ 2 := by rw [← pow_two, sq_abs]
    rw [p2, p3, ← hom] at h1
    linarith [lo.2]
  rw [hw0, mul_zero] at hom
  have q2 : r' ^ 2 = 0 := by
    have q1 : (2 * r + k * r') ^ 2 + (4 - k ^ 2) * r' ^ 2 = 0 := by linear_combination 4 * hom
    have q0 := sq_nonneg (2 * r + k * r')
    rcases hk with rfl | rfl | rfl <;> linarith
  exact pow_eq_zero_iff two_ne_zero |>.1 q2

/-- The form `det (p, M p)` of an integer matrix of determinant one and trace -1, 0 or 1 takes one of the values 1 and -1. -/
theorem unimodular_orbit {a b c d k : ℤ} (htr : a + d = k) (hdet : a * d - b * c = 1) (h1 : -1 ≤ k) (h2 : k ≤ 1) :
    ∃ x y : ℤ, x * (c * x + d * y) - y * (a * x + b * y) = 1 ∨ x * (c * x + d * y) - y * (a * x + b * y) = -1 := by
  let f : ℤ → ℤ → ℤ := fun x y => x * (c * x + d * y) - y * (a * x + b * y)
  have hc : c ≠ 0 := by
    rintro rfl
    have : (a - d) ^ 2 = k ^ 2 - 4 := by rw [← htr]; linear_combination -4 * hdet
    nlinarith [sq_nonneg (a - d)]
  have hex : ∃ n : ℕ, ∃ x y, (f x y).natAbs = n ∧ f x y ≠ 0 := ⟨_, 1, 0, rfl, by simp [f, hc]⟩
  classical
  obtain ⟨x, y, hn, hf⟩ := Nat.find_spec hex
  have hmin : ∀ u v, f u v ≠ 0 → (f x y).natAbs ≤ (f u v).natAbs := fun u v huv => by
    rw [hn]
    exact Nat.find_min' hex ⟨u, v, rfl, huv⟩
  obtain ⟨m, hm⟩ : ∃ m, f x y = m := ⟨_, rfl⟩
  rw [hm] at hf hmin
  have form : ∀ X Y : ℤ, f (X * x + Y * (a * x + b * y)) (X * y + Y * (c * x + d * y)) = (X ^ 2 + k * X * Y + Y ^ 2) * m := by
    intro X Y
    have e : (a * x + b * y) * (c * (a * x + b * y) + d * (c * x + d * y)) -
        (c * x + d * y) * (a * (a * x + b * y) + b * (c * x + d * y)) = (a * d - b * c) * f x y := by
      simp only [f]; ring
    have e2 : f (X * x + Y * (a * x + b * y)) (X * y + Y * (c * x + d * y)) =
        (X ^ 2 + (a + d) * X * Y + (a * d - b * c) * Y ^ 2) * f x y := by
      simp only [f]; ring
    rw [e2, htr, hdet, hm]; ring
  -- the components of all vectors are divisible by `m`
  have div : ∀ u v : ℤ, m ∣ x * v - y * u := by
    intro u v
    obtain ⟨q, r, e1, b1⟩ := balanced m (u * (c * x + d * y) - v * (a * x + b * y)) hf
    obtain ⟨q', r', e2, b2⟩ := balanced m (x * v - y * u) hf
    have hm' : x * (c * x + d * y) - y * (a * x + b * y) = m := hm
    have r1 : m * (u - (q * x + q' * (a * x + b * y))) = r * x + r' * (a * x + b * y) := by
      linear_combination x * e1 + (a * x + b * y) * e2 - u * hm'
    have r2 : m * (v - (q * y + q' * (c * x + d * y))) = r * y + r' * (c * x + d * y) := by
      linear_combination y * e1 + (c * x + d * y) * e2 - v * hm'
    have hom : f (m * (u - (q * x + q' * (a * x + b * y)))) (m * (v - (q * y + q' * (c * x + d * y)))) =
        m ^ 2 * f (u - (q * x + q' * (a * x + b * y))) (v - (q * y + q' * (c * x + d * y))) := by
      simp only [f]; ring
    rw [r1, r2, form] at hom
    obtain ⟨w, hw⟩ : ∃ w, f (u - (q * x + q' * (a * x + b * y))) (v - (q * y + q' * (c * x + d * y))) = w := ⟨_, rfl⟩
    rw [hw] at hom
    have hom' : r ^ 2 + k * r * r' + r' ^ 2 = m * w := by
      apply mul_right_cancel₀ hf
      linear_combination hom
    have z : r' = 0 := form_small (by omega) b1 b2 hom' hf fun hne => by
      have := hmin _ _ (by rw [hw]; exact hne)
      rw [hw, ← Int.ofNat_le, Int.natCast_natAbs, Int.natCast_natAbs] at this
      exact this
    exact ⟨q', by rw [e2, z, add_zero]⟩
  obtain ⟨x', hx⟩ := div 0 1
  obtain ⟨y', hy⟩ := div 1 0
  have hx' : x = m * x' := by linear_combination hx
  have hy' : y = m * (-y') := by linear_combination -hy
  refine ⟨x, y, ?_⟩
  change f x y = 1 ∨ f x y = -1
  have e : m * (m * f x' (-y')) = m * 1 := by
    have : f x y = m ^ 2 * f x' (-y') := by rw [hx', hy']; simp only [f]; ring
    rw [hm] at this
    linear_combination -this
  have e' := mul_left_cancel₀ hf e
  rw [hm]
  exact Int.isUnit_iff.1 (IsUnit.of_mul_eq_one _ e')

/-- A plane lattice with a rotation other than the half turn has a reflection. -/
theorem plane_reflection {E Q : Mat2} (hE : E.det ≠ 0) (h : InPointGroup E Q) (hd : Q.det = 1) (h1 : Q ≠ 1) (h2 : Q ≠ -1) :
    ∃ R, InPointGroup E R ∧ R.det = -1 := by
  obtain ⟨hf, hn⟩ := rot2_form h.1 hd
  obtain ⟨M, -, hM, -⟩ := sym_coords hE h
  obtain ⟨c, hc⟩ : ∃ c, Q 0 0 = c := ⟨_, rfl⟩
  obtain ⟨s, hs⟩ : ∃ s, Q 1 0 = s := ⟨_, rfl⟩
  rw [hc, hs] at hf hn
  have s0 : s ≠ 0 := by
    rintro rfl
    have : (c - 1) * (c + 1) = 0 := by linear_combination hn
    rcases mul_eq_zero.1 this with hc1 | hc1
    · apply h1
      rw [hf, sub_eq_zero.1 hc1]
      ext i j
      fin_cases i <;> fin_cases j <;> simp
    · apply h2
      rw [hf, eq_neg_of_add_eq_zero_left hc1]
      ext i j
      fin_cases i <;> fin_cases j <;> simp
  have hMQ : toR M = E⁻¹ * (Q * E) := by
    rw [hM, ← Matrix.mul_assoc, Matrix.nonsing_inv_mul _ (isUnit_det_of_ne hE), Matrix.one_mul]
  have htr : ((M 0 0 + M 1 1 : ℤ) : ℝ) = 2 * c := by
    have e : (toR M).trace = Q.trace := by
      rw [hMQ, Matrix.trace_mul_comm, Matrix.mul_assoc, Matrix.mul_nonsing_inv _ (isUnit_det_of_ne hE), Matrix.mul_one]
    rw [hf] at e
    simp [Matrix.trace, Fin.sum_univ_two, toR] at e
    push_cast
    linarith
  have hdt : M 0 0 * M 1 1 - M 0 1 * M 1 0 = 1 := by
    have e := congrArg Matrix.det hM
    rw [Matrix.det_mul, Matrix.det_mul, hd, one_mul, toR_det] at e
    have : (M.det : ℝ) = 1 := mul_left_cancel₀ hE (by rw [← e, mul_one])
    have : M.det = 1 := by exact_mod_cast this
    rwa [Matrix.det_fin_two] at this
  have c1 : c ^ 2 < 1 := by
    have : 0 < s ^ 2 := by positivity
    linarith
  obtain ⟨k, hk⟩ : ∃ k, M 0 0 + M 1 1 = k := ⟨_, rfl⟩
  rw [hk] at htr
  have k2 : k ^ 2 < 4 := by
    have : (k : ℝ) ^ 2 < 4 := by rw [htr]; linarith
    exact_mod_cast this
  obtain ⟨x, y, hxy⟩ := unimodular_orbit hk hdt (by nlinarith) (by nlinarith)
  set B : Matrix (Fin 2) (Fin 2) ℤ := !![x, M 0 0 * x + M 0 1 * y; y, M 1 0 * x + M 1 1 * y] with hB
  have hBd : B.det = 1 ∨ B.det = -1 := by
    rw [hB, Matrix.det_fin_two_of]
    rcases hxy with e | e
    · left; linear_combination e
    · right; linear_combination e
  obtain ⟨B', hBB⟩ : ∃ B', B * B' = 1 := by
    refine ⟨B.det • B.adjugate, ?_⟩
    rw [Matrix.mul_smul, Matrix.mul_adjugate, smul_smul]
    rcases hBd with e | e <;> rw [e] <;> simp
  set p := E 0 0 * x + E 0 1 * y with hp
  set q := E 1 0 * x + E 1 1 * y with hq
  have hW : E * toR B = !![p, c * p - s * q; q, s * p + c * q] := by
    have m00 := congrFun (congrFun hM 0) 0
    have m01 := congrFun (congrFun hM 0) 1
    have m10 := congrFun (congrFun hM 1) 0
    have m11 := congrFun (congrFun hM 1) 1
    rw [hf] at m00 m01 m10 m11
    simp [Matrix.mul_apply, Fin.sum_univ_two, toR] at m00 m01 m10 m11
    ext i j
    fin_cases i <;> fin_cases j <;> simp [hB, toR, Matrix.mul_apply, Fin.sum_univ_two, hp, hq]
    · linear_combination -(x : ℝ) * m00 - (y : ℝ) * m01
    · linear_combination -(x : ℝ) * m10 - (y : ℝ) * m11
  have hl : p ^ 2 + q ^ 2 ≠ 0 := by
    have e := congrArg Matrix.det hW
    have e3 : (!![p, c * p - s * q; q, s * p + c * q] : Mat2).det = p * (s * p + c * q) - (c * p - s * q) * q := Matrix.det_fin_two_of ..
    rw [Matrix.det_mul, toR_det, e3] at e
    intro h0
    have z : p * (s * p + c * q) - (c * p - s * q) * q = 0 := by linear_combination s * h0
    rw [z] at e
    rcases mul_eq_zero.1 e with e | e
    · exact hE e
    · have : B.det = 0 := by exact_mod_cast e
      omega
  set R : Mat2 := !![(p ^ 2 - q ^ 2) / (p ^ 2 + q ^ 2), 2 * p * q / (p ^ 2 + q ^ 2);
    2 * p * q / (p ^ 2 + q ^ 2), (q ^ 2 - p ^ 2) / (p ^ 2 + q ^ 2)] with hR
  have hRW : R * (E * toR B) = E * toR B * toR !![1, k; 0, -1] := by
    rw [hW, hR]
    ext i j
    fin_cases i <;> fin_cases j <;> simp [toR, Matrix.mul_apply, Fin.sum_univ_two, htr] <;> field_simp <;> ring
  refine ⟨R, (inPointGroup_iff hE).2 ⟨?_, (isIntegral_iff _).2 ⟨B * !![1, k; 0, -1] * B', ?_⟩⟩, ?_⟩
  · rw [hR]
    ext i j
    fin_cases i <;> fin_cases j <;> simp [Matrix.mul_apply, Fin.sum_univ_two] <;> field_simp <;> ring
  · have e : R * E = E * toR (B * !![1, k; 0, -1] * B') := by
      calc R * E = R * (E * toR B) * toR B' := by
            rw [Matrix.mul_assoc, Matrix.mul_assoc, ← toR_mul, hBB, toR_one, Matrix.mul_one]
        _ = _ := by rw [hRW, toR_mul, toR_mul]; simp only [Matrix.mul_assoc]
    rw [e, ← Matrix.mul_assoc, Matrix.nonsing_inv_mul _ (isUnit_det_of_ne hE), Matrix.one_mul]
  · rw [hR, Matrix.det_fin_two_of]
    field_simp
    ring

/-- the exchange of the coordinates, the reflection in the first diagonal -/
theorem swap_notHex : toR !![0, 1; 1, 0] ∉ hex2dExt.map NMat.val ∧ toR !![0, -1; -1, 0] ∉ hex2dExt.map NMat.val ∧
    toR !![0, -1; 1, 0] ∉ hex2dExt.map NMat.val ∧ toR !![0, 1; -1, 0] ∉ hex2dExt.map NMat.val := by
  have key : ∀ Q ∈ hex2dExt.map NMat.val, Q 0 0 ≠ 0 := by
    intro Q hQ
    simp only [hex2dExt, List.map_cons, List.map_nil, List.mem_cons, List.not_mem_nil, or_false, NMat.val] at hQ
    rcases hQ with rfl | rfl | rfl | rfl | rfl | rfl | rfl | rfl | rfl | rfl | rfl | rfl <;> simp [toR, hexC_eq]
  refine ⟨fun h => key _ h ?_, fun h => key _ h ?_, fun h => key _ h ?_, fun h => key _ h ?_⟩ <;> simp [toR]

/-- **C16** in two dimensions, exactly: `point_group` holds all symmetries of the lattice, each once, if and only if the reflection
in the first coordinate axis is a symmetry of the lattice, or there are no symmetries but the half turn and the reflections in the
two diagonals. -/
theorem C16_full_2d_iff (t : Tol) (E : Mat2) (hE : E.det ≠ 0) (hr : Reliable t E candidates2) :
    ∃ p, Lat.pointGroup t ⟨2, E⟩ = .ok p ∧ (IsFullPointGroup E p ↔ InPointGroup E !![1, 0; 0, -1] ∨
      ∀ Q, InPointGroup E Q → Q = 1 ∨ Q = -1 ∨ Q = !![0, 1; 1, 0] ∨ Q = !![0, -1; -1, 0]) := by
  classical
  have eD : toR !![1, 0; 0, -1] = (!![1, 0; 0, -1] : Mat2) := by ext i j; fin_cases i <;> fin_cases j <;> simp [toR]
  have eS : toR !![0, 1; 1, 0] = (!![0, 1; 1, 0] : Mat2) := by ext i j; fin_cases i <;> fin_cases j <;> simp [toR]
  have eN : toR !![0, -1; -1, 0] = (!![0, -1; -1, 0] : Mat2) := by ext i j; fin_cases i <;> fin_cases j <;> simp [toR]
  have e1 : toR !![1, 0; 0, 1] = (1 : Mat2) := by ext i j; fin_cases i <;> fin_cases j <;> simp [toR]
  have en1 : toR !![-1, 0; 0, -1] = (-1 : Mat2) := by ext i j; fin_cases i <;> fin_cases j <;> simp [toR]
  rw [← eD, ← eS, ← eN]
  have hG : Reliable t E ((squareExt.map NMat.int).map NMat.val) := hr.mono fun Q hQ => by
    rw [map_int_val] at hQ
    exact List.mem_append_left _ hQ
  have hH : Reliable t E (hex2dExt.map NMat.val) := hr.mono fun Q hQ => List.mem_append_right _ hQ
  have hp := select_sym hE hG hH 4
  rw [← pointGroup_two, map_int_val] at hp
  refine ⟨_, hp, ?_⟩
  obtain ⟨p, hp', hs⟩ := C16_point_group_2d_partial t E hE hr
  rw [hp] at hp'
  cases hp'
  constructor
  · rintro ⟨-, hfull⟩
    by_contra hcon
    rw [not_or] at hcon
    obtain ⟨hD, hcon⟩ := hcon
    have neg : ∀ A B : Matrix (Fin 2) (Fin 2) ℤ, -A = B → InPointGroup E (toR A) → InPointGroup E (toR B) := by
      rintro A _ rfl h
      rw [toR_neg]
      exact inPointGroup_neg h
    have hD' : ¬ InPointGroup E (toR !![-1, 0; 0, 1]) := fun h => hD (neg _ _ (by decide +kernel) h)
    split_ifs at hfull with hif
    · -- the hexagonal table
      obtain ⟨n1, n2, n3, n4⟩ := swap_notHex
      have no : ∀ Q, Q ∉ hex2dExt.map NMat.val → ¬ InPointGroup E Q := fun Q hQ h =>
        hQ (List.mem_filter.1 ((hfull Q).2 h)).1
      have len := hif.1
      have a1 := inPointGroup_one E
      have a2 := inPointGroup_neg a1
      simp [squareExt, e1, en1, a1, a2, no _ n1, no _ n2, no _ n3, no _ n4, hD, hD'] at len
    · -- the square table
      have cases8 : ∀ Q, InPointGroup E Q → Q ∈ squareExt.map toR := fun Q h => (List.mem_filter.1 ((hfull Q).2 h)).1
      apply hcon
      have mul : ∀ A B : Matrix (Fin 2) (Fin 2) ℤ, ∀ C, A * B = C → InPointGroup E (toR A) → InPointGroup E (toR B) →
          InPointGroup E (toR C) := by
        rintro A B _ rfl hA hB
        rw [toR_mul]
        exact inPointGroup_mul hA hB
      have noJ : ¬ InPointGroup E (toR !![0, -1; 1, 0]) := by
        intro hJ
        obtain ⟨R, hR, hRd⟩ := plane_reflection hE hJ (by rw [toR_det]; norm_num [Matrix.det_fin_two_of])
          (fun e => by have := congrFun (congrFun e 0) 0; simp [toR] at this)
          (fun e => by have := congrFun (congrFun e 0) 0; simp [toR] at this)
        have hm := cases8 R hR
        simp only [squareExt, List.map_cons, List.map_nil, List.mem_cons, List.not_mem_nil, or_false] at hm
        have bad : ∀ A : Matrix (Fin 2) (Fin 2) ℤ, A.det = 1 → R = toR A → False := by
          rintro A hA rfl
          rw [toR_det, hA] at hRd
          norm_num at hRd
        rcases hm with h | h | h | h | h | h | h | h
        · exact bad _ (by decide +kernel) h
        · exact bad _ (by decide +kernel) h
        · exact bad _ (by decide +kernel) h
        · exact bad _ (by decide +kernel) h
        · exact hD (h ▸ hR)
        · exact hD' (h ▸ hR)
        · rw [h] at hR
          exact hD' (mul _ _ _ (by decide +kernel) hJ hR)
        · rw [h] at hR
          exact hD (mul _ _ _ (by decide +kernel) hJ hR)
      intro Q hQ
      have hm := cases8 Q hQ
      simp only [squareExt, List.map_cons, List.map_nil, List.mem_cons, List.not_mem_nil, or_false] at hm
      rcases hm with h | h | h | h | h | h | h | h
      · exact .inl (by rw [h, e1])
      · exact absurd (h ▸ hQ) noJ
      · exact absurd (neg _ _ (by decide +kernel) (h ▸ hQ)) noJ
      · exact .inr (.inl (by rw [h, en1]))
      · exact absurd (h ▸ hQ) hD
      · exact absurd (h ▸ hQ) hD'
      · exact .inr (.inr (.inl h))
      · exact .inr (.inr (.inr h))
  · rintro (hD | hall)
    · obtain ⟨p, hp', hf⟩ := C16_full_2d_partial t E hE hr hD
      rw [hp] at hp'
      cases hp'
      exact hf
    · refine ⟨hs.nodup, fun Q => ⟨hs.sym Q, fun hQ => ?_⟩⟩
      split_ifs with hif
      · exfalso
        have sub : (hex2dExt.map NMat.val).filter (fun Q => decide (InPointGroup E Q)) ⊆
            [1, -1, toR !![0, 1; 1, 0], toR !![0, -1; -1, 0]] := by
          intro R hR
          simpa using hall R (by simpa using (List.mem_filter.1 hR).2)
        have := ((hex2dExt_nodup.filter _).subperm sub).length_le
        have := hif.2
        simp only [List.length_cons, List.length_nil] at *
        omega
      · refine List.mem_filter.2 ⟨?_, by simpa using hQ⟩
        simp only [squareExt, List.map_cons, List.map_nil, List.mem_cons, List.not_mem_nil, or_false, e1, en1]
        rcases hall Q hQ with h | h | h | h
        · exact .inl h
        · exact .inr (.inr (.inr (.inl h)))
        · exact .inr (.inr (.inr (.inr (.inr (.inr (.inl h))))))
        · exact .inr (.inr (.inr (.inr (.inr (.inr (.inr h))))))

/-! ## The hypotheses are met -/

/-- The square lattice has a complete `point_group` along the axes, and an incomplete one turned by the angle of the 3-4-5
triangle. -/
example : (∃ p, Lat.pointGroup .exact ⟨2, (1 : Mat2)⟩ = .ok p ∧ IsFullPointGroup 1 p) ∧
    ∃ p, Lat.pointGroup .exact ⟨2, (!![3 / 5, -4 / 5; 4 / 5, 3 / 5] : Mat2)⟩ = .ok p ∧
      ¬ IsFullPointGroup !![3 / 5, -4 / 5; 4 / 5, 3 / 5] p := by
  constructor
  · obtain ⟨p, h1, h2⟩ := C16_full_2d_iff .exact 1 (by simp) (.inl rfl)
    refine ⟨p, h1, h2.2 (.inl ((inPointGroup_iff (by simp)).2 ⟨?_, ?_⟩))⟩
    · ext i j; fin_cases i <;> fin_cases j <;> simp [Matrix.mul_apply, Fin.sum_univ_two]
    · refine (isIntegral_iff _).2 ⟨!![1, 0; 0, -1], ?_⟩
      rw [inv_one, Matrix.one_mul, Matrix.mul_one]
      ext i j; fin_cases i <;> fin_cases j <;> simp [toR]
  · have hd : (!![3 / 5, -4 / 5; 4 / 5, 3 / 5] : Mat2).det ≠ 0 := by rw [Matrix.det_fin_two_of]; norm_num
    obtain ⟨p, h1, h2⟩ := C16_full_2d_iff .exact !![3 / 5, -4 / 5; 4 / 5, 3 / 5] hd (.inl rfl)
    refine ⟨p, h1, fun h => ?_⟩
    rcases h2.1 h with h | h
    · obtain ⟨M, -, hM, -⟩ := sym_coords hd h
      have e0 := congrFun (congrFun hM 0) 0
      have e1 := congrFun (congrFun hM 1) 0
      simp [Matrix.mul_apply, Fin.sum_univ_two, toR] at e0 e1
      have : (M 0 0 : ℝ) * 25 = -7 := by linarith
      have : M 0 0 * 25 = -7 := by exact_mod_cast this
      omega
    · have hJ : InPointGroup (!![3 / 5, -4 / 5; 4 / 5, 3 / 5] : Mat2) !![0, -1; 1, 0] := by
        refine (inPointGroup_iff hd).2 ⟨?_, (isIntegral_iff _).2 ⟨!![0, -1; 1, 0], ?_⟩⟩
        · ext i j; fin_cases i <;> fin_cases j <;> simp [Matrix.mul_apply, Fin.sum_univ_two]
        · have e : (!![0, -1; 1, 0] : Mat2) * !![3 / 5, -4 / 5; 4 / 5, 3 / 5] =
              !![3 / 5, -4 / 5; 4 / 5, 3 / 5] * toR !![0, -1; 1, 0] := by
            ext i j; fin_cases i <;> fin_cases j <;> simp [Matrix.mul_apply, Fin.sum_univ_two, toR] <;> ring
          rw [e, ← Matrix.mul_assoc, Matrix.nonsing_inv_mul _ (isUnit_det_of_ne hd), Matrix.one_mul]
      rcases h _ hJ with h | h | h | h
      · have := congrFun (congrFun h 0) 0
        simp at this
      · have := congrFun (congrFun h 0) 0
        simp at this
      · have := congrFun (congrFun h 0) 1
        norm_num at this
      · have := congrFun (congrFun h 1) 0
        norm_num at this

end Verif.Props
