import Verif.Lemmas.Rotation

/-!
# C25, C26, C27: rotations, Euler angles and screw operations
-/

namespace Verif.Props

open Matrix Verif.Model Verif.Spec Verif.Lemmas

/-! ## C25 -/

/-- **C25** (partial).  For every axis whose direction `z` is not exactly `(-1, 0, 0)` and every angle,
`rotation` returns the rotation about `z` by that angle (in degrees or radians).  Missing: the axis
along `-e1`, for which the claim is false (`C25_axis_fails`). -/
theorem C25_rotation_partial {a z : Fin 3 → ℝ} (h : IsDirection z a) (hne : z ≠ ![-1, 0, 0])
    (angle : ℝ) :
    (∃ R, rotation angle a true = some R ∧ IsRotationAbout R z (angle * Real.pi / 180)) ∧
    (∃ R, rotation angle a false = some R ∧ IsRotationAbout R z angle) := by
  refine ⟨⟨_, rotation_eq h hne angle true, ?_⟩, ⟨_, rotation_eq h hne angle false, ?_⟩⟩
  · simpa [angleOf] using rodrigues_spec h.1 (angle * Real.pi / 180)
  · simpa [angleOf] using rodrigues_spec h.1 angle

/-- There is only one such matrix, so `C25_rotation_partial` determines the result. -/
theorem C25_unique {z : Fin 3 → ℝ} (hz : z ⬝ᵥ z = 1) {t : ℝ} {R S : Matrix (Fin 3) (Fin 3) ℝ}
    (hR : IsRotationAbout R z t) (hS : IsRotationAbout S z t) : R = S := by
  rw [isRotationAbout_unique hz hR, isRotationAbout_unique hz hS]

/-- **C25** (partial).  Angles add under composition. -/
theorem C25_compose_partial {a : Fin 3 → ℝ} {s t : ℝ} {deg : Bool} {R S : Matrix (Fin 3) (Fin 3) ℝ}
    (hR : rotation s a deg = some R) (hS : rotation t a deg = some S) :
    rotation (s + t) a deg = some (R * S) := by
  by_cases h0 : a = 0
  · subst h0; rw [rotation_zero] at hR; simp at hR
  · obtain ⟨z, hz⟩ := exists_direction h0
    by_cases hne : z = ![-1, 0, 0]
    · subst hne; rw [rotation_neg_e1 hz] at hR; simp at hR
    · rw [rotation_eq hz hne] at hR hS ⊢
      simp only [Option.some.injEq] at hR hS ⊢
      subst hR hS
      rw [rodrigues_mul hz.1]
      congr 1
      unfold angleOf
      split <;> ring

/-- Exactly the zero axis and the axes along `-e1` give NaNs. -/
theorem C25_nan {a : Fin 3 → ℝ} (angle : ℝ) (deg : Bool) :
    rotation angle a deg = none ↔ ∃ r : ℝ, 0 ≤ r ∧ a = ![-r, 0, 0] := by
  constructor
  · intro h
    by_cases h0 : a = 0
    · exact ⟨0, le_rfl, by subst h0; ext i; fin_cases i <;> simp⟩
    · obtain ⟨z, hz⟩ := exists_direction h0
      by_cases hne : z = ![-1, 0, 0]
      · obtain ⟨r, hr, rfl⟩ := hz.2
        refine ⟨r, hr.le, ?_⟩
        subst hne
        ext i; fin_cases i <;> simp
      · rw [rotation_eq hz hne] at h; simp at h
  · rintro ⟨r, hr, rfl⟩
    rcases hr.eq_or_lt with rfl | hr
    · have : (![-0, 0, 0] : Fin 3 → ℝ) = 0 := by ext i; fin_cases i <;> simp
      rw [this, rotation_zero]
    · refine rotation_neg_e1 ⟨by rw [dot3]; simp, r, hr, ?_⟩ angle deg
      ext i; fin_cases i <;> simp

/-- The full **C25** fails: the rotation by 90 degrees about `(-1, 0, 0)` exists, but `rotation`
returns NaNs. -/
theorem C25_axis_fails : ¬ ∀ (a z : Fin 3 → ℝ) (angle : ℝ), IsDirection z a →
    ∃ R, rotation angle a true = some R ∧ IsRotationAbout R z (angle * Real.pi / 180) := by
  intro h
  obtain ⟨R, hR, _⟩ := h ![-1, 0, 0] ![-1, 0, 0] 90 ⟨by rw [dot3]; simp, 1, one_pos, by simp⟩
  rw [(C25_nan 90 true).2 ⟨1, zero_le_one, rfl⟩] at hR
  simp at hR

/-- A case meeting the hypotheses: the rotation about `(0, 0, 2)`. -/
example : IsDirection ![0, 0, 1] ![0, 0, 2] ∧ (![0, 0, 1] : Fin 3 → ℝ) ≠ ![-1, 0, 0] := by
  refine ⟨⟨by rw [dot3]; simp, 2, two_pos, by ext i; fin_cases i <;> simp⟩, ?_⟩
  intro h; have := congrFun h 0; simp at this

/-! ## C26 -/

theorem canonical_spec {c : Char} {e : Fin 3 → ℝ} (h : axisOf c = some e) (x : ℝ) :
    c ∈ ['X', 'Y', 'Z', 'x', 'y', 'z'] ∧ e ⬝ᵥ e = 1 ∧
      canonicalRotation c.toUpper x = rodrigues e x := by
  unfold axisOf at h
  split at h
  · rename_i hc
    obtain rfl : ![1, 0, 0] = e := by simpa using h
    refine ⟨by rcases hc with rfl | rfl <;> simp, by rw [dot3]; simp, ?_⟩
    have : c.toUpper = 'X' := by rcases hc with rfl | rfl <;> rfl
    rw [this]
    unfold canonicalRotation
    rw [if_pos rfl]
    ext i j
    fin_cases i <;> fin_cases j <;> simp [rodrigues, outer, crossMat]
  split at h
  · rename_i hc
    obtain rfl : ![0, 1, 0] = e := by simpa using h
    refine ⟨by rcases hc with rfl | rfl <;> simp, by rw [dot3]; simp, ?_⟩
    have : c.toUpper = 'Y' := by rcases hc with rfl | rfl <;> rfl
    rw [this]
    unfold canonicalRotation
    rw [if_neg (by decide), if_pos rfl]
    ext i j
    fin_cases i <;> fin_cases j <;> simp [rodrigues, outer, crossMat]
  split at h
  · rename_i hc
    obtain rfl : ![0, 0, 1] = e := by simpa using h
    refine ⟨by rcases hc with rfl | rfl <;> simp, by rw [dot3]; simp, ?_⟩
    have : c.toUpper = 'Z' := by rcases hc with rfl | rfl <;> rfl
    rw [this]
    unfold canonicalRotation
    rw [if_neg (by decide), if_neg (by decide)]
    ext i j
    fin_cases i <;> fin_cases j <;> simp [rodrigues, outer, crossMat]
  · simp at h

theorem axisOf_none {c : Char} (h : axisOf c = none) :
    c ∉ ['X', 'Y', 'Z', 'x', 'y', 'z'] := by
  intro hc
  fin_cases hc <;> simp [axisOf] at h

/-- **C26**.  For three angles and three letters naming the axes `e1`, `e2`, `e3`, `Euler` returns
`R3 R2 R1`, where `Ri` is the rotation about the `i`-th axis by the `i`-th angle; the product is a
rotation. -/
theorem C26_euler {c₁ c₂ c₃ : Char} {e₁ e₂ e₃ : Fin 3 → ℝ} (h₁ : axisOf c₁ = some e₁)
    (h₂ : axisOf c₂ = some e₂) (h₃ : axisOf c₃ = some e₃) (x₁ x₂ x₃ : ℝ) (deg : Bool) :
    ∃ R₁ R₂ R₃, euler [x₁, x₂, x₃] [c₁, c₂, c₃] deg = .ok (R₃ * R₂ * R₁) ∧
      IsRotationAbout R₁ e₁ (angleOf deg x₁) ∧ IsRotationAbout R₂ e₂ (angleOf deg x₂) ∧
      IsRotationAbout R₃ e₃ (angleOf deg x₃) ∧ IsRotation (R₃ * R₂ * R₁) := by
  obtain ⟨m₁, u₁, k₁⟩ := canonical_spec h₁ (angleOf deg x₁)
  obtain ⟨m₂, u₂, k₂⟩ := canonical_spec h₂ (angleOf deg x₂)
  obtain ⟨m₃, u₃, k₃⟩ := canonical_spec h₃ (angleOf deg x₃)
  have s₁ := rodrigues_spec u₁ (angleOf deg x₁)
  have s₂ := rodrigues_spec u₂ (angleOf deg x₂)
  have s₃ := rodrigues_spec u₃ (angleOf deg x₃)
  refine ⟨_, _, _, ?_, s₁, s₂, s₃, ?_, ?_⟩
  · unfold euler
    rw [if_neg (by simp)]
    simp only [eulerLoop]
    rw [if_neg (not_not.2 m₁), if_neg (not_not.2 m₂), if_neg (not_not.2 m₃), k₁, k₂, k₃]
    simp [Matrix.mul_assoc]
  · rw [Matrix.transpose_mul, Matrix.transpose_mul]
    calc _ = rodrigues e₃ (angleOf deg x₃) * (rodrigues e₂ (angleOf deg x₂) *
          (rodrigues e₁ (angleOf deg x₁) * (rodrigues e₁ (angleOf deg x₁))ᵀ) *
          (rodrigues e₂ (angleOf deg x₂))ᵀ) * (rodrigues e₃ (angleOf deg x₃))ᵀ := by
            simp only [Matrix.mul_assoc]
      _ = 1 := by rw [s₁.rot.1, Matrix.mul_one, s₂.rot.1, Matrix.mul_one, s₃.rot.1]
  · rw [Matrix.det_mul, Matrix.det_mul, s₁.rot.2, s₂.rot.2, s₃.rot.2]; simp

/-- `angleOf` is the conversion to radians. -/
theorem C26_unit (x : ℝ) : angleOf true x = x * Real.pi / 180 ∧ angleOf false x = x := by
  simp [angleOf]

/-- **C26**.  Any other number of angles or letters, or any other letter, raises `ValueError`. -/
theorem C26_rejected {angles : List ℝ} {order : List Char} (deg : Bool)
    (h : angles.length ≠ 3 ∨ order.length ≠ 3 ∨ ∃ c ∈ order, axisOf c = none) :
    euler angles order deg = .error .valueError := by
  unfold euler
  split
  · rfl
  · rename_i hl
    push Not at hl
    obtain ⟨h1, h2⟩ := hl
    obtain ⟨c, hc, hn⟩ := (h.resolve_left (not_not.2 h1)).resolve_left (not_not.2 h2)
    have key : ∀ (order : List Char) (angles : List ℝ) (R : Matrix (Fin 3) (Fin 3) ℝ),
        angles.length = order.length → c ∈ order →
        eulerLoop deg order angles R = .error .valueError := by
      intro order
      induction order with
      | nil => intro _ _ _ h; simp at h
      | cons a as ih =>
        intro angles R hl hm
        match angles, hl with
        | x :: xs, hl =>
          simp only [eulerLoop]
          split
          · rfl
          · rename_i ha
            refine ih xs _ (by simpa using hl) ?_
            rcases List.mem_cons.1 hm with rfl | hm
            · exact absurd (axisOf_none hn) ha
            · exact hm
    exact key _ _ _ (h1.trans h2.symm) hc

/-- The default order `ZXZ` meets the hypotheses. -/
example : axisOf 'Z' = some ![0, 0, 1] ∧ axisOf 'X' = some ![1, 0, 0] := by simp [axisOf]

example : axisOf 'w' = none := by simp [axisOf]

/-! ## C27 -/

theorem skew_eq {T z : Fin 3 → ℝ} (h : IsDirection z T) (hne : z ≠ ![-1, 0, 0]) (py : Py) {n : ℤ}
    (hn : n ≠ 0) (p : ℤ) :
    skew py n p T = .ok (some (rodrigues z (2 * Real.pi / n)),
      (match py with
        | .py2 => (((if n < p then p % n else p) / n : ℤ) : ℝ)
        | .py3 => ((if n < p then p % n else p : ℤ) : ℝ) / n) • T) := by
  have hzz : IsDirection z z := ⟨h.1, 1, one_pos, by simp⟩
  unfold skew
  rw [if_neg hn, unitVec_of_isDirection h]
  simp only
  rw [rotation_eq hzz hne]
  cases py <;> simp [angleOf]

/-- **C27** (partial).  Under Python 3, for every `n ≥ 1`, every `p` and every lattice vector `T` not
along `-e1`, the operation returned by `skew(n, p, T)` turns space by `2π/n` about `T`, shifts along
`T`, and its `n`-fold repetition is the translation by `p T` (by `(p mod n) T` when `p > n`).
Missing: `T` along `-e1` (`C27_axis_fails`) and Python 2 (`C27_python2_fails`). -/
theorem C27_screw_partial {T z : Fin 3 → ℝ} (h : IsDirection z T) (hne : z ≠ ![-1, 0, 0]) {n : ℕ}
    (hn : 1 ≤ n) (p : ℤ) :
    ∃ Q c, skew .py3 n p T = .ok (some Q, c) ∧ IsRotationAbout Q z (2 * Real.pi / n) ∧
      (∃ r : ℝ, c = r • T) ∧
      ∀ x, (seitz Q c)^[n] x = x + ((if (n : ℤ) < p then p % n else p : ℤ) : ℝ) • T := by
  have hn0 : (n : ℝ) ≠ 0 := by exact_mod_cast (by omega : n ≠ 0)
  refine ⟨_, _, skew_eq h hne .py3 (by omega) p, ?_, ⟨_, rfl⟩, ?_⟩
  · simpa using rodrigues_spec h.1 (2 * Real.pi / n)
  · set q : ℤ := if (n : ℤ) < p then p % n else p
    simp only [Int.cast_natCast]
    obtain ⟨hz, r, hr, rfl⟩ := h
    have it : ∀ (k : ℕ) x, (seitz (rodrigues z (2 * Real.pi / n)) (((q : ℝ) / n) • r • z))^[k] x =
        (rodrigues z (2 * Real.pi / n) ^ k) *ᵥ x + ((k : ℝ) * ((q : ℝ) / n)) • r • z := by
      intro k x
      induction k with
      | zero => simp
      | succ k ih =>
        rw [Function.iterate_succ_apply', ih]
        unfold seitz
        rw [Matrix.mulVec_add, Matrix.mulVec_mulVec, ← pow_succ', Matrix.mulVec_smul,
          Matrix.mulVec_smul, rodrigues_fix hz, add_assoc, ← add_smul]
        congr 2
        push_cast
        ring
    intro x
    rw [it, rodrigues_pow hz, mul_div_cancel₀ _ hn0, rodrigues_two_pi, mul_div_cancel₀ _ hn0]
    simp

/-- **C27**.  `skew` with `n = 0` raises `ZeroDivisionError`. -/
theorem C27_zero (py : Py) (p : ℤ) (T : Fin 3 → ℝ) :
    skew py 0 p T = .error .zeroDivisionError := by simp [skew]

/-- For a lattice vector along `-e1` no operation is returned: the rotation is made of NaNs. -/
theorem C27_axis_fails : ∃ T : Fin 3 → ℝ, T ≠ 0 ∧ ∃ c, skew .py3 4 1 T = .ok (none, c) := by
  refine ⟨![-1, 0, 0], fun h => by simpa using congrFun h 0, ?_⟩
  have h : IsDirection ![-1, 0, 0] ![-1, 0, 0] := ⟨by rw [dot3]; simp, 1, one_pos, by simp⟩
  unfold skew
  rw [if_neg (by norm_num), unitVec_of_isDirection h]
  simp only [rotation_neg_e1 h]
  exact ⟨_, rfl⟩

/-- Under Python 2 the screw translation is lost: `skew(4, 1, (0, 0, 1))` is a pure rotation, whose
fourfold repetition is not the translation by `T`. -/
theorem C27_python2_fails : ∃ (T : Fin 3 → ℝ) (Q : _) (c : _), skew .py2 4 1 T = .ok (some Q, c) ∧
    c = 0 ∧ (seitz Q c)^[4] 0 ≠ 0 + (1 : ℝ) • T := by
  have h : IsDirection ![0, 0, 1] ![0, 0, 1] := ⟨by rw [dot3]; simp, 1, one_pos, by simp⟩
  have hne : (![0, 0, 1] : Fin 3 → ℝ) ≠ ![-1, 0, 0] := fun h => by simpa using congrFun h 0
  refine ⟨![0, 0, 1], _, _, skew_eq h hne .py2 (by norm_num) 1, by simp, ?_⟩
  have : ∀ Q : Matrix (Fin 3) (Fin 3) ℝ, (seitz Q 0)^[4] 0 = 0 := by
    intro Q
    simp [seitz]
  simp only
  intro hcon
  rw [show (((if (4 : ℤ) < 1 then 1 % 4 else 1) / 4 : ℤ) : ℝ) = 0 by norm_num, zero_smul, this] at hcon
  have := congrFun hcon 2
  simp at this

/-- A case meeting the hypotheses: a `4_2` screw along `e3`, whose fourfold repetition is `2 T`. -/
example : ∃ Q c, skew .py3 (4 : ℕ) 2 ![0, 0, 1] = .ok (some Q, c) ∧
    ∀ x, (seitz Q c)^[4] x = x + (2 : ℝ) • ![0, 0, 1] := by
  have h : IsDirection ![0, 0, 1] ![0, 0, 1] := ⟨by rw [dot3]; simp, 1, one_pos, by simp⟩
  have hne : (![0, 0, 1] : Fin 3 → ℝ) ≠ ![-1, 0, 0] := fun h => by simpa using congrFun h 0
  obtain ⟨Q, c, h1, _, _, h2⟩ := C27_screw_partial h hne (n := 4) (by norm_num) 2
  exact ⟨Q, c, h1, fun x => by simpa using h2 x⟩

end Verif.Props
