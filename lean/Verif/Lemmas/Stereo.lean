import Mathlib.Tactic.Positivity
import Mathlib.Tactic.FieldSimp
import Mathlib.Tactic.NormNum
import Verif.Lemmas.Rotation
import Verif.Model.Stereo
import Verif.Spec.Stereo

/-!
# Lemmas on the stereographic projection
-/

namespace Verif.Lemmas

open Matrix Verif.Model Verif.Spec

theorem parseval {e f₁ f₂ : Fin 3 → ℝ} (he : e ⬝ᵥ e = 1) (h : IsFrame e f₁ f₂) (u : Fin 3 → ℝ) :
    (u ⬝ᵥ f₁) ^ 2 + (u ⬝ᵥ f₂) ^ 2 + (u ⬝ᵥ e) ^ 2 = u ⬝ᵥ u := by
  let M : Matrix (Fin 3) (Fin 3) ℝ := Matrix.of ![f₁, f₂, e]
  have hM : M * Mᵀ = 1 := by
    have h1 := h.norm₁; have h2 := h.norm₂; have h3 := h.orth; have h4 := h.perp₁
    have h5 := h.perp₂
    rw [dot3] at *
    ext i j
    fin_cases i <;> fin_cases j <;> simp [M, Matrix.mul_apply, Fin.sum_univ_three] <;> linarith
  have hM' := mul_eq_one_comm.1 hM
  have e' : ∀ i j, f₁ i * f₁ j + f₂ i * f₂ j + e i * e j = (1 : Matrix (Fin 3) (Fin 3) ℝ) i j := by
    intro i j
    rw [← hM']
    simp [M, Matrix.mul_apply, Fin.sum_univ_three]
  have a00 := e' 0 0; have a01 := e' 0 1; have a02 := e' 0 2
  have a11 := e' 1 1; have a12 := e' 1 2; have a22 := e' 2 2
  simp at a00 a01 a02 a11 a12 a22
  simp only [dot3]
  linear_combination u 0 ^ 2 * a00 + u 1 ^ 2 * a11 + u 2 ^ 2 * a22 + 2 * u 0 * u 1 * a01 +
    2 * u 0 * u 2 * a02 + 2 * u 1 * u 2 * a12

/-- The frame of the code is a frame when `z` is not nearly, but not exactly, along `e3`. -/
theorem stereoFrame_isFrame {z e : Fin 3 → ℝ} (hd : IsDirection e z)
    (h : 1 / 1000000 < z 0 ^ 2 + z 1 ^ 2 ∨ z 0 = 0 ∧ z 1 = 0) :
    IsFrame e (stereoFrame z).1 (stereoFrame z).2 := by
  obtain ⟨he, r, hr, rfl⟩ := hd
  unfold stereoFrame
  split
  · rename_i h1
    set w : Fin 3 → ℝ := ![(r • e) 1, -(r • e) 0, 0] with hw
    have hww : w ⬝ᵥ w = (r • e) 0 ^ 2 + (r • e) 1 ^ 2 := by rw [dot3]; simp [hw]; ring
    have hw0 : w ≠ 0 := by
      intro h0; rw [h0] at hww; simp at hww; simp at h1; linarith
    rcases hn : unitVec w with _ | f
    · exact absurd ((unitVec_none _).1 hn) hw0
    · have hfe : (vnorm w)⁻¹ • w = f := by
        unfold unitVec at hn; split at hn <;> simp at hn; exact hn
      obtain ⟨hf, hpos, hwf⟩ := unitVec_some hn
      have hwe : e ⬝ᵥ w = 0 := by rw [dot3]; simp [hw]; ring
      have hef : e ⬝ᵥ f = 0 := by
        rw [← hfe, dotProduct_smul, hwe]; simp
      have hc : (r • e) ⨯₃ f = r • (e ⨯₃ f) := by rw [LinearMap.map_smul]; rfl
      have hcn : (e ⨯₃ f) ⬝ᵥ (e ⨯₃ f) = 1 := by rw [cross_norm he hef, hf]
      have hv : vnorm (r • (e ⨯₃ f)) = r := vnorm_smul_unit hcn hr.le
      simp only
      rw [hfe, hc, hv, smul_smul, inv_mul_cancel₀ hr.ne', one_smul]
      refine ⟨hf, hcn, ?_, by rw [dotProduct_comm]; exact hef, ?_⟩
      · rw [dot3]; simp [cross_apply]; ring
      · rw [dot3]; simp [cross_apply]; ring
  · rename_i h1
    obtain ⟨h0, h1'⟩ := h.resolve_left h1
    simp only [Pi.smul_apply, smul_eq_mul, mul_eq_zero, hr.ne', false_or] at h0 h1'
    refine ⟨?_, ?_, ?_, ?_, ?_⟩ <;> rw [dot3] <;> simp [h0, h1']

theorem mirror_norm {e : Fin 3 → ℝ} (he : e ⬝ᵥ e = 1) (p : Fin 3 → ℝ) :
    mirror e p ⬝ᵥ mirror e p = p ⬝ᵥ p := by
  unfold mirror
  rw [dot3] at *
  simp only [dot3, Pi.sub_apply, Pi.smul_apply, smul_eq_mul]
  linear_combination 4 * (p 0 * e 0 + p 1 * e 1 + p 2 * e 2) ^ 2 * he

theorem mirror_dot {e : Fin 3 → ℝ} (he : e ⬝ᵥ e = 1) (p : Fin 3 → ℝ) :
    mirror e p ⬝ᵥ e = -(p ⬝ᵥ e) := by
  unfold mirror
  rw [sub_dotProduct, smul_dotProduct, he]; simp; ring

theorem mirror_mirror {e : Fin 3 → ℝ} (he : e ⬝ᵥ e = 1) (p : Fin 3 → ℝ) :
    mirror e (mirror e p) = p := by
  have := mirror_dot he p
  unfold mirror at this ⊢
  rw [this]
  module

theorem mirror_of_orth {e p : Fin 3 → ℝ} (h : p ⬝ᵥ e = 0) : mirror e p = p := by
  unfold mirror; rw [h]; simp

theorem mirror_dot_frame {e f : Fin 3 → ℝ} (h : f ⬝ᵥ e = 0) (p : Fin 3 → ℝ) :
    mirror e p ⬝ᵥ f = p ⬝ᵥ f := by
  unfold mirror
  rw [sub_dotProduct, smul_dotProduct, dotProduct_comm e f, h]; simp

theorem vnorm_mirror {e : Fin 3 → ℝ} (he : e ⬝ᵥ e = 1) (p : Fin 3 → ℝ) :
    vnorm (mirror e p) = vnorm p := by
  unfold vnorm; rw [mirror_norm he]

theorem negQ (e p : Fin 3 → ℝ) :
    -((-1 + (2 : ℝ) • outer e e : Matrix (Fin 3) (Fin 3) ℝ) *ᵥ p) = mirror e p := by
  ext i
  fin_cases i <;> simp [mirror, outer, Matrix.mulVec, dot3, Matrix.one_apply] <;> ring

/-- The last lines of the code, as a function of the projected unit vector. -/
noncomputable def tail (rnd : ℝ → ℝ) (R : ℝ) (e f₁ f₂ u : Fin 3 → ℝ) : Except Err (Option (Fin 2 → ℝ)) :=
  let c := u ⬝ᵥ e
  let t := rnd (1 - c ^ 2)
  if t < 0 then .error .valueError
  else
    let s := Real.sqrt t
    if s < 1 / 1000000 then .ok (some ![0, 0])
    else .ok (some ![R * Real.sqrt ((1 - c) / (1 + c)) * (u ⬝ᵥ f₁) / s,
      R * Real.sqrt ((1 - c) / (1 + c)) * (u ⬝ᵥ f₂) / s])

theorem stereoProj_eq {z e : Fin 3 → ℝ} (hd : IsDirection e z) (rnd : ℝ → ℝ) (p : Fin 3 → ℝ) :
    stereoProj rnd p z = if 1 / 1000000 < vnorm p then
      tail rnd (vnorm z) e (stereoFrame z).1 (stereoFrame z).2
        ((vnorm p)⁻¹ • (if 1 / 1000000 < p ⬝ᵥ z then p else mirror e p))
    else .ok (some ![0, 0]) := by
  have h1 := (unitVec_of_isDirection hd)
  obtain ⟨he, hpos, hz⟩ := unitVec_some h1
  have hzhat : (vnorm z)⁻¹ • z = e := by
    nth_rewrite 2 [hz]; rw [smul_smul, inv_mul_cancel₀ hpos.ne', one_smul]
  have hdot : ∀ u : Fin 3 → ℝ, u ⬝ᵥ z / vnorm z = u ⬝ᵥ e := by
    intro u
    nth_rewrite 1 [hz]
    rw [dotProduct_smul, smul_eq_mul, mul_comm, mul_div_assoc, div_self hpos.ne', mul_one]
  unfold stereoProj tail
  simp only [hzhat, hdot, negQ, if_neg hpos.ne']
  split
  · by_cases hp : 1 / 1000000 < p ⬝ᵥ z
    · simp only [if_pos hp]
    · simp only [if_neg hp]
  · rfl

theorem rnd_zero {rnd : ℝ → ℝ} (h : IsRound rnd) : rnd 0 = 0 := by
  obtain ⟨k, hk, hb⟩ := h 0
  rw [abs_le] at hb
  have h1 : (k : ℝ) < 1 := by linarith [hb.1]
  have h2 : (-1 : ℝ) < k := by linarith [hb.2]
  have h3 : k < 1 := by exact_mod_cast h1
  have h4 : -1 < k := by exact_mod_cast h2
  obtain rfl : k = 0 := by omega
  simpa using hk

theorem rnd_nonneg {rnd : ℝ → ℝ} (h : IsRound rnd) {x : ℝ} (hx : 0 ≤ x) : 0 ≤ rnd x := by
  obtain ⟨k, hk, hb⟩ := h x
  rw [abs_le] at hb
  have h2 : (-1 : ℝ) < k := by linarith [hb.2]
  have h4 : -1 < k := by exact_mod_cast h2
  have : (0 : ℝ) ≤ k := by exact_mod_cast (by omega : 0 ≤ k)
  rw [hk]; positivity

/-- Either the rounded value is zero, or it is at least `1e-6`. -/
theorem rnd_cases {rnd : ℝ → ℝ} (h : IsRound rnd) {x : ℝ} (hx : 0 ≤ x) :
    (rnd x = 0 ∧ x ≤ 5 / 10000000) ∨
      (1 / 1000000 ≤ rnd x ∧ |x - rnd x| ≤ 5 / 10000000) := by
  obtain ⟨k, hk, hb⟩ := h x
  have hb' := hb
  rw [abs_le] at hb
  have h2 : (-1 : ℝ) < k := by linarith [hb.2]
  have h4 : -1 < k := by exact_mod_cast h2
  rcases (by omega : k = 0 ∨ 1 ≤ k) with rfl | hk1
  · left; constructor
    · simpa using hk
    · simp at hb; linarith [hb.2]
  · right
    have : (1 : ℝ) ≤ k := by exact_mod_cast hk1
    rw [hk]
    exact ⟨by linarith, hb'⟩

/-- Rounding does not push a point of the upper half out of the disc. -/
theorem round_disc {rnd : ℝ → ℝ} (h : IsRound rnd) {c : ℝ} (h0 : 0 ≤ c) (h1 : c ≤ 1)
    (hr : 1 / 1000000 ≤ rnd (1 - c ^ 2)) : (1 - c) ^ 2 ≤ rnd (1 - c ^ 2) := by
  obtain ⟨k, hk, hb⟩ := h (1 - c ^ 2)
  rw [abs_le] at hb
  by_contra hcon
  push Not at hcon
  rw [hk] at hcon hr
  have hk6 : k ≤ 1000000 := by
    have : (k : ℝ) < 1000001 := by nlinarith
    have : k < 1000001 := by exact_mod_cast this
    omega
  rcases hk6.eq_or_lt with rfl | hk6
  · push_cast at hcon; nlinarith
  · have hk' : (k : ℝ) ≤ 999999 := by exact_mod_cast (by omega : k ≤ 999999)
    have hc2 : 5 / 10000000 ≤ c ^ 2 := by linarith
    have hc : 7 / 10000 ≤ c := by
      by_contra h'
      push Not at h'
      nlinarith
    rcases le_or_gt c (1 / 2) with hlt | hgt
    · nlinarith
    · -- `2 c (1 - c) ≥ 1 - c ≥ (1 - c²)/2 ≥ k/2 · 1e-6`
      nlinarith

theorem tail_ok {rnd : ℝ → ℝ} (h : IsRound rnd) {R : ℝ} (hR : 0 < R) {e f₁ f₂ u : Fin 3 → ℝ}
    (he : e ⬝ᵥ e = 1) (hf : IsFrame e f₁ f₂) (hu : u ⬝ᵥ u = 1) (hc : 0 ≤ u ⬝ᵥ e) :
    ∃ v, tail rnd R e f₁ f₂ u = .ok (some v) ∧ v 0 ^ 2 + v 1 ^ 2 ≤ R ^ 2 ∧
      (v 0 - R * (u ⬝ᵥ f₁) / (1 + u ⬝ᵥ e)) ^ 2 + (v 1 - R * (u ⬝ᵥ f₂) / (1 + u ⬝ᵥ e)) ^ 2 ≤
        (R / 1000) ^ 2 := by
  have hp := parseval he hf u
  rw [hu] at hp
  unfold tail
  simp only
  generalize u ⬝ᵥ e = c at *
  generalize u ⬝ᵥ f₁ = a at *
  generalize u ⬝ᵥ f₂ = b at *
  have hc1 : c ≤ 1 := by nlinarith [sq_nonneg a, sq_nonneg b]
  have hx0 : 0 ≤ 1 - c ^ 2 := by nlinarith
  have hab : a ^ 2 + b ^ 2 = 1 - c ^ 2 := by linarith
  have h1c : (0 : ℝ) < 1 + c := by linarith
  rw [if_neg (not_lt.2 (rnd_nonneg h hx0))]
  have hcases := rnd_cases h hx0
  have hdisc := round_disc h hc hc1
  generalize rnd (1 - c ^ 2) = g at *
  rcases hcases with ⟨rfl, hx⟩ | ⟨hg, hxg⟩
  · rw [if_pos (by rw [Real.sqrt_zero]; norm_num)]
    refine ⟨_, rfl, by simp; positivity, ?_⟩
    simp only [Matrix.cons_val_zero, Matrix.cons_val_one]
    have : (0 - R * a / (1 + c)) ^ 2 + (0 - R * b / (1 + c)) ^ 2 =
        R ^ 2 * ((a ^ 2 + b ^ 2) / (1 + c) ^ 2) := by field_simp; ring
    rw [this, hab, div_pow]
    have h2 : (1 - c ^ 2) / (1 + c) ^ 2 ≤ 1 - c ^ 2 := by
      rw [div_le_iff₀ (by positivity)]; nlinarith
    have h3 : (0 : ℝ) < R ^ 2 := by positivity
    nlinarith
  · have hs0 : (1 / 1000 : ℝ) ≤ Real.sqrt g := by
      apply Real.le_sqrt_of_sq_le; norm_num; linarith
    have hss : Real.sqrt g ^ 2 = g := Real.sq_sqrt (by linarith)
    rw [if_neg (by linarith)]
    refine ⟨_, rfl, ?_⟩
    simp only [Matrix.cons_val_zero, Matrix.cons_val_one]
    have hq : Real.sqrt ((1 - c) / (1 + c)) = Real.sqrt (1 - c ^ 2) / (1 + c) := by
      rw [show (1 - c) / (1 + c) = (1 - c ^ 2) / (1 + c) ^ 2 by field_simp; ring,
        Real.sqrt_div hx0, Real.sqrt_sq h1c.le]
    rw [hq]
    have hy : Real.sqrt (1 - c ^ 2) ^ 2 = 1 - c ^ 2 := Real.sq_sqrt hx0
    have hy0 := Real.sqrt_nonneg (1 - c ^ 2)
    generalize Real.sqrt (1 - c ^ 2) = y at *
    generalize Real.sqrt g = s at *
    have hspos : 0 < s := by linarith
    constructor
    · have : (R * (y / (1 + c)) * a / s) ^ 2 + (R * (y / (1 + c)) * b / s) ^ 2 =
          R ^ 2 * (y ^ 2 * (a ^ 2 + b ^ 2) / ((1 + c) ^ 2 * s ^ 2)) := by field_simp
      rw [this, hab, hy, hss]
      have h4 : (1 - c ^ 2) * (1 - c ^ 2) / ((1 + c) ^ 2 * g) = (1 - c) ^ 2 / g := by
        have : g ≠ 0 := by linarith
        field_simp; ring
      rw [h4]
      have h5 : (1 - c) ^ 2 / g ≤ 1 := by
        rw [div_le_one (by linarith)]; exact hdisc hg
      nlinarith [sq_nonneg R]
    · have : (R * (y / (1 + c)) * a / s - R * a / (1 + c)) ^ 2 +
          (R * (y / (1 + c)) * b / s - R * b / (1 + c)) ^ 2 =
          R ^ 2 * ((a ^ 2 + b ^ 2) * (y - s) ^ 2 / ((1 + c) ^ 2 * s ^ 2)) := by field_simp
      rw [this, hab, ← hy, div_pow]
      have hd : (y - s) ^ 2 * (y + s) ^ 2 ≤ (5 / 10000000) ^ 2 := by
        have : (y - s) ^ 2 * (y + s) ^ 2 = (1 - c ^ 2 - g) ^ 2 := by
          rw [← hy, ← hss]; ring
        rw [this, ← sq_abs]
        exact pow_le_pow_left₀ (abs_nonneg _) hxg 2
      have hle : y ^ 2 * (y - s) ^ 2 ≤ (5 / 10000000) ^ 2 := by
        have h6 : y ^ 2 ≤ (y + s) ^ 2 := pow_le_pow_left₀ hy0 (by linarith) 2
        calc y ^ 2 * (y - s) ^ 2 ≤ (y + s) ^ 2 * (y - s) ^ 2 :=
              mul_le_mul_of_nonneg_right h6 (sq_nonneg _)
          _ ≤ _ := by linarith
      have hden : (1 / 1000 : ℝ) ^ 2 ≤ (1 + c) ^ 2 * s ^ 2 := by
        have h6 : 1 ≤ (1 + c) ^ 2 := one_le_pow₀ (by linarith)
        have h7 : (1 / 1000 : ℝ) ^ 2 ≤ s ^ 2 := pow_le_pow_left₀ (by norm_num) hs0 2
        calc (1 / 1000 : ℝ) ^ 2 ≤ s ^ 2 := h7
          _ = 1 * s ^ 2 := (one_mul _).symm
          _ ≤ _ := mul_le_mul_of_nonneg_right h6 (sq_nonneg _)
      have h8 : y ^ 2 * (y - s) ^ 2 / ((1 + c) ^ 2 * s ^ 2) ≤ 1 / 1000 ^ 2 := by
        rw [div_le_div_iff₀ (by positivity) (by norm_num)]
        linarith
      have h3 : (0 : ℝ) < R ^ 2 := by positivity
      rw [div_eq_mul_one_div (R ^ 2)]
      exact mul_le_mul_of_nonneg_left h8 h3.le

end Verif.Lemmas
