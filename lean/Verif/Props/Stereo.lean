import Verif.Lemmas.Stereo

/-!
# C64: stereographic projection
-/

namespace Verif.Props

open Matrix Verif.Model Verif.Spec Verif.Lemmas

theorem dot_dir {z e : Fin 3 → ℝ} (hd : IsDirection e z) (p : Fin 3 → ℝ) :
    0 < vnorm z ∧ p ⬝ᵥ z = vnorm z * (p ⬝ᵥ e) := by
  obtain ⟨he, hpos, hz⟩ := unitVec_some (unitVec_of_isDirection hd)
  refine ⟨hpos, ?_⟩
  nth_rewrite 1 [hz]
  rw [dotProduct_smul, smul_eq_mul]

/-- **C64** (partial).  Let `z` be a zone axis that is along `e3` or clearly off it, and let `p · z` not
lie in `(0, 1e-6]`.  Then `stereo_proj(p, z)` returns a point of the disc of radius `|z|`; for `p`
longer than `1e-6` it lies within `|z|/1000` of the image, under the projection from the south pole, of
the direction `u` of `p` (of its mirror image when `p` points below the equatorial plane), with
coordinates along an orthonormal frame that depends on `z` only.  Missing: the excluded `z` and `p`,
for which the claims are false (`C64_disc_fails`, `C64_frame_fails`). -/
theorem C64_projection_partial {rnd : ℝ → ℝ} (hr : IsRound rnd) {z e : Fin 3 → ℝ}
    (hd : IsDirection e z) (hz : 1 / 1000000 < z 0 ^ 2 + z 1 ^ 2 ∨ z 0 = 0 ∧ z 1 = 0) :
    ∃ f₁ f₂, IsFrame e f₁ f₂ ∧ ∀ p : Fin 3 → ℝ, p ⬝ᵥ z ≤ 0 ∨ 1 / 1000000 < p ⬝ᵥ z →
      ∃ v, stereoProj rnd p z = .ok (some v) ∧ v 0 ^ 2 + v 1 ^ 2 ≤ z ⬝ᵥ z ∧
        (1 / 1000000 < vnorm p → ∃ u q,
          (∃ s : ℝ, 0 < s ∧ (s • u = p ∨ p ⬝ᵥ z ≤ 0 ∧ s • u = mirror e p)) ∧ u ⬝ᵥ u = 1 ∧ 0 ≤ u ⬝ᵥ e ∧
          IsStereo (vnorm z) e u q ∧
          (v 0 - q ⬝ᵥ f₁) ^ 2 + (v 1 - q ⬝ᵥ f₂) ^ 2 ≤ (vnorm z / 1000) ^ 2) := by
  have hf := stereoFrame_isFrame hd hz
  refine ⟨_, _, hf, fun p hp => ?_⟩
  rw [stereoProj_eq hd]
  have he := hd.1
  by_cases hn : 1 / 1000000 < vnorm p
  · rw [if_pos hn]
    set w := if 1 / 1000000 < p ⬝ᵥ z then p else mirror e p with hw
    obtain ⟨hpos, hdot⟩ := dot_dir hd p
    have hn0 : 0 < vnorm p := by linarith
    have hww : w ⬝ᵥ w = p ⬝ᵥ p := by
      rw [hw]; split
      · rfl
      · exact mirror_norm he p
    have hwe : 0 ≤ w ⬝ᵥ e := by
      rw [hw]; split
      · rename_i h
        rw [hdot] at h
        by_contra hcon
        push Not at hcon
        nlinarith
      · rename_i h
        have h' := hp.resolve_right h
        rw [hdot] at h'
        rw [mirror_dot he]
        by_contra hcon
        push Not at hcon
        nlinarith
    have hu : ((vnorm p)⁻¹ • w) ⬝ᵥ ((vnorm p)⁻¹ • w) = 1 := by
      rw [smul_dotProduct, dotProduct_smul, hww, ← vnorm_sq]
      simp only [smul_eq_mul]
      field_simp
    have hue : 0 ≤ ((vnorm p)⁻¹ • w) ⬝ᵥ e := by
      rw [smul_dotProduct]; exact mul_nonneg (by positivity) hwe
    obtain ⟨v, h1, h2, h3⟩ := tail_ok hr hpos he hf hu hue
    refine ⟨v, h1, by rw [← vnorm_sq, ← pow_two]; exact h2, fun _ => ?_⟩
    have h1c : (1 : ℝ) + ((vnorm p)⁻¹ • w) ⬝ᵥ e ≠ 0 := by linarith
    refine ⟨(vnorm p)⁻¹ • w, (vnorm z / (1 + ((vnorm p)⁻¹ • w) ⬝ᵥ e)) •
      ((vnorm p)⁻¹ • w - (((vnorm p)⁻¹ • w) ⬝ᵥ e) • e), ⟨vnorm p, hn0, ?_⟩, hu, hue, ⟨?_, ?_⟩, ?_⟩
    · rw [smul_smul, mul_inv_cancel₀ hn0.ne', one_smul, hw]
      split
      · exact Or.inl rfl
      · rename_i h; exact Or.inr ⟨hp.resolve_right h, rfl⟩
    · rw [smul_dotProduct, sub_dotProduct, smul_dotProduct (((vnorm p)⁻¹ • w) ⬝ᵥ e), he]; simp
    · refine ⟨1 / (1 + ((vnorm p)⁻¹ • w) ⬝ᵥ e), ?_⟩
      generalize (vnorm p)⁻¹ • w = u at *
      ext i
      simp only [Pi.smul_apply, Pi.sub_apply, Pi.add_apply, Pi.neg_apply, smul_eq_mul]
      field_simp
      ring
    · have hcoord : ∀ f : Fin 3 → ℝ, f ⬝ᵥ e = 0 →
          ((vnorm z / (1 + ((vnorm p)⁻¹ • w) ⬝ᵥ e)) •
            ((vnorm p)⁻¹ • w - (((vnorm p)⁻¹ • w) ⬝ᵥ e) • e)) ⬝ᵥ f =
          vnorm z * (((vnorm p)⁻¹ • w) ⬝ᵥ f) / (1 + ((vnorm p)⁻¹ • w) ⬝ᵥ e) := by
        intro f hfe
        rw [smul_dotProduct, sub_dotProduct, smul_dotProduct (((vnorm p)⁻¹ • w) ⬝ᵥ e),
          dotProduct_comm e f, hfe]
        simp only [smul_eq_mul]
        ring
      rw [hcoord _ hf.perp₁, hcoord _ hf.perp₂]
      exact h3
  · rw [if_neg hn]
    refine ⟨_, rfl, ?_, fun h => absurd h hn⟩
    have h0 : 0 ≤ z ⬝ᵥ z := Finset.sum_nonneg fun i _ => mul_self_nonneg (z i)
    simpa using h0

/-- **C64** for Miller indices: when `p` and `z` are integer vectors, `z ≠ 0`, the image always lies in
the disc. -/
theorem C64_integer_disc {rnd : ℝ → ℝ} (hr : IsRound rnd) (p z : Fin 3 → ℤ) (hz : z ≠ 0) :
    ∃ v, stereoProj rnd (fun i => (p i : ℝ)) (fun i => (z i : ℝ)) = .ok (some v) ∧
      v 0 ^ 2 + v 1 ^ 2 ≤ ((z 0 : ℝ) ^ 2 + z 1 ^ 2 + z 2 ^ 2) := by
  have hz' : (fun i => (z i : ℝ)) ≠ 0 := by
    intro h; apply hz; ext i; have := congrFun h i; simpa using this
  obtain ⟨e, hd⟩ := exists_direction hz'
  have h1 : (1 : ℝ) / 1000000 < (z 0 : ℝ) ^ 2 + (z 1 : ℝ) ^ 2 ∨ (z 0 : ℝ) = 0 ∧ (z 1 : ℝ) = 0 := by
    rcases (by positivity : 0 ≤ z 0 ^ 2 + z 1 ^ 2).eq_or_lt with h | h
    · right
      have h0 : z 0 = 0 := by nlinarith [sq_nonneg (z 0), sq_nonneg (z 1)]
      have h1 : z 1 = 0 := by nlinarith [sq_nonneg (z 0), sq_nonneg (z 1)]
      simp [h0, h1]
    · left
      have : (1 : ℝ) ≤ (z 0 : ℝ) ^ 2 + (z 1 : ℝ) ^ 2 := by exact_mod_cast h
      linarith
  obtain ⟨f₁, f₂, _, h⟩ := C64_projection_partial hr hd h1
  have hdot : (fun i => (p i : ℝ)) ⬝ᵥ (fun i => (z i : ℝ)) =
      ((p 0 * z 0 + p 1 * z 1 + p 2 * z 2 : ℤ) : ℝ) := by rw [dot3]; push_cast; ring
  obtain ⟨v, hv, hle, _⟩ := h (fun i => (p i : ℝ)) (by
    rw [hdot]
    rcases le_or_gt (p 0 * z 0 + p 1 * z 1 + p 2 * z 2) 0 with h | h
    · left; exact_mod_cast h
    · right
      have : (1 : ℝ) ≤ ((p 0 * z 0 + p 1 * z 1 + p 2 * z 2 : ℤ) : ℝ) := by exact_mod_cast h
      linarith)
  refine ⟨v, hv, hle.trans (le_of_eq ?_)⟩
  rw [dot3]; ring

/-- **C64** (partial).  The image depends only on the direction of `p`, as long as neither vector is
shorter than `1e-6` nor has its product with `z` in `(0, 1e-6]`.  Missing: the excluded vectors
(`C64_scale_fails`). -/
theorem C64_scale_partial {rnd : ℝ → ℝ} {z e : Fin 3 → ℝ} (hd : IsDirection e z) {p : Fin 3 → ℝ}
    {t : ℝ} (ht : 0 < t) (h1 : 1 / 1000000 < vnorm p) (h2 : 1 / 1000000 < vnorm (t • p))
    (h3 : p ⬝ᵥ z ≤ 0 ∨ 1 / 1000000 < p ⬝ᵥ z)
    (h4 : (t • p) ⬝ᵥ z ≤ 0 ∨ 1 / 1000000 < (t • p) ⬝ᵥ z) :
    stereoProj rnd (t • p) z = stereoProj rnd p z := by
  rw [stereoProj_eq hd, stereoProj_eq hd, if_pos h1, if_pos h2]
  have hv : vnorm (t • p) = t * vnorm p := by
    unfold vnorm
    rw [smul_dotProduct, dotProduct_smul, smul_smul]
    simp only [smul_eq_mul]
    rw [Real.sqrt_mul (by positivity), Real.sqrt_mul_self ht.le]
  have hm : mirror e (t • p) = t • mirror e p := by
    unfold mirror
    rw [smul_dotProduct]
    simp only [smul_eq_mul]
    module
  have hs : ∀ w : Fin 3 → ℝ, (vnorm (t • p))⁻¹ • (t • w) = (vnorm p)⁻¹ • w := by
    intro w
    rw [hv, smul_smul]
    congr 1
    field_simp
  have hiff : (1 / 1000000 < (t • p) ⬝ᵥ z) ↔ (1 / 1000000 < p ⬝ᵥ z) := by
    rw [smul_dotProduct, smul_eq_mul] at *
    constructor
    · intro h
      refine h3.resolve_left fun h' => ?_
      nlinarith
    · intro h
      refine h4.resolve_left fun h' => ?_
      nlinarith
  by_cases h : 1 / 1000000 < p ⬝ᵥ z
  · rw [if_pos h, if_pos (hiff.2 h), hs]
  · rw [if_neg h, if_neg (fun h' => h (hiff.1 h')), hm, hs]

/-- **C64** (partial).  A direction and its mirror image in the equatorial plane have the same image.
Missing: directions with `0 < |p · z| ≤ 1e-6`. -/
theorem C64_mirror_partial {rnd : ℝ → ℝ} {z e : Fin 3 → ℝ} (hd : IsDirection e z) {p : Fin 3 → ℝ}
    (h : p ⬝ᵥ z = 0 ∨ 1 / 1000000 < |p ⬝ᵥ z|) :
    stereoProj rnd (mirror e p) z = stereoProj rnd p z := by
  have he := hd.1
  obtain ⟨hpos, hdot⟩ := dot_dir hd p
  have hm : mirror e p ⬝ᵥ z = -(p ⬝ᵥ z) := by
    rw [(dot_dir hd _).2, mirror_dot he, hdot]; ring
  rcases h with h | h
  · rw [hdot] at h
    rw [mirror_of_orth ((mul_eq_zero.1 h).resolve_left hpos.ne')]
  · rw [stereoProj_eq hd, stereoProj_eq hd, vnorm_mirror he, mirror_mirror he, hm]
    split
    · rcases lt_abs.1 h with h' | h'
      · rw [if_neg (by linarith), if_pos h']
      · rw [if_pos h', if_neg (by linarith)]
    · rfl

/-- **C64**.  The zone axis, and every multiple of it, is mapped to the centre. -/
theorem C64_axis {rnd : ℝ → ℝ} (hr : IsRound rnd) {z : Fin 3 → ℝ} (hz : z ≠ 0) (t : ℝ) :
    stereoProj rnd (t • z) z = .ok (some ![0, 0]) := by
  obtain ⟨e, hd⟩ := exists_direction hz
  have he := hd.1
  rw [stereoProj_eq hd]
  by_cases hn : 1 / 1000000 < vnorm (t • z)
  · rw [if_pos hn]
    set w := if 1 / 1000000 < (t • z) ⬝ᵥ z then t • z else mirror e (t • z) with hw
    have hw' : ∃ s : ℝ, w = s • e := by
      obtain ⟨r, _, hzr⟩ := hd.2
      rw [hw]
      split
      · exact ⟨t * r, by rw [hzr, smul_smul]⟩
      · refine ⟨-(t * r), ?_⟩
        unfold mirror
        rw [hzr, smul_smul, smul_dotProduct, he]
        simp only [smul_eq_mul]
        module
    have hww : w ⬝ᵥ w = (t • z) ⬝ᵥ (t • z) := by
      rw [hw]; split
      · rfl
      · exact mirror_norm he _
    obtain ⟨s, hs⟩ := hw'
    have hn0 : vnorm (t • z) ≠ 0 := by intro h0; rw [h0] at hn; norm_num at hn
    have hc : (((vnorm (t • z))⁻¹ • w) ⬝ᵥ e) ^ 2 = 1 := by
      have h1 := vnorm_sq (t • z)
      rw [← hww, hs, smul_dotProduct, dotProduct_smul, he] at h1
      rw [hs, smul_dotProduct, smul_dotProduct, he]
      simp only [smul_eq_mul, mul_one] at *
      field_simp
      linarith
    unfold tail
    simp only [hc, sub_self, rnd_zero hr, lt_irrefl, if_false, Real.sqrt_zero]
    rw [if_pos (by norm_num)]
  · rw [if_neg hn]

theorem rnd_grid {rnd : ℝ → ℝ} (hr : IsRound rnd) (m : ℤ) :
    rnd (m * (1 / 1000000)) = m * (1 / 1000000) := by
  obtain ⟨k, hk, hb⟩ := hr (m * (1 / 1000000))
  rw [abs_le] at hb
  have h1 : (k : ℝ) < m + 1 := by linarith [hb.1]
  have h2 : (m : ℝ) < k + 1 := by linarith [hb.2]
  have h3 : k < m + 1 := by exact_mod_cast h1
  have h4 : m < k + 1 := by exact_mod_cast h2
  obtain rfl : k = m := by omega
  exact hk

theorem e3_dir : IsDirection ![0, 0, 1] ![0, 0, 1] := ⟨by rw [dot3]; simp, 1, one_pos, by simp⟩

theorem tiny_image {rnd : ℝ → ℝ} (hr : IsRound rnd) :
    stereoProj rnd ![72 / 100000000, 0, 96 / 100000000] ![0, 0, 1] = .ok (some ![3, 0]) := by
  rw [stereoProj_eq e3_dir]
  have hn : vnorm ![72 / 100000000, 0, 96 / 100000000] = 120 / 100000000 := by
    unfold vnorm
    rw [dot3]
    simp only [Matrix.cons_val_zero, Matrix.cons_val_one, Matrix.cons_val_two, Matrix.tail_cons,
      Matrix.head_cons, Matrix.cons_val]
    rw [show (72 / 100000000 * (72 / 100000000) + 0 * 0 + 96 / 100000000 * (96 / 100000000) : ℝ) =
      (120 / 100000000) ^ 2 by norm_num]
    exact Real.sqrt_sq (by norm_num)
  have hz : vnorm ![0, 0, (1 : ℝ)] = 1 := by
    unfold vnorm; rw [dot3]; simp
  rw [hn, hz, if_pos (by norm_num), if_neg (by rw [dot3]; simp; norm_num)]
  have hu : (120 / 100000000 : ℝ)⁻¹ • mirror ![0, 0, 1] ![72 / 100000000, 0, 96 / 100000000] =
      ![3 / 5, 0, -4 / 5] := by
    unfold mirror
    ext i
    fin_cases i <;> simp [dot3] <;> norm_num
  have hfr : stereoFrame ![0, 0, (1 : ℝ)] = (![1, 0, 0], ![0, 1, 0]) := by
    unfold stereoFrame; rw [if_neg (by norm_num)]
  rw [hu, hfr]
  unfold tail
  simp only [dot3, Matrix.cons_val_zero, Matrix.cons_val_one, Matrix.cons_val]
  have hg := rnd_grid hr 360000
  rw [show (1 : ℝ) - (3 / 5 * 0 + 0 * 0 + -4 / 5 * 1) ^ 2 = ((360000 : ℤ) : ℝ) * (1 / 1000000) by
    norm_num, hg]
  rw [if_neg (by norm_num)]
  have hs : Real.sqrt (((360000 : ℤ) : ℝ) * (1 / 1000000)) = 3 / 5 := by
    rw [show ((360000 : ℤ) : ℝ) * (1 / 1000000) = (3 / 5) ^ 2 by norm_num]
    exact Real.sqrt_sq (by norm_num)
  rw [hs, if_neg (by norm_num)]
  have hq : Real.sqrt ((1 - (3 / 5 * 0 + 0 * 0 + -4 / 5 * 1)) /
      (1 + (3 / 5 * 0 + 0 * 0 + -4 / 5 * 1))) = 3 := by
    rw [show ((1 : ℝ) - (3 / 5 * 0 + 0 * 0 + -4 / 5 * 1)) /
      (1 + (3 / 5 * 0 + 0 * 0 + -4 / 5 * 1)) = 3 ^ 2 by norm_num]
    exact Real.sqrt_sq (by norm_num)
  rw [hq]
  congr 2
  ext i
  fin_cases i <;> simp <;> norm_num

/-- **C64** fails for short vectors: this one, longer than `1e-6` and 53 degrees off the zone axis
`(0, 0, 1)`, is mapped to the point `(3, 0)`, outside the unit disc. -/
theorem C64_disc_fails {rnd : ℝ → ℝ} (hr : IsRound rnd) : ∃ p z : Fin 3 → ℝ, z ≠ 0 ∧
    1 / 1000000 < vnorm p ∧ ∃ v, stereoProj rnd p z = .ok (some v) ∧
      ¬ v 0 ^ 2 + v 1 ^ 2 ≤ z ⬝ᵥ z := by
  refine ⟨_, _, fun h => ?_, ?_, _, tiny_image hr, ?_⟩
  · simpa using congrFun h 2
  · unfold vnorm
    apply Real.lt_sqrt_of_sq_lt
    rw [dot3]; simp; norm_num
  · rw [dot3]; simp

/-- **C64** fails: the image depends on the length of `p`, not only on its direction. -/
theorem C64_scale_fails {rnd : ℝ → ℝ} (hr : IsRound rnd) : ∃ (p z : Fin 3 → ℝ) (t : ℝ), 0 < t ∧
    z ≠ 0 ∧ stereoProj rnd (t • p) z ≠ stereoProj rnd p z := by
  refine ⟨![72 / 100000000, 0, 96 / 100000000], ![0, 0, 1], 1000000, by norm_num,
    fun h => by simpa using congrFun h 2, ?_⟩
  rw [tiny_image hr]
  intro hcon
  obtain ⟨f₁, f₂, _, h⟩ := C64_projection_partial hr e3_dir (Or.inr ⟨rfl, rfl⟩)
  obtain ⟨v, hv, hle, _⟩ := h ((1000000 : ℝ) • ![72 / 100000000, 0, 96 / 100000000])
    (Or.inr (by rw [dot3]; simp; norm_num))
  rw [hcon] at hv
  simp only [Except.ok.injEq, Option.some.injEq] at hv
  subst hv
  rw [dot3] at hle
  simp at hle

/-- **C64** fails for a zone axis that is neither along `e3` nor clearly off it: for `z = (1e-3, 0, 0)`
the direction `e3`, which lies on the equator, is mapped to the centre. -/
theorem C64_frame_fails {rnd : ℝ → ℝ} (hr : IsRound rnd) :
    stereoProj rnd ![0, 0, 1] ![1 / 1000, 0, 0] = .ok (some ![0, 0]) := by
  have hd : IsDirection ![1, 0, 0] ![1 / 1000, 0, 0] :=
    ⟨by rw [dot3]; simp, 1 / 1000, by norm_num, by ext i; fin_cases i <;> simp⟩
  rw [stereoProj_eq hd]
  have hn : vnorm ![0, 0, (1 : ℝ)] = 1 := by unfold vnorm; rw [dot3]; simp
  have hfr : stereoFrame ![(1 : ℝ) / 1000, 0, 0] = (![1, 0, 0], ![0, 1, 0]) := by
    unfold stereoFrame; rw [if_neg (by norm_num)]
  rw [hn, if_pos (by norm_num), if_neg (by rw [dot3]; simp), mirror_of_orth (by rw [dot3]; simp),
    hfr, inv_one, one_smul]
  unfold tail
  have hg := rnd_grid hr 1000000
  simp only [dot3, Matrix.cons_val_zero, Matrix.cons_val_one, Matrix.cons_val]
  rw [show (1 : ℝ) - (0 * 1 + 0 * 0 + 1 * 0) ^ 2 = ((1000000 : ℤ) : ℝ) * (1 / 1000000) by
    norm_num, hg]
  rw [if_neg (by norm_num)]
  have hs : Real.sqrt (((1000000 : ℤ) : ℝ) * (1 / 1000000)) = 1 := by
    rw [show ((1000000 : ℤ) : ℝ) * (1 / 1000000) = 1 by norm_num, Real.sqrt_one]
  rw [hs, if_neg (by norm_num)]
  simp

/-- A rounding function meeting `IsRound` exists. -/
example : IsRound fun x => (⌊x * 1000000 + 1 / 2⌋ : ℤ) * (1 / 1000000) := by
  intro x
  refine ⟨⌊x * 1000000 + 1 / 2⌋, rfl, ?_⟩
  have h1 := Int.floor_le (x * 1000000 + 1 / 2)
  have h2 := Int.lt_floor_add_one (x * 1000000 + 1 / 2)
  rw [abs_le]
  constructor <;> linarith

/-- A zone axis meeting the hypotheses: `(1, 1, 1)` and the direction `(1, 0, 0)`. -/
example : ∃ e, IsDirection e ![1, 1, 1] ∧ (1 : ℝ) / 1000000 < (![1, 1, 1] : Fin 3 → ℝ) 0 ^ 2 +
    (![1, 1, 1] : Fin 3 → ℝ) 1 ^ 2 ∧ 1 / 1000000 < (![1, 0, 0] : Fin 3 → ℝ) ⬝ᵥ ![1, 1, 1] := by
  obtain ⟨e, he⟩ := exists_direction (a := ![1, 1, 1]) (fun h => by simpa using congrFun h 0)
  exact ⟨e, he, by norm_num, by rw [dot3]; simp; norm_num⟩

end Verif.Props
