import Verif.Props.Bain
import Verif.Props.Tetragonal

/-!
# Property C101 for the Bain strain

From `lat_cor` to the variants and the twins of the product.
-/

namespace Verif.Props

open Matrix Verif.Model Verif.Spec Verif.Lemmas

local notation "Mat3" => Matrix (Fin 3) (Fin 3) ℝ

variable {a b : ℝ} {t : Tol}

theorem fcc_sym (ha : 0 < a) : ∀ R ∈ cubicLaue, InPointGroup (fcc a) (toR R) := by
  have hMW : fccInt * !![1, 1, -1; -1, 1, 1; 1, -1, 1] = (2 : ℤ) • 1 := by decide
  have hd : ((a / 2) • toR fccInt).det ≠ 0 := by
    rw [Matrix.det_smul, toR_det, show fccInt.det = 2 by decide]
    positivity
  have hall : ∀ R ∈ cubicLaue, ∀ i j, (!![1, 1, -1; -1, 1, 1; 1, -1, 1] * R * fccInt : Matrix (Fin 3) (Fin 3) ℤ) i j % 2 = 0 := by
    unfold cubicLaue fccInt; decide +kernel
  rw [fcc_eq]
  exact fun R hR => halves_sym (by positivity) hMW hd hR (hall R hR)

/-- the Laue group of every face-centred cubic lattice is the cubic one -/
theorem fcc_laue (ha : 0 < a) (ht : t = .code ∨ t = .exact) : Lat.laueGroup t ⟨3, fcc a⟩ = .ok cubicR := by
  classical
  have hr : Reliable t (fcc a) candidates3 := ht.elim (fun h => h ▸ fcc_reliable ha) .inl
  have hd : (fcc a).det ≠ 0 := by
    rw [fcc_eq, Matrix.det_smul, toR_det, show fccInt.det = 2 by decide]
    positivity
  have hG : Reliable t (fcc a) ((cubicLaue.map NMat.int).map NMat.val) :=
    hr.mono fun Q hQ => by
      rw [map_int_val] at hQ; exact List.mem_append_left _ hQ
  have hH : Reliable t (fcc a) (hexLaue.map NMat.val) :=
    hr.mono fun Q hQ => List.mem_append_right _ hQ
  have hf : ((cubicLaue.map NMat.int).map NMat.val).filter
      (fun Q => decide (InPointGroup (fcc a) Q)) = cubicR := by
    rw [map_int_val]
    refine filter_all fun Q hQ => ?_
    obtain ⟨R, hR, rfl⟩ := List.mem_map.mp hQ
    exact decide_eq_true (fcc_sym ha R hR)
  have hlen : cubicR.length = 24 := by simp [cubicR, cubicLaue]
  rw [laueGroup_three, select_sym hd hG hH]
  simp only [hf]
  rw [if_neg (by rw [hlen]; omega)]

theorem bain_tetra (a b : ℝ) (k : Fin 3) : bainStretch a b k = tetraStretch (Real.sqrt 2 * (b / a)) (b / a) k := rfl

theorem bain_clearly (h : 1 / 10 ^ 3 ≤ b / a) : ClearlyTetragonal (Real.sqrt 2 * (b / a)) (b / a) := by
  have h2 := root_two
  have h3 : 1.4 ≤ Real.sqrt 2 := Real.le_sqrt_of_sq_le (by norm_num)
  have h4 : Real.sqrt 2 ≤ 1.5 := Real.sqrt_le_iff.2 ⟨by norm_num, by norm_num⟩
  refine ⟨?_, h, .inl ⟨?_, ?_⟩⟩ <;> nlinarith

/-- **C101** for the Bain strain: if `lat_cor` from face-centred to body-centred cubic has finished, the stretch of
the first solution, handed to a `Martensite` whose Laue group is that of the parent lattice, has three
variants, the Bain stretches along the three cube axes. -/
theorem C101_bain (ht : t = .code ∨ t = .exact) (ha : 0 < a) (hb : a ≤ 10 ^ 3 * b) (hab : b < Real.sqrt 3 / 2 * a) {n : ℕ}
    {rs : List (Report 3)} (h : Finished t none (fcc a) (bcc b) n rs) :
    ∃ r G m vs, rs.head? = some r ∧ Lat.laueGroup t ⟨3, fcc a⟩ = .ok G ∧
      Mart.setU ⟨none, G⟩ [.arr (.mat 3 3 false r.u)] = .ok m ∧ m.getVariants t = .ok vs ∧ vs.length = 3 ∧ vs.Nodup ∧
      ∀ V, V ∈ vs ↔ ∃ k, V = bainStretch a b k := by
  have hb0 : 0 < b := by linarith
  obtain ⟨r, hr, ⟨k, hk⟩, -, -⟩ := C99_bain ha hb0 hab h
  have hcl : ClearlyTetragonal (Real.sqrt 2 * (b / a)) (b / a) := bain_clearly (by
    rw [le_div_iff₀ ha]; linarith)
  obtain ⟨vs, h1, h2, h3, -, h4⟩ := C101_variants ht hcl k
  obtain ⟨p1, p2⟩ := clearly_pos hcl
  have hs : IsSPD (bainStretch a b k) := tetraStretch_spd p1 p2 k
  refine ⟨r, cubicR, ⟨some (bainStretch a b k), cubicR⟩, vs, hr, fcc_laue ha ht, ?_, h1, h2, h3, h4⟩
  have hc : (bainStretch a b k).submatrix (Fin.cast rfl) (Fin.cast rfl) = bainStretch a b k := rfl
  simp only [Mart.setU, uOf, hk]
  rw [dif_pos ⟨trivial, trivial⟩]
  simp only [hc]
  rw [if_neg (not_not.2 hs.1.symm), if_neg (not_not.2 (spd_det_pos hs))]

-- the call of the example for C99 meets the hypotheses
example (py : Py) : ∃ rs, Finished .code none (fcc 1) (bcc 0.794) 1 rs ∧ ∃ r G m vs, rs.head? = some r ∧
    Lat.laueGroup .code ⟨3, fcc 1⟩ = .ok G ∧ Mart.setU ⟨none, G⟩ [.arr (.mat 3 3 false r.u)] = .ok m ∧
    m.getVariants .code = .ok vs ∧ vs.length = 3 := by
  have h3 : 1.7 ≤ Real.sqrt 3 := Real.le_sqrt_of_sq_le (by norm_num)
  have hlt : (0.794 : ℝ) < Real.sqrt 3 / 2 * 1 := by norm_num at h3 ⊢; linarith
  obtain ⟨o, rs, trace, -, -, -, hf⟩ := C99_finished .code py (a := 1) (b := 0.794) one_pos (by norm_num) hlt (.inl rfl)
  obtain ⟨r, G, m, vs, k1, k2, k3, k4, k5, -⟩ := C101_bain (.inl rfl) one_pos (by norm_num) hlt hf
  exact ⟨rs, hf, r, G, m, vs, k1, k2, k3, k4, k5⟩

end Verif.Props
