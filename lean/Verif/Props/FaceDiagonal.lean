import Verif.Spec.FaceDiagonal
import Verif.Props.SmallStretch
import Verif.Props.Monoclinic

/-!
# Cubic to monoclinic transformations with the two-fold axis along a face diagonal

C108: twelve variants.
-/

namespace Verif.Props

open Matrix Verif.Model Verif.Spec Verif.Lemmas

local notation "Mat3" => Matrix (Fin 3) (Fin 3) ℝ

variable {g a e d : ℝ} {t : Tol} {i j k : Fin 3} {s s' : Fin 3 → ℝ}

theorem signs_sq (hs : Signs s) (l : Fin 3) : s l * s l = 1 := by
  rcases hs l with h | h <;> rw [h] <;> norm_num

theorem signs_abs (hs : Signs s) (l : Fin 3) : |s l| = 1 := by
  rcases hs l with h | h <;> rw [h] <;> norm_num

theorem signs_mul (hs : Signs s) (hs' : Signs s') : Signs fun l => s l * s' l := fun l => by
  rcases hs l with h | h <;> rcases hs' l with h' | h' <;> simp [h, h']

theorem fs_at (h : Axes i j k) (hs : Signs s) (g a e d : ℝ) :
    faceStretch g a e d i s i i = g ∧ faceStretch g a e d i s i j = s i * s j * e ∧
    faceStretch g a e d i s i k = s i * s k * e ∧ faceStretch g a e d i s j i = s j * s i * e ∧
    faceStretch g a e d i s j j = a ∧ faceStretch g a e d i s j k = s j * s k * d ∧
    faceStretch g a e d i s k i = s k * s i * e ∧ faceStretch g a e d i s k j = s k * s j * d ∧
    faceStretch g a e d i s k k = a := by
  obtain ⟨h1, h2, h3⟩ := h
  simp [faceStretch, h1, h1.symm, h2, h2.symm, h3, h3.symm, signs_sq hs]

theorem fs_neg : faceStretch g a e d i (fun l => -s l) = faceStretch g a e d i s := by
  ext l m
  simp [faceStretch]

theorem fs_transpose : (faceStretch g a e d i s)ᵀ = faceStretch g a e d i s := by
  ext l m
  simp only [faceStretch, transpose_apply, Matrix.of_apply]
  by_cases h : m = l
  · subst h; rfl
  · simp only [if_neg h, if_neg (Ne.symm h), mul_comm (s m), or_comm]

theorem other_axes (i : Fin 3) : ∃ j k, Axes i j k := by
  fin_cases i
  · exact ⟨1, 2, by decide, by decide, by decide⟩
  · exact ⟨0, 2, by decide, by decide, by decide⟩
  · exact ⟨0, 1, by decide, by decide, by decide⟩

theorem fs_small (h : ClearlyFaceDiagonal g a e d) (hs : Signs s) : SmallStretch (faceStretch g a e d i s) := by
  refine ⟨fs_transpose, fun l => ?_⟩
  obtain ⟨j, k, ha⟩ := other_axes i
  obtain ⟨e1, e2, e3, e4, e5, e6, e7, e8, e9⟩ := fs_at ha hs g a e d
  have h1 := h.row
  have h2 := h.rows
  obtain ⟨n1, n2, n3⟩ := ha
  rw [Axes.sum ⟨n1, n2, n3⟩]
  rcases Axes.all ⟨n1, n2, n3⟩ l with rfl | rfl | rfl <;>
    simp only [Matrix.sub_apply, *, Matrix.one_apply_eq, Matrix.one_apply_ne n1, Matrix.one_apply_ne n2, Matrix.one_apply_ne n3,
      Matrix.one_apply_ne n1.symm, Matrix.one_apply_ne n2.symm, Matrix.one_apply_ne n3.symm, sub_zero, abs_mul, signs_abs hs,
      one_mul] <;> linarith

/-! ### signed permutations -/

theorem conj_signed {R : Matrix (Fin 3) (Fin 3) ℤ} {π : Fin 3 → Fin 3} {σ : Fin 3 → ℝ}
    (h : ∀ l m, (R l m : ℝ) = if m = π l then σ l else 0) (V : Mat3) (l m : Fin 3) :
    (toR R * V * (toR R)ᵀ) l m = σ l * σ m * V (π l) (π m) := by
  have h1 : ∀ l m, (toR R * V) l m = σ l * V (π l) m := fun l m => by
    rw [Matrix.mul_apply]
    simp [toR, h]
  have h2 : ∀ l m, (toR R)ᵀ l m = if l = π m then σ m else 0 := fun l m => h m l
  rw [Matrix.mul_apply]
  simp only [h1, h2, mul_ite, mul_zero, Finset.sum_ite_eq', Finset.sum_ite_eq, Finset.mem_univ, if_true]
  ring

/-- the sign that a truth value stands for, an integer -/
def signZ (b : Bool) : ℤ := if b then 1 else -1

/-- the matrix with one nonzero entry `σ l` in each row `l`, in the column `π l` -/
def signedAt (π : Fin 3 → Fin 3) (σ : Fin 3 → ℤ) : Matrix (Fin 3) (Fin 3) ℤ := Matrix.of fun l m => if m = π l then σ l else 0

theorem cubic_signed_places : ∀ R ∈ cubicLaue, ∃ p0 p1 p2 : Fin 3, p0 ≠ p1 ∧ p0 ≠ p2 ∧ p1 ≠ p2 ∧
    ∃ b0 b1 b2 : Bool, R = signedAt ![p0, p1, p2] ![signZ b0, signZ b1, signZ b2] := by
  decide +kernel

theorem cubic_signed {R : Matrix (Fin 3) (Fin 3) ℤ} (hR : R ∈ cubicLaue) : ∃ π : Fin 3 → Fin 3, (∀ l m, π l = π m → l = m) ∧
    ∀ l, (R l (π l) = 1 ∨ R l (π l) = -1) ∧ ∀ m, m ≠ π l → R l m = 0 := by
  obtain ⟨p0, p1, p2, h1, h2, h3, b0, b1, b2, rfl⟩ := cubic_signed_places R hR
  refine ⟨![p0, p1, p2], fun l m h => ?_, fun l => ⟨?_, fun m hm => ?_⟩⟩
  · fin_cases l <;> fin_cases m <;> simp_all
  · fin_cases l <;> cases b0 <;> cases b1 <;> cases b2 <;> simp [signedAt, signZ]
  · simp [signedAt, hm]

theorem fs_turn {R : Matrix (Fin 3) (Fin 3) ℤ} {π : Fin 3 → Fin 3} {σ : Fin 3 → ℝ}
    (h : ∀ l m, (R l m : ℝ) = if m = π l then σ l else 0) (hπ : ∀ l m, π l = π m → l = m) {i' : Fin 3} (hi : π i' = i) :
    toR R * faceStretch g a e d i s * (toR R)ᵀ = faceStretch g a e d i' (fun l => σ l * s (π l)) := by
  ext l m
  have h1 : ∀ l m, π l = π m ↔ l = m := fun l m => ⟨hπ l m, fun h => h ▸ rfl⟩
  have h2 : ∀ l, π l = i ↔ l = i' := fun l => by rw [← hi, h1]
  rw [conj_signed h]
  simp only [faceStretch, Matrix.of_apply, h1, h2]
  ring

theorem fs_orbit {R : Matrix (Fin 3) (Fin 3) ℤ} (hR : R ∈ cubicLaue) (i : Fin 3) (hs : Signs s) :
    ∃ i' s', Signs s' ∧ ∀ g a e d, toR R * faceStretch g a e d i s * (toR R)ᵀ = faceStretch g a e d i' s' := by
  obtain ⟨π, h1, h2⟩ := cubic_signed hR
  have hsur : Function.Surjective π := Finite.injective_iff_surjective.1 fun l m h => h1 l m h
  obtain ⟨i', hi⟩ := hsur i
  have h : ∀ l m, (R l m : ℝ) = if m = π l then (R l (π l) : ℝ) else 0 := fun l m => by
    split_ifs with hm
    · rw [hm]
    · rw [(h2 l).2 m hm, Int.cast_zero]
  refine ⟨i', _, ?_, fun g a e d => fs_turn h h1 hi⟩
  have hσ : Signs fun l => (R l (π l) : ℝ) := fun l => by
    rcases (h2 l).1 with h | h
    · exact .inl (by simp [h])
    · exact .inr (by simp [h])
  exact signs_mul (s := fun l => (R l (π l) : ℝ)) (s' := fun l => s (π l)) hσ fun l => hs (π l)

theorem cubic_signed_transitive : ∀ (i i' : Fin 3) (b0 b1 b2 : Bool), ∃ R ∈ cubicLaue,
    R = signedAt (Equiv.swap i i') ![signZ b0, signZ b1, signZ b2] ∨
    -R = signedAt (Equiv.swap i i') ![signZ b0, signZ b1, signZ b2] := by
  decide +kernel

theorem signs_bool (hs : Signs s) : ∃ b0 b1 b2 : Bool, ∀ l, s l = ((![signZ b0, signZ b1, signZ b2] : Fin 3 → ℤ) l : ℝ) := by
  have : ∀ l, ∃ b : Bool, s l = (signZ b : ℝ) := fun l => by
    rcases hs l with h | h
    · exact ⟨true, by rw [h]; simp [signZ]⟩
    · exact ⟨false, by rw [h]; simp [signZ]⟩
  obtain ⟨b0, h0⟩ := this 0
  obtain ⟨b1, h1⟩ := this 1
  obtain ⟨b2, h2⟩ := this 2
  refine ⟨b0, b1, b2, fun l => ?_⟩
  fin_cases l
  · exact h0
  · exact h1
  · exact h2

theorem fs_transitive (i i' : Fin 3) (hs : Signs s) (hs' : Signs s') :
    ∃ R ∈ cubicLaue, ∀ g a e d, toR R * faceStretch g a e d i s * (toR R)ᵀ = faceStretch g a e d i' s' := by
  have hσ : Signs fun l => s' l * s (Equiv.swap i i' l) :=
    signs_mul (s := s') (s' := fun l => s (Equiv.swap i i' l)) hs' fun l => hs _
  obtain ⟨b0, b1, b2, hb⟩ := signs_bool hσ
  obtain ⟨R, hR, h⟩ := cubic_signed_transitive i i' b0 b1 b2
  have hinj : ∀ l m, Equiv.swap i i' l = Equiv.swap i i' m → l = m := fun l m h => (Equiv.swap i i').injective h
  have hfin : ∀ l, s' l * s (Equiv.swap i i' l) * s (Equiv.swap i i' l) = s' l := fun l => by
    rw [mul_assoc, signs_sq hs, mul_one]
  refine ⟨R, hR, fun g a e d => ?_⟩
  rcases h with h | h
  · have h1 : ∀ l m, (R l m : ℝ) = if m = Equiv.swap i i' l then s' l * s (Equiv.swap i i' l) else 0 := fun l m => by
      rw [h, hb]; simp only [signedAt, Matrix.of_apply]; split_ifs <;> simp
    rw [fs_turn h1 hinj (Equiv.swap_apply_right i i')]
    simp only [hfin]
  · have h1 : ∀ l m, (R l m : ℝ) = if m = Equiv.swap i i' l then -(s' l * s (Equiv.swap i i' l)) else 0 := fun l m => by
      rw [← neg_neg R, h, hb]; simp only [signedAt, Matrix.neg_apply, Matrix.of_apply]; split_ifs <;> simp
    rw [fs_turn h1 hinj (Equiv.swap_apply_right i i')]
    simp only [neg_mul, hfin]
    exact fs_neg

/-! ### different stretches -/

theorem sign_opposite {x y : ℝ} (hx : x = 1 ∨ x = -1) (hy : y = 1 ∨ y = -1) (h : x ≠ y) : x = -y := by
  rcases hx with rfl | rfl <;> rcases hy with rfl | rfl <;> first | exact absurd rfl h | norm_num

/-- two of the stretches are equal, or differ clearly in an entry -/
theorem fs_gap (h : ClearlyFaceDiagonal g a e d) {i' : Fin 3} (hs : Signs s) (hs' : Signs s') :
    (i = i' ∧ ∀ l m, s l * s m = s' l * s' m) ∨
      ∃ l m, 1 / 100 ≤ |faceStretch g a e d i s l m - faceStretch g a e d i' s' l m| := by
  by_cases hi : i = i'
  · subst hi
    by_cases hl : ∃ j, j ≠ i ∧ s i * s j ≠ s' i * s' j
    · obtain ⟨j, hj, hn⟩ := hl
      refine .inr ⟨i, j, ?_⟩
      have hop := sign_opposite (signs_mul hs (fun _ => hs j) i) (signs_mul hs' (fun _ => hs' j) i) hn
      simp only at hop
      have h1 := h.shear
      simp only [faceStretch, Matrix.of_apply, if_neg hj.symm, true_or, if_true]
      rw [hop, show -(s' i * s' j) * e - s' i * s' j * e = -2 * (s' i * s' j * e) by ring, abs_mul, abs_mul, abs_mul,
        signs_abs hs', signs_abs hs']
      norm_num
      linarith
    · push Not at hl
      refine .inl ⟨rfl, fun l m => ?_⟩
      have key : ∀ l, s i * s l = s' i * s' l := fun l => by
        by_cases hl' : l = i
        · rw [hl', signs_sq hs, signs_sq hs']
        · exact hl l hl'
      have h1 : s l * s m = (s i * s l) * (s i * s m) := by
        rw [show (s i * s l) * (s i * s m) = (s i * s i) * (s l * s m) by ring, signs_sq hs, one_mul]
      rw [h1, key l, key m, show (s' i * s' l) * (s' i * s' m) = (s' i * s' i) * (s' l * s' m) by ring, signs_sq hs', one_mul]
  · refine .inr ⟨i, i, ?_⟩
    have h1 := h.ratio
    simp only [faceStretch, Matrix.of_apply, if_true, if_neg hi, signs_sq hs, signs_sq hs', one_mul]
    exact h1

theorem fs_same {i' : Fin 3} (h : i = i' ∧ ∀ l m, s l * s m = s' l * s' m) :
    faceStretch g a e d i s = faceStretch g a e d i' s' := by
  obtain ⟨rfl, h⟩ := h
  ext l m
  simp only [faceStretch, Matrix.of_apply, h]

theorem fs_clear (h : ClearlyFaceDiagonal g a e d) (hs : Signs s) : ClearSymmetry (faceStretch g a e d i s) := by
  intro R hR
  rw [realOf_eq]
  obtain ⟨i', s', hs', he⟩ := fs_orbit (cube_iff.1 hR) i hs
  rw [he]
  rcases fs_gap h (i := i') (i' := i) hs' hs with h1 | ⟨l, m, h1⟩
  · exact .inl (fs_same h1)
  · exact .inr ⟨l, m, le_trans (by norm_num) h1⟩

theorem clear_for {U : Mat3} (ht : t = .code ∨ t = .exact) (h : ClearSymmetry U) : ClearFor t U := by
  rcases ht with rfl | rfl
  · exact .inr ⟨rfl, h⟩
  · exact .inl rfl

/-- The names of the twelve stretches: the sign at the first axis can be taken to be `1`. -/
abbrev FaceIndex := Fin 3 × Bool × Bool

/-- the signs that an index stands for -/
noncomputable def faceSigns (x : FaceIndex) : Fin 3 → ℝ := ![1, (signZ x.2.1 : ℝ), (signZ x.2.2 : ℝ)]

theorem faceSigns_ok (x : FaceIndex) : Signs (faceSigns x) := by
  intro l
  obtain ⟨i, b, c⟩ := x
  fin_cases l <;> cases b <;> cases c <;> simp [faceSigns, signZ]

theorem face_index (i : Fin 3) (hs : Signs s) :
    ∃ x : FaceIndex, x.1 = i ∧ ∀ g a e d, faceStretch g a e d i s = faceStretch g a e d x.1 (faceSigns x) := by
  have ex : ∀ {y : ℝ}, (y = 1 ∨ y = -1) → ∃ b, y = (signZ b : ℝ) := fun {y} hy => by
    rcases hy with rfl | rfl
    · exact ⟨true, by simp [signZ]⟩
    · exact ⟨false, by simp [signZ]⟩
  obtain ⟨b, hb⟩ := ex (signs_mul hs (fun _ => hs 0) 1)
  obtain ⟨c, hc⟩ := ex (signs_mul hs (fun _ => hs 0) 2)
  refine ⟨(i, b, c), rfl, fun g a e d => fs_same ⟨rfl, fun l m => ?_⟩⟩
  have h0 := signs_sq hs 0
  have hl : ∀ l, faceSigns (i, b, c) l = s l * s 0 := fun l => by
    fin_cases l
    · exact h0.symm
    · exact hb.symm
    · exact hc.symm
  rw [hl, hl, show s l * s 0 * (s m * s 0) = (s l * s m) * (s 0 * s 0) by ring, h0, mul_one]

theorem face_injective (h : ClearlyFaceDiagonal g a e d) :
    Function.Injective fun x : FaceIndex => faceStretch g a e d x.1 (faceSigns x) := by
  rintro ⟨i, b, c⟩ ⟨i', b', c'⟩ hxy
  rcases fs_gap h (faceSigns_ok (i, b, c)) (faceSigns_ok (i', b', c')) with ⟨h1, h2⟩ | ⟨l, m, h1⟩
  · have e1 : (1 : ℝ) * (signZ b : ℝ) = 1 * (signZ b' : ℝ) := h2 0 1
    have e2 : (1 : ℝ) * (signZ c : ℝ) = 1 * (signZ c' : ℝ) := h2 0 2
    obtain rfl : i = i' := h1
    cases b <;> cases b' <;> cases c <;> cases c' <;> first | rfl | (exfalso; norm_num [signZ] at e1; done) |
      (exfalso; norm_num [signZ] at e2; done)
  · simp only at hxy
    rw [hxy, sub_self, abs_zero] at h1
    norm_num at h1

theorem fs_variants (ht : t = .code ∨ t = .exact) (h : ClearlyFaceDiagonal g a e d) (i : Fin 3) (hs : Signs s) :
    ∃ vs, Mart.getVariants t ⟨some (faceStretch g a e d i s), cubicR⟩ = .ok vs ∧ vs.length = 12 ∧ vs.Nodup ∧
      vs.head? = some (faceStretch g a e d i s) ∧
      (∀ V, V ∈ vs ↔ ∃ i' s', Signs s' ∧ V = faceStretch g a e d i' s') ∧
      ∀ V, V ∈ vs ↔ ∃ x : FaceIndex, V = faceStretch g a e d x.1 (faceSigns x) := by
  obtain ⟨lg, vs, idx, -, -, h1, -, h2, h3, -⟩ := C107_variants (fs_small h hs (i := i)) (clear_for ht (fs_clear h hs))
  have m1 : ∀ V, V ∈ vs ↔ ∃ i' s', Signs s' ∧ V = faceStretch g a e d i' s' := fun V => by
    rw [h3]
    constructor
    · rintro ⟨R, hR, rfl⟩
      obtain ⟨i', s', g1, g2⟩ := fs_orbit (cube_iff.1 hR) i hs
      exact ⟨i', s', g1, g2 _ _ _ _⟩
    · rintro ⟨i', s', g1, rfl⟩
      obtain ⟨R, hR, g2⟩ := fs_transitive i i' hs g1
      exact ⟨R, cube_iff.2 hR, (g2 _ _ _ _).symm⟩
  have m2 : ∀ V, V ∈ vs ↔ ∃ x : FaceIndex, V = faceStretch g a e d x.1 (faceSigns x) := fun V => by
    rw [m1]
    constructor
    · rintro ⟨i', s', g1, rfl⟩
      obtain ⟨x, -, g2⟩ := face_index i' g1
      exact ⟨x, g2 _ _ _ _⟩
    · rintro ⟨x, rfl⟩
      exact ⟨x.1, faceSigns x, faceSigns_ok x, rfl⟩
  refine ⟨vs, h1, ?_, h2.nodup, h2.first, m1, m2⟩
  classical
  rw [← List.toFinset_card_of_nodup h2.nodup]
  have : vs.toFinset = Finset.univ.image fun x : FaceIndex => faceStretch g a e d x.1 (faceSigns x) := by
    ext V
    rw [List.mem_toFinset, m2, Finset.mem_image]
    exact ⟨fun ⟨x, hx⟩ => ⟨x, Finset.mem_univ _, hx.symm⟩, fun ⟨x, _, hx⟩ => ⟨x, hx.symm⟩⟩
  rw [this, Finset.card_image_of_injective _ (face_injective h)]
  rfl

/-- **C108**, variants: `getvariants()` of a martensite with such a stretch has twelve elements, one for each cube axis
and each choice of signs up to a common one, the given one first. -/
theorem C108_variants (ht : t = .code ∨ t = .exact) (h : ClearlyFaceDiagonal g a e d) (i : Fin 3) (hs : Signs s) :
    ∃ vs, Mart.getVariants t ⟨some (faceStretch g a e d i s), cubicR⟩ = .ok vs ∧ vs.length = 12 ∧ vs.Nodup ∧
      vs.head? = some (faceStretch g a e d i s) ∧
      ∀ V, V ∈ vs ↔ ∃ i' s', Signs s' ∧ V = faceStretch g a e d i' s' := by
  obtain ⟨vs, h1, h2, h3, h4, h5, -⟩ := fs_variants ht h i hs
  exact ⟨vs, h1, h2, h3, h4, h5⟩

/-- Ni-Ti. -/
theorem niti_face : ClearlyFaceDiagonal (0.9563 : ℝ) 1.0243 (-0.0427) 0.058 := by
  constructor <;> norm_num [abs_of_pos, abs_of_neg]

example : ClearlyFaceDiagonal (0.9563 : ℝ) 1.0243 (-0.0427) 0.058 ∧ Signs (fun _ => (1 : ℝ)) :=
  ⟨niti_face, fun _ => .inl rfl⟩

end Verif.Props
