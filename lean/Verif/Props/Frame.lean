import Verif.Lemmas.Frame
import Verif.Props.Twin
import Verif.Props.TwinFrac

/-!
# C93: the analysis of twins does not depend on the frame

`eig` and `eig'` are two eigenvalue routines that keep the promises of `numpy.linalg.eig`; the one is used for the
original data and the other for the data in the frame turned by `Q`.  For `Q = 1` the theorems say that the results do
not depend on which eigenvectors the routine picks.
-/

namespace Verif.Props

open Matrix Verif.Model Verif.Spec Verif.Lemmas

local notation "Mat3" => Matrix (Fin 3) (Fin 3) ℝ

/-- The routine keeps the promises of `numpy.linalg.eig` for symmetric matrices. -/
def KeepsPromise (eig : Mat3 → EigRes) : Prop := ∀ A, Aᵀ = A → EigOK (eig A).vals (eig A).vecs A

/-! ### `isCompatible` -/

theorem compat_matrix {R S G : Mat3} (hR : IsOrtho R) (hS : IsOrtho S) (hG : G.det ≠ 0) (A B : Mat3) :
    (((S * B * G)ᵀ)⁻¹ * (R * A * G)ᵀ) * (R * A * G * (S * B * G)⁻¹) =
      inFrame S (((Bᵀ)⁻¹ * Aᵀ) * (A * B⁻¹)) := by
  have hSi : S⁻¹ = Sᵀ := Matrix.inv_eq_right_inv (ortho_right hS)
  have h1 : R * A * G * (S * B * G)⁻¹ = R * (A * B⁻¹) * Sᵀ := by
    rw [Matrix.mul_inv_rev, Matrix.mul_inv_rev, hSi]
    simp only [Matrix.mul_assoc]
    rw [← Matrix.mul_assoc G, Matrix.mul_nonsing_inv _ (isUnit_iff_ne_zero.2 hG), Matrix.one_mul]
  have h2 : ((S * B * G)ᵀ)⁻¹ * (R * A * G)ᵀ = (R * A * G * (S * B * G)⁻¹)ᵀ := by
    rw [Matrix.transpose_mul (R * A * G), Matrix.transpose_nonsing_inv]
  have h3 : (Bᵀ)⁻¹ * Aᵀ = (A * B⁻¹)ᵀ := by
    rw [Matrix.transpose_mul, Matrix.transpose_nonsing_inv]
  rw [h2, h1, h3, inFrame]
  simp only [Matrix.transpose_mul, Matrix.transpose_transpose, Matrix.mul_assoc, ortho_cancel hR]

/-- C93, `isCompatible`: turning either deformation, or deforming the common reference configuration, changes
nothing. -/
theorem C93_compatible (eig eig' : Mat3 → EigRes) (h : KeepsPromise eig) (h' : KeepsPromise eig') {R S G : Mat3}
    (hR : IsOrtho R) (hS : IsOrtho S) (hG : G.det ≠ 0) (A B : Mat3) :
    isCompatible eig' (some (R * A * G)) (some (S * B * G)) = isCompatible eig (some A) (some B) := by
  have hdet : (S * B * G).det = 0 ↔ B.det = 0 := by
    have hSd : S.det ≠ 0 := fun h0 => by have := ortho_det_sq hS; simp [h0] at this
    rw [det_mul, det_mul]
    simp [hSd, hG]
  have hsym : (((Bᵀ)⁻¹ * Aᵀ) * (A * B⁻¹))ᵀ = ((Bᵀ)⁻¹ * Aᵀ) * (A * B⁻¹) := by
    have h3 : (Bᵀ)⁻¹ * Aᵀ = (A * B⁻¹)ᵀ := by
      rw [Matrix.transpose_mul, Matrix.transpose_nonsing_inv]
    rw [h3, Matrix.transpose_mul, Matrix.transpose_transpose]
  simp only [isCompatible, hdet, compat_matrix hR hS hG,
    (sortEig_frame hS hsym (h _ hsym) (h' _ (inFrame_symm hsym))).1]

/-! ### twins -/

/-- What the pair built in the turned frame has in common with the original pair. -/
structure Turned (Q : Mat3) (p p' : TwinPair) (s : Fin 3 → ℝ) : Prop where
  ui : p'.Ui = inFrame Q p.Ui
  uj : p'.Uj = inFrame Q p.Uj
  vals : p'.e.vals = p.e.vals
  sign : ∀ i, s i * s i = 1
  vecs : ∀ i, p'.e.vecs i = s i • Q *ᵥ p.e.vecs i

theorem relMetric_frame {Q U V : Mat3} (hQ : IsOrtho Q) (hU : U.det ≠ 0) :
    relMetric (inFrame Q U) (inFrame Q V) = inFrame Q (relMetric U V) := by
  rw [relMetric, relMetric, inFrame_inv hQ hU, inFrame_mul hQ, inFrame_mul hQ, inFrame_mul hQ]

/-- The same pair can be built in every frame. -/
theorem new_frame {eig eig' : Mat3 → EigRes} {Q U V : Mat3} (hQ : IsOrtho Q)
    (hU : Uᵀ = U) (hV : Vᵀ = V) {skip : Bool} {p : TwinPair} (hp : TwinPair.new eig U V skip = .ok p) :
    U.det ≠ 0 ∧ p = ⟨U, V, sortEig eig (relMetric U V)⟩ ∧
      TwinPair.new eig' (inFrame Q U) (inFrame Q V) skip =
        .ok ⟨inFrame Q U, inFrame Q V, sortEig eig' (inFrame Q (relMetric U V))⟩ := by
  classical
  unfold TwinPair.new at hp ⊢
  have hpd : ∀ {M : Mat3}, Mᵀ = M → (posDefSym (inFrame Q M) ↔ posDefSym M) := by
    intro M hM
    have : (inFrame Q M - (inFrame Q M)ᵀ) = 0 := by rw [inFrame_symm hM, sub_self]
    have h2 : M - Mᵀ = 0 := by rw [hM, sub_self]
    simp only [posDefSym, this, h2, inFrame_det hQ]
  simp only [hpd hU, hpd hV, inFrame_det hQ]
  split at hp
  · cases hp
  next h1 =>
  split at hp
  · cases hp
  next h2 =>
  rw [if_neg h1, if_neg h2]
  refine ⟨h2, ?_, ?_⟩
  · cases hp; rfl
  · rw [← relMetric_frame hQ h2]; rfl

theorem axis_dot {Q : Mat3} (hQ : IsOrtho Q) {p p' : TwinPair} {s : Fin 3 → ℝ} (h : Turned Q p p' s) (i j : Fin 3) :
    p'.e.vecs i ⬝ᵥ (p'.Ui * p'.Ui) *ᵥ p'.e.vecs j = s i * s j * (p.e.vecs i ⬝ᵥ (p.Ui * p.Ui) *ᵥ p.e.vecs j) := by
  rw [h.vecs, h.vecs, h.ui, inFrame_mul hQ, Matrix.mulVec_smul, inFrame_mulVec hQ, smul_dotProduct,
    dotProduct_smul, ortho_dot hQ, smul_eq_mul, smul_eq_mul, mul_assoc]

theorem sign_abs {s : ℝ} (h : s * s = 1) : |s| = 1 := by
  rcases mul_self_eq_one_iff.1 h with rfl | rfl <;> simp

theorem vnorm_turn {Q : Mat3} (hQ : IsOrtho Q) {s : ℝ} (hs : s * s = 1) (x : V3) : vnorm (s • Q *ᵥ x) = vnorm x := by
  rw [vnorm, vnorm, smul_dotProduct, dotProduct_smul, ortho_dot hQ, smul_eq_mul, smul_eq_mul, ← mul_assoc, hs, one_mul]

theorem unitVec_turn {Q : Mat3} (hQ : IsOrtho Q) {s : ℝ} (hs : s * s = 1) (x : V3) :
    unitVec (s • Q *ᵥ x) = (unitVec x).map fun y => s • Q *ᵥ y := by
  unfold unitVec
  rw [vnorm_turn hQ hs]
  split
  · rfl
  · rw [Option.map_some, Matrix.mulVec_smul, smul_comm]

/-- The pass of the loop in `ax()` for one sign. -/
theorem axis_frame {Q : Mat3} (hQ : IsOrtho Q) {p p' : TwinPair} {s : Fin 3 → ℝ} (h : Turned Q p p' s) (r : ℝ) :
    p'.axis r = (p.axis (r * (s 0 * s 2))).map (List.map (Option.map fun y => s 0 • Q *ᵥ y)) := by
  classical
  have h0 := h.sign 0
  have h1 := h.sign 1
  have h2 := h.sign 2
  unfold TwinPair.axis
  simp only [axis_dot hQ h, h.vals]
  split
  · rfl
  have e1 : ∀ q A23 A21 : ℝ, |r * q * (s 1 * s 2 * A23) + s 1 * s 0 * A21| =
      |r * (s 0 * s 2) * q * A23 + A21| := by
    intro q A23 A21
    have : r * q * (s 1 * s 2 * A23) + s 1 * s 0 * A21 = s 1 * (s 0 * (r * (s 0 * s 2) * q * A23 + A21)) := by
      linear_combination (-(s 1 * s 2 * r * q * A23)) * h0
    rw [this, abs_mul, abs_mul, sign_abs h0, sign_abs h1, one_mul, one_mul]
  have e2 : ∀ q A11 A13 : ℝ, s 0 * s 0 * A11 + r * q * (s 2 * s 0 * A13) = A11 + r * (s 0 * s 2) * q * A13 := by
    intro q A11 A13
    linear_combination A11 * h0
  simp only [e1, e2]
  split
  · split
    · rfl
    · simp only [Except.map, List.map_cons, List.map_nil]
      rw [← unitVec_turn hQ h0]
      congr 3
      rw [h.ui, h.vecs, h.vecs]
      simp only [Matrix.mulVec_smul, Matrix.mulVec_add, inFrame_mulVec hQ, smul_add, smul_smul]
      congr 1
      · rw [mul_comm]
      · congr 1
        linear_combination (-(r * √(p.e.vals 2) * √(2 * (p.e.vecs 0 ⬝ᵥ (p.Ui * p.Ui) *ᵥ p.e.vecs 0 +
          r * (s 0 * s 2) * √(p.e.vals 2) * (p.e.vecs 2 ⬝ᵥ (p.Ui * p.Ui) *ᵥ p.e.vecs 0))) * s 2)) * h0
  · rfl

theorem axis_err {p : TwinPair} {r : ℝ} {e : Err} (h : p.axis r = .error e) : e = .valueError := by
  classical
  unfold TwinPair.axis at h
  simp only at h
  split_ifs at h <;> cases h <;> rfl

theorem same_axis {Q : Mat3} {t : ℝ} (ht : t * t = 1) : ∀ x : Option V3, SameAxis Q x (x.map fun y => t • Q *ᵥ y)
  | none => .nan
  | some x => by
    rcases mul_self_eq_one_iff.1 ht with rfl | rfl
    · simpa using SameAxis.plus (Q := Q) x
    · simpa using SameAxis.minus (Q := Q) x

theorem same_axes {Q : Mat3} {t : ℝ} (ht : t * t = 1) (l : List (Option V3)) :
    List.Forall₂ (SameAxis Q) l (l.map (Option.map fun y => t • Q *ᵥ y)) := by
  induction l with
  | nil => exact .nil
  | cons a l ih => exact .cons (same_axis ht a) ih

/-- The two lists of axes. -/
theorem ax_frame {Q : Mat3} (hQ : IsOrtho Q) {p p' : TwinPair} {s : Fin 3 → ℝ} (h : Turned Q p p' s)
    (ht : p'.isTwinnable = p.isTwinnable) :
    (∃ e, p.ax = .error e ∧ p'.ax = .error e) ∨
      ∃ l l', p.ax = .ok l ∧ p'.ax = .ok l' ∧
        l'.Perm (l.map (Option.map fun y => s 0 • Q *ᵥ y)) := by
  unfold TwinPair.ax
  rw [ht]
  split
  · exact .inl ⟨_, rfl, rfl⟩
  rw [axis_frame hQ h, axis_frame hQ h]
  have hσ : s 0 * s 2 = 1 ∨ s 0 * s 2 = -1 := by
    refine mul_self_eq_one_iff.1 ?_
    linear_combination (s 2 * s 2) * h.sign 0 + h.sign 2
  rcases hσ with e | e
  · rw [e, mul_one, mul_one]
    cases p.axis (-1) with
    | error e => exact .inl ⟨e, rfl, rfl⟩
    | ok l =>
      cases p.axis 1 with
      | error e => exact .inl ⟨e, rfl, rfl⟩
      | ok l' => exact .inr ⟨_, _, rfl, rfl, by rw [List.map_append]⟩
  · rw [e, one_mul, neg_one_mul, neg_neg]
    cases h1 : p.axis (-1) with
    | error e =>
      cases h2 : p.axis 1 with
      | error e' => exact .inl ⟨_, rfl, by rw [axis_err h1, axis_err h2]; rfl⟩
      | ok l' => exact .inl ⟨_, rfl, rfl⟩
    | ok l =>
      cases h2 : p.axis 1 with
      | error e => exact .inl ⟨e, rfl, rfl⟩
      | ok l' => exact .inr ⟨_, _, rfl, rfl, by rw [List.map_append]; exact List.perm_append_comm⟩

/-- How far two matrices are apart does not depend on the frame. -/
theorem sq_frame {Q : Mat3} (hQ : IsOrtho Q) (A : Mat3) : ∑ i, ∑ j, (inFrame Q A i j) ^ 2 = ∑ i, ∑ j, (A i j) ^ 2 := by
  have h : ∀ M : Mat3, ∑ i, ∑ j, (M i j) ^ 2 = (M * Mᵀ).trace := by
    intro M
    simp only [Matrix.trace, Matrix.diag_apply, Matrix.mul_apply, Matrix.transpose_apply, sq]
  rw [h, h]
  have : inFrame Q A * (inFrame Q A)ᵀ = Q * (A * Aᵀ) * Qᵀ := by
    simp only [inFrame, transpose_mul, transpose_transpose, Matrix.mul_assoc, ortho_cancel hQ]
  rw [this, Matrix.trace_mul_comm, ortho_cancel hQ]

theorem not_close {U V : Mat3} (h : 9 / 10 ^ 24 ≤ ∑ i, ∑ j, (U i j - V i j) ^ 2) : ¬ maxClose U V := by
  intro hc
  have hb : ∀ i j, (U i j - V i j) ^ 2 < 1 / 10 ^ 24 := by
    intro i j
    have := hc i j
    rw [small] at this
    have h2 := pow_lt_pow_left₀ this (abs_nonneg _) (two_ne_zero)
    rw [sq_abs] at h2
    norm_num at h2 ⊢
    exact h2
  simp only [Fin.sum_univ_three] at h
  have := hb 0 0; have := hb 0 1; have := hb 0 2
  have := hb 1 0; have := hb 1 1; have := hb 1 2
  have := hb 2 0; have := hb 2 1; have := hb 2 2
  linarith

theorem not_close_frame {Q U V : Mat3} (hQ : IsOrtho Q) (h : 9 / 10 ^ 24 ≤ ∑ i, ∑ j, (U i j - V i j) ^ 2) :
    ¬ maxClose (inFrame Q U) (inFrame Q V) := by
  refine not_close ?_
  have : ∀ i j, inFrame Q U i j - inFrame Q V i j = inFrame Q (U - V) i j := by
    intro i j
    rw [inFrame, inFrame, inFrame, Matrix.mul_sub, Matrix.sub_mul, Matrix.sub_apply]
  simp only [this]
  rw [sq_frame hQ]
  exact h

/-- C93, `istwinnable`, for variants that differ by more than rounding. -/
theorem C93_twinnable_partial (eig eig' : Mat3 → EigRes) (h : KeepsPromise eig) (h' : KeepsPromise eig') {Q U V : Mat3}
    (hQ : IsOrtho Q) (hU : Uᵀ = U) (hV : Vᵀ = V) (hd : 9 / 10 ^ 24 ≤ ∑ i, ∑ j, (U i j - V i j) ^ 2) (skip : Bool)
    (p : TwinPair) (hp : TwinPair.new eig U V skip = .ok p) :
    ∃ p', TwinPair.new eig' (inFrame Q U) (inFrame Q V) skip = .ok p' ∧ p'.isTwinnable = p.isTwinnable := by
  classical
  obtain ⟨hdet, rfl, hp'⟩ := new_frame (eig' := eig') hQ hU hV hp
  refine ⟨_, hp', ?_⟩
  have hs := relMetric_symm hU hV
  unfold TwinPair.isTwinnable
  simp only [if_neg (not_close hd), if_neg (not_close_frame hQ hd),
    (sortEig_frame hQ hs (h _ hs) (h' _ (inFrame_symm hs))).1]

/-- C93, `ax`, `iscompound`, `istypeI`, `XI` and `XII`: the axes are those of the original pair, carried by `Q`, up to
order and sign; the rest is the same. -/
theorem C93_axes_partial (eig eig' : Mat3 → EigRes) (h : KeepsPromise eig) (h' : KeepsPromise eig') {Q U V : Mat3}
    (hQ : IsOrtho Q) (hU : Uᵀ = U) (hV : Vᵀ = V) (hd : 9 / 10 ^ 24 ≤ ∑ i, ∑ j, (U i j - V i j) ^ 2)
    (hs : SimpleSpectrum (U⁻¹ * V * (V * U⁻¹))) (skip : Bool)
    (p : TwinPair) (hp : TwinPair.new eig U V skip = .ok p) :
    ∃ p', TwinPair.new eig' (inFrame Q U) (inFrame Q V) skip = .ok p' ∧
      ((∃ e, p.ax = .error e ∧ p'.ax = .error e) ∨
        ∃ l l', p.ax = .ok l ∧ p'.ax = .ok l' ∧ SameUpToOrder (SameAxis Q) l l') ∧
      p'.isCompound = p.isCompound ∧ p'.isTypeI = p.isTypeI ∧ p'.xI = p.xI ∧ p'.xII = p.xII := by
  obtain ⟨p', hp', ht⟩ := C93_twinnable_partial eig eig' h h' hQ hU hV hd skip p hp
  refine ⟨p', hp', ?_⟩
  obtain ⟨hdet, rfl, hp2⟩ := new_frame (eig' := eig') hQ hU hV hp
  have hsym := relMetric_symm hU hV
  obtain ⟨hv, hv2⟩ := sortEig_frame hQ hsym (h _ hsym) (h' _ (inFrame_symm hsym))
  obtain ⟨s, hs1, hs2⟩ := hv2 hs
  obtain rfl : _ = p' := Except.ok.inj (hp2.symm.trans hp')
  have hT : Turned Q ⟨U, V, sortEig eig (relMetric U V)⟩
      ⟨inFrame Q U, inFrame Q V, sortEig eig' (inFrame Q (relMetric U V))⟩ s := ⟨rfl, rfl, hv, hs1, hs2⟩
  rcases ax_frame hQ hT ht with ⟨e, h1, h2⟩ | ⟨l, l', h1, h2, h3⟩
  · refine ⟨.inl ⟨e, h1, h2⟩, ?_⟩
    simp only [TwinPair.isCompound, TwinPair.isTypeI, TwinPair.xI, TwinPair.xII, h1, h2, and_self]
  · refine ⟨.inr ⟨l, l', h1, h2, _, same_axes (hs1 0) l, h3⟩, ?_⟩
    have hlen : l'.length = l.length := by rw [h3.length_eq, List.length_map]
    simp only [TwinPair.isCompound, TwinPair.isTypeI, TwinPair.xI, TwinPair.xII, TwinPair.firstAx, h1, h2, hlen,
      true_and]
    by_cases hl : 1 < l.length
    · simp only [hl, decide_true, and_self]
    · simp only [hl, decide_false]
      match l, hl, h3 with
      | [], _, h3 =>
        obtain rfl := h3.eq_nil
        simp only [List.head?_nil, List.getElem?_nil, and_self]
      | [x], _, h3 =>
        obtain rfl := List.perm_singleton.1 h3
        have n1 : ∀ y : V3, vnorm ((inFrame Q U)⁻¹ *ᵥ (s 0 • Q *ᵥ y)) = vnorm (U⁻¹ *ᵥ y) := by
          intro y
          rw [inFrame_inv hQ hdet, Matrix.mulVec_smul, inFrame_mulVec hQ, vnorm_turn hQ (hs1 0)]
        have n2 : ∀ y : V3, vnorm (inFrame Q U *ᵥ (s 0 • Q *ᵥ y)) = vnorm (U *ᵥ y) := by
          intro y
          rw [Matrix.mulVec_smul, inFrame_mulVec hQ, vnorm_turn hQ (hs1 0)]
        cases x with
        | none => simp
        | some y => simp [n1, n2]
      | _ :: _ :: _, hl, _ => simp at hl

/-! ### the solvers -/

/-- Two results of a solver agree up to the frame, the order and the signs. -/
inductive SameRes (Q : Mat3) : Except Err (AMRes (V3 × V3)) → Except Err (AMRes (V3 × V3)) → Prop
  | error (e : Err) : SameRes Q (.error e) (.error e)
  | nothing : SameRes Q (.ok .nothing) (.ok .nothing)
  | nan : SameRes Q (.ok .nan) (.ok .nan)
  | two {x y x' y' : V3 × V3} (h : SameUpToOrder (SameDyad Q) [x, y] [x', y']) :
    SameRes Q (.ok (.two x y)) (.ok (.two x' y'))

section

variable {Q : Mat3} (hQ : IsOrtho Q) {e e' : EigRes} {s : Fin 3 → ℝ} (hv : e'.vals = e.vals) (hs : ∀ i, s i * s i = 1)
  (hw : ∀ i, e'.vecs i = s i • Q *ᵥ e.vecs i)
include hv hs hw

theorem amM_frame (c c1 c3 r : ℝ) : amM e' c c1 c3 r = s 0 • Q *ᵥ amM e c c1 c3 (r * (s 0 * s 2)) := by
  unfold amM
  simp only [hv, hw, Matrix.mulVec_smul, Matrix.mulVec_add, Matrix.mulVec_neg, smul_add, smul_neg, smul_smul]
  congr 1
  · congr 2; ring
  · congr 1
    linear_combination (-((√(e.vals 2) - √(e.vals 0)) / c * r * s 2 * c3)) * hs 0

theorem amB_frame (c c1 c3 rho r : ℝ) : amB e' c c1 c3 rho r = s 0 • Q *ᵥ amB e c c1 c3 rho (r * (s 0 * s 2)) := by
  unfold amB
  simp only [hv, hw, Matrix.mulVec_smul, Matrix.mulVec_add, smul_add, smul_smul]
  congr 1
  · congr 1; ring
  · congr 1
    linear_combination (-(rho * r * (√(e.vals 0) * c3 / c) * s 2)) * hs 0

include hQ

theorem amM_zero (c c1 c3 r : ℝ) : amM e' c c1 c3 r = 0 ↔ amM e c c1 c3 (r * (s 0 * s 2)) = 0 := by
  rw [amM_frame hv hs hw]
  constructor
  · intro h0
    have h1 := congrArg (fun x => s 0 • Qᵀ *ᵥ x) h0
    simpa [Matrix.mulVec_smul, smul_smul, hs 0, Matrix.mulVec_mulVec, show Qᵀ * Q = 1 from hQ] using h1
  · intro h0
    simp [h0]

theorem amPair_frame (c c1 c3 r : ℝ) : SameDyad Q (amPair e c c1 c3 (r * (s 0 * s 2))) (amPair e' c c1 c3 r) := by
  unfold amPair
  simp only [amM_frame hv hs hw, amB_frame hv hs hw, vnorm_turn hQ (hs 0)]
  rcases mul_self_eq_one_iff.1 (hs 0) with h0 | h0
  · refine .inl ⟨?_, ?_⟩
    · simp [h0]
    · simp [h0, Matrix.mulVec_smul]
  · refine .inr ⟨?_, ?_⟩
    · simp [h0]
    · simp [h0, Matrix.mulVec_smul]

theorem amTwo_frame (c c1 c3 : ℝ) :
    ((amM e' c c1 c3 1 = 0 ∨ amM e' c c1 c3 (-1) = 0) ↔ (amM e c c1 c3 1 = 0 ∨ amM e c c1 c3 (-1) = 0)) ∧
      SameUpToOrder (SameDyad Q) [amPair e c c1 c3 1, amPair e c c1 c3 (-1)]
        [amPair e' c c1 c3 1, amPair e' c c1 c3 (-1)] := by
  have hσ : s 0 * s 2 = 1 ∨ s 0 * s 2 = -1 := by
    refine mul_self_eq_one_iff.1 ?_
    linear_combination (s 2 * s 2) * hs 0 + hs 2
  have h1 := amM_zero hQ hv hs hw c c1 c3 1
  have h2 := amM_zero hQ hv hs hw c c1 c3 (-1)
  have p1 := amPair_frame hQ hv hs hw c c1 c3 1
  have p2 := amPair_frame hQ hv hs hw c c1 c3 (-1)
  rcases hσ with h | h
  · simp only [h, mul_one] at h1 h2 p1 p2
    exact ⟨by rw [h1, h2], _, .cons p1 (.cons p2 .nil), .refl _⟩
  · simp only [h, one_mul, neg_mul_neg, mul_one] at h1 h2 p1 p2
    exact ⟨by rw [h1, h2, or_comm], _, .cons p2 (.cons p1 .nil), .swap _ _ _⟩

end

/-- C93, `solve_rank1`. -/
theorem C93_solve_rank1 (eig eig' : Mat3 → EigRes) (h : KeepsPromise eig) (h' : KeepsPromise eig') {Q C : Mat3}
    (hQ : IsOrtho Q) (hC : Cᵀ = C) (hs : SimpleSpectrum C) :
    SameRes Q (solveRank1 eig C) (solveRank1 eig' (inFrame Q C)) := by
  classical
  obtain ⟨hv, hv2⟩ := sortEig_frame hQ hC (h _ hC) (h' _ (inFrame_symm hC))
  obtain ⟨s, hs1, hs2⟩ := hv2 hs
  have hpd : posDefSym (inFrame Q C) ↔ posDefSym C := by
    have : (inFrame Q C - (inFrame Q C)ᵀ) = 0 := by rw [inFrame_symm hC, sub_self]
    have h2 : C - Cᵀ = 0 := by rw [hC, sub_self]
    simp only [posDefSym, this, h2, inFrame_det hQ]
  unfold solveRank1
  simp only [hpd, hv]
  split
  · exact .error _
  split
  · exact .nothing
  have hT := fun c c1 c3 => amTwo_frame hQ hv hs1 hs2 c c1 c3
  simp only [(hT _ _ _).1]
  split
  · exact .nan
  · exact .two (hT _ _ _).2

/-- C93, `AM_Solver`. -/
theorem C93_am_solver (eig eig' : Mat3 → EigRes) (h : KeepsPromise eig) (h' : KeepsPromise eig') {Q C : Mat3}
    (hQ : IsOrtho Q) (hC : Cᵀ = C) (hs : SimpleSpectrum C) :
    SameRes Q (amSolver eig C) (amSolver eig' (inFrame Q C)) := by
  classical
  obtain ⟨hv, hv2⟩ := sortEig_frame hQ hC (h _ hC) (h' _ (inFrame_symm hC))
  obtain ⟨s, hs1, hs2⟩ := hv2 hs
  have h1 : (inFrame Q C)ᵀ - inFrame Q C = 0 := by rw [inFrame_symm hC, sub_self]
  have h2 : Cᵀ - C = 0 := by rw [hC, sub_self]
  unfold amSolver
  simp only [h1, h2, hv]
  split
  · exact .error _
  split
  · exact .error _
  split
  · exact .nothing
  have hT := fun c c1 c3 => amTwo_frame hQ hv hs1 hs2 c c1 c3
  simp only [(hT _ _ _).1]
  split
  · split
    · exact .error _
    split
    · exact .nan
    · exact .two (hT _ _ _).2
  · exact .nothing

/-! ### volume fractions -/

theorem cofVal_frame {Q : Mat3} (hQ : IsOrtho Q) (U : Mat3) (a n : V3) :
    cofVal (inFrame Q U) (Q *ᵥ a) (Q *ᵥ n) = cofVal U a n := by
  rw [cofVal_eq, cofVal_eq, inFrame_mulVec hQ, inFrame_mul hQ]
  have h1 := inFrame_sub_one hQ (U * U)
  have hadj : Q.adjugate = Q.det • Qᵀ := by
    have := congrArg (· * Qᵀ) (Matrix.adjugate_mul Q)
    simp only [Matrix.mul_assoc, ortho_right hQ, Matrix.mul_one, Matrix.smul_mul, Matrix.one_mul] at this
    exact this
  have h2 : ∀ M : Mat3, ((inFrame Q M).adjugate)ᵀ = inFrame Q (M.adjugate)ᵀ := by
    intro M
    rw [inFrame, Matrix.adjugate_mul_distrib, Matrix.adjugate_mul_distrib, ← Matrix.adjugate_transpose, hadj]
    simp only [inFrame, Matrix.transpose_mul, Matrix.transpose_smul, Matrix.transpose_transpose, Matrix.smul_mul,
      Matrix.mul_smul, smul_smul, ortho_det_sq hQ, one_smul, Matrix.mul_assoc]
  rw [h1, h2, inFrame_mulVec hQ, ortho_dot hQ]

theorem cofVal_neg (U : Mat3) (a n : V3) : cofVal U (-a) (-n) = cofVal U a n := by
  rw [cofVal_eq, cofVal_eq]
  simp [Matrix.mulVec_neg]

theorem solveF_frame {Q : Mat3} (hQ : IsOrtho Q) (U : Mat3) {x y : V3 × V3} (h : SameDyad Q x y) :
    cofVal (inFrame Q U) y.1 y.2 = cofVal U x.1 x.2 ∧ solveF (inFrame Q U) y.1 y.2 = solveF U x.1 x.2 := by
  have hc : cofVal (inFrame Q U) y.1 y.2 = cofVal U x.1 x.2 := by
    rcases h with ⟨h1, h2⟩ | ⟨h1, h2⟩
    · rw [h1, h2, cofVal_frame hQ]
    · rw [h1, h2, cofVal_neg, cofVal_frame hQ]
  have h1 : inFrame Q U * inFrame Q U - 1 = inFrame Q (U * U - 1) := by
    rw [inFrame_mul hQ, inFrame_sub_one hQ]
  refine ⟨hc, ?_⟩
  unfold solveF
  simp only [hc, h1, inFrame_det hQ]

theorem twinSol1_frame {Q : Mat3} (hQ : IsOrtho Q) {U : Mat3} (hU : U.det ≠ 0) {t : ℝ} (ht : t * t = 1) (W W' : Mat3)
    (x : V3) : (twinSol1 id (inFrame Q U) W' (t • Q *ᵥ x)).map Prod.snd =
      (twinSol1 id U W x).map fun r => (t • Q *ᵥ r.2.1, t • Q *ᵥ r.2.2) := by
  classical
  have h1 : (inFrame Q U)⁻¹ *ᵥ (t • Q *ᵥ x) = t • Q *ᵥ (U⁻¹ *ᵥ x) := by
    rw [inFrame_inv hQ hU, Matrix.mulVec_smul, inFrame_mulVec hQ]
  have h2 : inFrame Q U *ᵥ (t • Q *ᵥ x) = t • Q *ᵥ (U *ᵥ x) := by
    rw [Matrix.mulVec_smul, inFrame_mulVec hQ]
  have h3 : ∀ y : V3, (t • Q *ᵥ y) ⬝ᵥ (t • Q *ᵥ y) = y ⬝ᵥ y := by
    intro y
    rw [smul_dotProduct, dotProduct_smul, ortho_dot hQ, smul_eq_mul, smul_eq_mul, ← mul_assoc, ht, one_mul]
  unfold twinSol1
  simp only [h1, h2, h3, vnorm_turn hQ ht]
  split
  · rfl
  split
  · rfl
  · simp only [Option.map_some, Option.some.injEq, Prod.mk.injEq, id]
    constructor
    · change vnorm x • ((2 : ℝ) • (_ • t • Q *ᵥ (U⁻¹ *ᵥ x) - t • Q *ᵥ (U *ᵥ x))) =
        t • Q *ᵥ (vnorm x • ((2 : ℝ) • (_ • U⁻¹ *ᵥ x - U *ᵥ x)))
      simp only [Matrix.mulVec_smul, Matrix.mulVec_sub]
      module
    · change (vnorm x)⁻¹ • t • Q *ᵥ x = t • Q *ᵥ ((vnorm x)⁻¹ • x)
      rw [Matrix.mulVec_smul, smul_comm]

theorem twinSol2_frame {Q : Mat3} (hQ : IsOrtho Q) (U : Mat3) {t : ℝ} (ht : t * t = 1) (W W' : Mat3)
    (x : V3) : (twinSol2 id (inFrame Q U) W' (t • Q *ᵥ x)).map Prod.snd =
      (twinSol2 id U W x).map fun r => (t • Q *ᵥ r.2.1, t • Q *ᵥ r.2.2) := by
  classical
  have h2 : ∀ y : V3, inFrame Q U *ᵥ (t • Q *ᵥ y) = t • Q *ᵥ (U *ᵥ y) := by
    intro y
    rw [Matrix.mulVec_smul, inFrame_mulVec hQ]
  have h3 : ∀ y : V3, (t • Q *ᵥ y) ⬝ᵥ (t • Q *ᵥ y) = y ⬝ᵥ y := by
    intro y
    rw [smul_dotProduct, dotProduct_smul, ortho_dot hQ, smul_eq_mul, smul_eq_mul, ← mul_assoc, ht, one_mul]
  have h4 : ∀ c : ℝ, (2 : ℝ) • (t • Q *ᵥ x - c • t • Q *ᵥ (U *ᵥ (U *ᵥ x))) =
      t • Q *ᵥ ((2 : ℝ) • (x - c • U *ᵥ (U *ᵥ x))) := by
    intro c
    funext i
    simp only [Matrix.mulVec_smul, Matrix.mulVec_sub, Pi.smul_apply, Pi.sub_apply, smul_eq_mul]
    ring
  unfold twinSol2
  simp only [h2, h3, h4, vnorm_turn hQ ht]
  split
  · rfl
  split
  · rfl
  · simp only [Option.map_some, Option.some.injEq, Prod.mk.injEq, id]
    constructor
    · change _ • t • Q *ᵥ (U *ᵥ x) = t • Q *ᵥ (_ • U *ᵥ x)
      rw [Matrix.mulVec_smul, smul_comm]
    · change _ • t • Q *ᵥ _ = t • Q *ᵥ (_ • _)
      rw [Matrix.mulVec_smul (b := (vnorm _)⁻¹), smul_comm]

theorem same_dyad {Q : Mat3} {t : ℝ} (ht : t * t = 1) (x : V3 × V3) : SameDyad Q x (t • Q *ᵥ x.1, t • Q *ᵥ x.2) := by
  rcases mul_self_eq_one_iff.1 ht with rfl | rfl
  · exact .inl ⟨by simp, by simp⟩
  · exact .inr ⟨by simp, by simp⟩

theorem frac_frame {Q : Mat3} (hQ : IsOrtho Q) (U : Mat3) {t : ℝ} (ht : t * t = 1) {a b : Option TwinSol}
    (h : b.map Prod.snd = a.map fun r => (t • Q *ᵥ r.2.1, t • Q *ᵥ r.2.2)) :
    fracOf (inFrame Q U) b = fracOf U a ∧
      (b.map fun s => -cofVal (inFrame Q U) s.2.1 s.2.2) = a.map fun s => -cofVal U s.2.1 s.2.2 := by
  cases a with
  | none =>
    obtain rfl : b = none := by simpa using h
    simp only [fracOf, Option.map_none, and_self]
  | some a =>
    cases b with
    | none => simp at h
    | some b =>
      have hb : b.2 = (t • Q *ᵥ a.2.1, t • Q *ᵥ a.2.2) := by simpa using h
      have := solveF_frame hQ U (same_dyad ht a.2) (Q := Q)
      simp only [fracOf, Option.map_some, hb]
      exact ⟨this.2, by rw [this.1]⟩

theorem solveTwin_some {eig : Mat3 → EigRes} {t : Tol} {U V : Mat3} {x : V3} {r r' : Option TwinSol}
    (h : solveTwin eig t id false U V (some (some x)) = .ok (some (r, r'))) :
    ∃ W : Mat3, r = twinSol1 id U W x ∧ r' = twinSol2 id U W x := by
  classical
  unfold solveTwin at h
  simp only [Bool.false_eq_true, if_false] at h
  split at h
  · cases h
  split at h
  · cases h
  · cases h
  · split at h
    · next v uj hv hu =>
      split at h
      · cases h
      · cases hv
        cases h
        exact ⟨_, rfl, rfl⟩
    · cases h

/-- C93, `volumefrac` and `direct_cof` of a pair with one axis, with the rounding to ten decimals left out: whenever
both calls deliver numbers, these are the same. -/
theorem C93_fractions_partial (eig eig' : Mat3 → EigRes) (h : KeepsPromise eig) (h' : KeepsPromise eig') {Q U V : Mat3}
    (hQ : IsOrtho Q) (hU : Uᵀ = U) (hV : Vᵀ = V) (hd : 9 / 10 ^ 24 ≤ ∑ i, ∑ j, (U i j - V i j) ^ 2)
    (hs : SimpleSpectrum (U⁻¹ * V * (V * U⁻¹))) (skip : Bool) (p p' : TwinPair)
    (hp : TwinPair.new eig U V skip = .ok p)
    (hp' : TwinPair.new eig' (inFrame Q U) (inFrame Q V) skip = .ok p') (x : V3) (hx : p.ax = .ok [some x]) (t : Tol) :
    (∀ f f', p.volumeFrac eig t id false = .ok f → p'.volumeFrac eig' t id false = .ok f' → f' = f) ∧
      ∀ f f', p.directCof eig t id false = .ok f → p'.directCof eig' t id false = .ok f' → f' = f := by
  obtain ⟨q, hq, ht⟩ := C93_twinnable_partial eig eig' h h' hQ hU hV hd skip p hp
  obtain rfl : q = p' := Except.ok.inj (hq.symm.trans hp')
  obtain ⟨hdet, rfl, hp2⟩ := new_frame (eig' := eig') hQ hU hV hp
  have hsym := relMetric_symm hU hV
  obtain ⟨hv, hv2⟩ := sortEig_frame hQ hsym (h _ hsym) (h' _ (inFrame_symm hsym))
  obtain ⟨s, hs1, hs2⟩ := hv2 hs
  obtain rfl : _ = q := Except.ok.inj (hp2.symm.trans hp')
  have hT : Turned Q ⟨U, V, sortEig eig (relMetric U V)⟩
      ⟨inFrame Q U, inFrame Q V, sortEig eig' (inFrame Q (relMetric U V))⟩ s := ⟨rfl, rfl, hv, hs1, hs2⟩
  have hx' : TwinPair.ax ⟨inFrame Q U, inFrame Q V, sortEig eig' (inFrame Q (relMetric U V))⟩ =
      .ok [some (s 0 • Q *ᵥ x)] := by
    rcases ax_frame hQ hT ht with ⟨e, h1, _⟩ | ⟨l, l', h1, h2, h3⟩
    · rw [hx] at h1; cases h1
    · rw [hx] at h1
      cases h1
      rw [h2, List.perm_singleton.1 h3]
      rfl
  have key : ∀ {r r' q q' : Option TwinSol},
      TwinPair.twinParam eig t id false ⟨U, V, sortEig eig (relMetric U V)⟩ = .ok (some (r, r')) →
      TwinPair.twinParam eig' t id false ⟨inFrame Q U, inFrame Q V, sortEig eig' (inFrame Q (relMetric U V))⟩ =
        .ok (some (q, q')) →
      q.map Prod.snd = r.map (fun r => (s 0 • Q *ᵥ r.2.1, s 0 • Q *ᵥ r.2.2)) ∧
        q'.map Prod.snd = r'.map (fun r => (s 0 • Q *ᵥ r.2.1, s 0 • Q *ᵥ r.2.2)) := by
    intro r r' q q' e1 e2
    unfold TwinPair.twinParam at e1 e2
    rw [hx] at e1
    rw [hx'] at e2
    split at e1
    · cases e1
    split at e2
    · cases e2
    obtain ⟨W, rfl, rfl⟩ := solveTwin_some e1
    obtain ⟨W', rfl, rfl⟩ := solveTwin_some e2
    exact ⟨twinSol1_frame hQ hdet (hs1 0) W W' x, twinSol2_frame hQ U (hs1 0) W W' x⟩
  constructor
  · intro f f' e1 e2
    unfold TwinPair.volumeFrac at e1 e2
    split at e1
    · cases e1
    · cases e1
    · next r r' h1 =>
      split at e2
      · cases e2
      · cases e2
      · next q q' h2 =>
        obtain ⟨k1, k2⟩ := key h1 h2
        cases e1
        cases e2
        rw [(frac_frame hQ U (hs1 0) k1).1, (frac_frame hQ U (hs1 0) k2).1]
  · intro f f' e1 e2
    unfold TwinPair.directCof at e1 e2
    split at e1
    · cases e1
    · cases e1
    · next r r' h1 =>
      split at e2
      · cases e2
      · cases e2
      · next q q' h2 =>
        obtain ⟨k1, k2⟩ := key h1 h2
        cases e1
        cases e2
        rw [(frac_frame hQ U (hs1 0) k1).2, (frac_frame hQ U (hs1 0) k2).2]

/-! ### `_solve_am` -/

theorem eig_cols {C : Mat3} (hC : Cᵀ = C) (hs : SimpleSpectrum C) {r : EigRes} (hr : EigOK r.vals r.vecs C) :
    (ofCols r.vecs).det ≠ 0 := by
  have hi := simple_inj hs hr.eigenvalues
  have h1 : (ofCols r.vecs)ᵀ * ofCols r.vecs = 1 := by
    ext i j
    rw [Matrix.mul_apply, Matrix.one_apply]
    have : ∑ k, (ofCols r.vecs)ᵀ i k * ofCols r.vecs k j = r.vecs i ⬝ᵥ r.vecs j := rfl
    rw [this]
    split
    · next h => rw [h, hr.unit]
    · next h => exact eig_orth hC (hr.eigenvector i) (hr.eigenvector j) fun e => h (hi e)
  intro h0
  have := congrArg Matrix.det h1
  rw [det_mul, h0, mul_zero, det_one] at this
  exact zero_ne_one this

/-- The rotation and the dyad of a solution in the frame turned by `Q`. -/
def SameSol (Q : Mat3) (x y : Mat3 × V3 × V3) : Prop := y.1 = inFrame Q x.1 ∧ SameDyad Q x.2 y.2

/-- Two results of `_solve_am` agree up to the frame, the order and the signs. -/
inductive SameAm (Q : Mat3) : Except Err (AMRes (Mat3 × V3 × V3)) → Except Err (AMRes (Mat3 × V3 × V3)) → Prop
  | nothing : SameAm Q (.ok .nothing) (.ok .nothing)
  | nan : SameAm Q (.ok .nan) (.ok .nan)
  | two {x y x' y' : Mat3 × V3 × V3} (h : SameUpToOrder (SameSol Q) [x, y] [x', y']) :
    SameAm Q (.ok (.two x y)) (.ok (.two x' y'))

theorem dyad_frame {Q : Mat3} (hQ : IsOrtho Q) {x y : V3 × V3} (h : SameDyad Q x y) :
    1 + outer y.1 y.2 = inFrame Q (1 + outer x.1 x.2) := by
  have h1 : ∀ a b : V3, outer (Q *ᵥ a) (Q *ᵥ b) = inFrame Q (outer a b) := by
    intro a b
    rw [outer_eq, outer_eq, inFrame, mul_vecMulVec, vecMulVec_mul, Matrix.vecMul_transpose]
  have h2 : ∀ M : Mat3, inFrame Q (1 + M) = 1 + inFrame Q M := by
    intro M
    have h := inFrame_one hQ
    rw [inFrame] at h
    rw [inFrame, inFrame, Matrix.mul_add, Matrix.add_mul, h]
  have h3 : ∀ a b : V3, outer (-a) (-b) = outer a b := by
    intro a b
    funext i j
    simp [outer]
  rw [h2, ← h1]
  rcases h with ⟨e1, e2⟩ | ⟨e1, e2⟩
  · rw [e1, e2]
  · rw [e1, e2, h3]

/-- C93, `_solve_am`: the rotations and the habit planes it finds. -/
theorem C93_solve_am (eig eig' : Mat3 → EigRes) (h : KeepsPromise eig) (h' : KeepsPromise eig') {Q C : Mat3}
    (hQ : IsOrtho Q) (hC : IsSPD C) (hs : SimpleSpectrum C) :
    SameAm Q (solveAm eig C) (solveAm eig' (inFrame Q C)) := by
  classical
  have hC' : IsSPD (inFrame Q C) := conj_spd hC (ortho_right hQ)
  have hs' : SimpleSpectrum (inFrame Q C) := by
    obtain ⟨l, hl, hi⟩ := hs
    exact ⟨l, (inFrame_eigenvalues hQ).2 hl, hi⟩
  have ho := h _ hC.1
  have ho' := h' _ hC'.1
  obtain ⟨hv, hv2⟩ := sortEig_frame hQ hC.1 ho ho'
  obtain ⟨s, hs1, hs2⟩ := hv2 hs
  have hd := eig_cols hC.1 hs ho
  have hd' := eig_cols hC'.1 hs' ho'
  obtain ⟨hS, hSS⟩ := eigSqrt_spec hC ho hd
  obtain ⟨hS', hSS'⟩ := eigSqrt_spec hC' ho' hd'
  have hroot : eigSqrt (eig' (inFrame Q C)) = inFrame Q (eigSqrt (eig C)) := by
    refine spd_sq_inj hS' (conj_spd hS (ortho_right hQ)) ?_
    rw [hSS']
    have := inFrame_mul hQ (eigSqrt (eig C)) (eigSqrt (eig C))
    rw [hSS] at this
    exact this.symm
  have hSd : (eigSqrt (eig C)).det ≠ 0 := (spd_det_pos hS).ne'
  have hSd' : (eigSqrt (eig' (inFrame Q C))).det ≠ 0 := (spd_det_pos hS').ne'
  have h1 := spd_eigen_pos hC (sortEig_spec ho).1.eigenvalues
  unfold solveAm
  simp only [hv]
  rw [if_neg (not_not.2 (posDefSym_of_spd hC)), if_neg (not_not.2 (posDefSym_of_spd hC'))]
  split
  · exact .nothing
  have hT := fun c c1 c3 => amTwo_frame hQ hv hs1 hs2 c c1 c3
  simp only [(hT _ _ _).1]
  have hn : ¬ ((sortEig eig C).vals 0 < 0 ∨ (sortEig eig C).vals 2 < 0) := by
    rintro (h | h)
    · linarith [h1 0]
    · linarith [h1 2]
  rw [if_neg hn, if_neg hn]
  split
  · exact .nan
  rw [if_neg (show ¬ (Matrix.of fun i j => (eig C).vecs j i : Mat3).det = 0 from hd),
    if_neg (show ¬ (Matrix.of fun i j => (eig' (inFrame Q C)).vecs j i : Mat3).det = 0 from hd')]
  have hsol : ∀ {x y : V3 × V3}, SameDyad Q x y →
      SameSol Q ((1 + outer x.1 x.2) * (eigSqrt (eig C))⁻¹, x)
        ((1 + outer y.1 y.2) * (eigSqrt (eig' (inFrame Q C)))⁻¹, y) := by
    intro x y hxy
    refine ⟨?_, hxy⟩
    rw [dyad_frame hQ hxy, hroot, inFrame_inv hQ hSd, inFrame_mul hQ]
  refine .two ?_
  obtain ⟨m, hm, hp⟩ := (hT √((sortEig eig C).vals 2 - (sortEig eig C).vals 0) √|1 - (sortEig eig C).vals 0|
    √|(sortEig eig C).vals 2 - 1|).2
  cases hm with
  | cons hx hm =>
    cases hm with
    | cons hy hm =>
      cases hm
      refine ⟨_, .cons (hsol hx) (.cons (hsol hy) .nil), ?_⟩
      exact hp.map fun z => ((1 + outer z.1 z.2) * (eigSqrt (eig' (inFrame Q C)))⁻¹, z)

/-! ### where the frame matters -/

/-- A rotation by the angle whose cosine is 3/5. -/
noncomputable def turn345 : Mat3 := !![3 / 5, 4 / 5, 0; -4 / 5, 3 / 5, 0; 0, 0, 1]

theorem turn345_ortho : IsOrtho turn345 := by
  ext i j
  fin_cases i <;> fin_cases j <;> simp [turn345, Matrix.mul_apply, Fin.sum_univ_three] <;> norm_num

/-- A stretch by `1 + 1.2e-12` along the direction `(3, 4, 0)`. -/
noncomputable def tinyStretch : Mat3 :=
  !![1 + 9 / 25 * (12 / 10 ^ 13), 12 / 25 * (12 / 10 ^ 13), 0;
    12 / 25 * (12 / 10 ^ 13), 1 + 16 / 25 * (12 / 10 ^ 13), 0; 0, 0, 1]

theorem tiny_frame : inFrame turn345 tinyStretch = Matrix.diagonal ![1 + 12 / 10 ^ 13, 1, 1] := by
  ext i j
  fin_cases i <;> fin_cases j <;>
    simp [inFrame, turn345, tinyStretch, Matrix.mul_apply, Fin.sum_univ_three] <;> norm_num

/-- C93, `istwinnable` compares the entries with 1e-12, and these depend on the frame: two stretches that differ by 1.2e-12
are twinnable in one frame and not in another. -/
theorem C93_twinnable_fails (eig : Mat3 → EigRes) (h : KeepsPromise eig) :
    ∃ (Q U V : Mat3) (p p' : TwinPair), IsOrtho Q ∧ Q.det = 1 ∧ Uᵀ = U ∧ Vᵀ = V ∧
      TwinPair.new eig U V false = .ok p ∧ TwinPair.new eig (inFrame Q U) (inFrame Q V) false = .ok p' ∧
      p.isTwinnable = false ∧ p'.isTwinnable = true := by
  classical
  have hV : tinyStretchᵀ = tinyStretch := by
    ext i j
    fin_cases i <;> fin_cases j <;> simp [tinyStretch]
  have hpd1 : posDefSym (1 : Mat3) := by simp [posDefSym, fnorm]
  have hpd2 : posDefSym tinyStretch := by
    refine ⟨?_, ?_⟩
    · rw [det_fin_three]
      simp only [tinyStretch, of_apply, cons_val', cons_val_zero, cons_val_one, cons_val]
      norm_num
    · rw [hV, sub_self]
      simp [fnorm]
  have hn : TwinPair.new eig 1 tinyStretch false = .ok ⟨1, tinyStretch, sortEig eig (relMetric 1 tinyStretch)⟩ := by
    unfold TwinPair.new
    rw [if_neg (by simp [hpd1, hpd2]), if_neg (by simp)]
    rfl
  obtain ⟨-, -, hn'⟩ := new_frame (eig' := eig) turn345_ortho transpose_one hV hn
  refine ⟨turn345, 1, tinyStretch, _, _, turn345_ortho, ?_, transpose_one, hV, hn, hn', ?_, ?_⟩
  · rw [det_fin_three]
    simp only [turn345, of_apply, cons_val', cons_val_zero, cons_val_one, cons_val]
    norm_num
  · unfold TwinPair.isTwinnable
    rw [if_pos]
    intro i j
    rw [small, abs_lt]
    fin_cases i <;> fin_cases j <;> norm_num [tinyStretch, Matrix.cons_val]
  · unfold TwinPair.isTwinnable
    rw [if_neg]
    · have hs : SortedEigenvalues (inFrame turn345 (relMetric 1 tinyStretch)) ![1, 1, (1 + 12 / 10 ^ 13) ^ 2] := by
        refine ⟨?_, ?_⟩
        · intro i j hij
          fin_cases i <;> fin_cases j <;> first
            | (exfalso; revert hij; decide)
            | norm_num
        · rw [← relMetric_frame turn345_ortho (by simp), inFrame_one turn345_ortho, tiny_frame, relMetric]
          rw [inv_one, one_mul, mul_one, Matrix.diagonal_mul_diagonal]
          unfold IsEigenvalues
          rw [Matrix.charpoly_diagonal, Fin.prod_univ_three, Fin.prod_univ_three]
          simp only [Matrix.cons_val_zero, Matrix.cons_val_one, Matrix.cons_val]
          rw [one_mul, ← sq]
          ring
      have hsym := inFrame_symm (Q := turn345) (relMetric_symm transpose_one hV)
      have h1 := sortEig_spec (h _ hsym)
      have := sorted_unique ⟨h1.2, h1.1.eigenvalues⟩ hs
      simp only [this]
      norm_num [twinTol]
    · intro hc
      have := hc 0 0
      rw [inFrame_one turn345_ortho, tiny_frame, small] at this
      norm_num [abs_lt] at this

/-! ### concrete cases -/

theorem simple_diagonal {d : Fin 3 → ℝ} (h : Function.Injective d) : SimpleSpectrum (Matrix.diagonal d) :=
  ⟨d, eigenvalues_diagonal d, h⟩

/-- The hypotheses of the theorems on pairs: two tetragonal variants. -/
example : (Matrix.diagonal ![(2 : ℝ), 1, 1])ᵀ = Matrix.diagonal ![(2 : ℝ), 1, 1] ∧
    (9 : ℝ) / 10 ^ 24 ≤ ∑ i, ∑ j, (Matrix.diagonal ![(2 : ℝ), 1, 1] i j - Matrix.diagonal ![(1 : ℝ), 2, 1] i j) ^ 2 ∧
    SimpleSpectrum ((Matrix.diagonal ![(2 : ℝ), 1, 1])⁻¹ * Matrix.diagonal ![(1 : ℝ), 2, 1] *
      (Matrix.diagonal ![(1 : ℝ), 2, 1] * (Matrix.diagonal ![(2 : ℝ), 1, 1])⁻¹)) := by
  refine ⟨Matrix.diagonal_transpose _, ?_, ?_⟩
  · simp [Fin.sum_univ_three, Matrix.diagonal_apply]
    norm_num
  · have hi : (Matrix.diagonal ![(2 : ℝ), 1, 1])⁻¹ = Matrix.diagonal ![(1 / 2 : ℝ), 1, 1] := by
      refine Matrix.inv_eq_right_inv ?_
      rw [Matrix.diagonal_mul_diagonal]
      ext i j
      fin_cases i <;> fin_cases j <;> norm_num [Matrix.diagonal, Matrix.one_apply]
    rw [hi]
    simp only [Matrix.diagonal_mul_diagonal]
    refine simple_diagonal ?_
    intro i j hij
    fin_cases i <;> fin_cases j <;> first
      | rfl
      | (exfalso; revert hij; norm_num)

/-- The hypotheses of the theorems on solvers. -/
example : IsSPD (Matrix.diagonal ![(1 / 4 : ℝ), 1, 4]) ∧ SimpleSpectrum (Matrix.diagonal ![(1 / 4 : ℝ), 1, 4]) := by
  refine ⟨⟨Matrix.diagonal_transpose _, fun x hx => ?_⟩, simple_diagonal ?_⟩
  · have h : x ⬝ᵥ Matrix.diagonal ![(1 / 4 : ℝ), 1, 4] *ᵥ x = x 0 ^ 2 / 4 + x 1 ^ 2 + 4 * x 2 ^ 2 := by
      simp only [dotProduct, Matrix.mulVec_diagonal, Fin.sum_univ_three]
      simp
      ring
    rw [h]
    by_contra hc
    apply hx
    have h0 : x 0 ^ 2 = 0 := by nlinarith [sq_nonneg (x 0), sq_nonneg (x 1), sq_nonneg (x 2)]
    have h1 : x 1 ^ 2 = 0 := by nlinarith [sq_nonneg (x 0), sq_nonneg (x 1), sq_nonneg (x 2)]
    have h2 : x 2 ^ 2 = 0 := by nlinarith [sq_nonneg (x 0), sq_nonneg (x 1), sq_nonneg (x 2)]
    funext i
    fin_cases i
    · exact pow_eq_zero_iff (two_ne_zero) |>.1 h0
    · exact pow_eq_zero_iff (two_ne_zero) |>.1 h1
    · exact pow_eq_zero_iff (two_ne_zero) |>.1 h2
  · intro i j hij
    fin_cases i <;> fin_cases j <;> first
      | rfl
      | (exfalso; revert hij; norm_num)

/-- A routine that keeps its promises exists, and there are orthogonal matrices other than the identity. -/
example : (∃ eig : Mat3 → EigRes, KeepsPromise eig) ∧ IsOrtho turn345 ∧ turn345 ≠ 1 := by
  refine ⟨exists_eig, turn345_ortho, fun h => ?_⟩
  have := congrFun (congrFun h 0) 0
  norm_num [turn345, Matrix.cons_val] at this

end Verif.Props
