import Verif.Lemmas.Dist
import Mathlib.Analysis.Calculus.Deriv.Add
import Mathlib.Algebra.Order.Chebyshev

/-!
# Lemmas about the quartic form and the search radius
-/

namespace Verif.Lemmas

open Matrix Verif.Model Verif.Spec

section tensor
variable {ι : Type} [Fintype ι]

/-- the four-linear form of a tensor -/
def form4 (T : ι → ι → ι → ι → ℝ) (u v w z : ι → ℝ) : ℝ :=
  ∑ i, ∑ j, ∑ k, ∑ l, T i j k l * u i * v j * w k * z l

theorem rot4 (f : ι → ι → ι → ι → ℝ) :
    ∑ j, ∑ k, ∑ l, ∑ i, f i j k l = ∑ i, ∑ j, ∑ k, ∑ l, f i j k l := by
  calc ∑ j, ∑ k, ∑ l, ∑ i, f i j k l = ∑ j, ∑ k, ∑ i, ∑ l, f i j k l := by
        refine Finset.sum_congr rfl fun j _ => Finset.sum_congr rfl fun k _ => ?_
        exact Finset.sum_comm
    _ = ∑ j, ∑ i, ∑ k, ∑ l, f i j k l := by
        refine Finset.sum_congr rfl fun j _ => ?_
        exact Finset.sum_comm
    _ = _ := Finset.sum_comm

theorem dot3_sum (T : ι → ι → ι → ι → ℝ) (x h : ι → ℝ) :
    ∑ i, dot3 T x i * h i = form4 T h x x x := by
  unfold dot3 form4
  refine Finset.sum_congr rfl fun i _ => ?_
  rw [Finset.sum_mul]
  refine Finset.sum_congr rfl fun j _ => ?_
  rw [Finset.sum_mul, Finset.sum_mul]
  refine Finset.sum_congr rfl fun k _ => ?_
  rw [Finset.sum_mul, Finset.sum_mul, Finset.sum_mul]
  refine Finset.sum_congr rfl fun l _ => ?_
  ring

theorem quartForm_eq (T : ι → ι → ι → ι → ℝ) (x : ι → ℝ) : quartForm T x = form4 T x x x x :=
  dot3_sum T x x

theorem form4_rot (T : ι → ι → ι → ι → ℝ) (u v w z : ι → ℝ) :
    form4 (fun p q r s => T s p q r) u v w z = form4 T z u v w := by
  unfold form4
  rw [← rot4 (fun i j k l => T i j k l * z i * u j * v k * w l)]
  refine Finset.sum_congr rfl fun i _ => Finset.sum_congr rfl fun j _ =>
    Finset.sum_congr rfl fun k _ => Finset.sum_congr rfl fun l _ => ?_
  ring

theorem quartJac_sum (T : ι → ι → ι → ι → ℝ) (x h : ι → ℝ) :
    ∑ i, quartJac T x i * h i = form4 T h x x x + form4 T x h x x + form4 T x x h x + form4 T x x x h := by
  unfold quartJac
  simp only [add_mul, Finset.sum_add_distrib]
  rw [dot3_sum, dot3_sum, dot3_sum, dot3_sum]
  have e2 : form4 (fun p q r s => T s p q r) h x x x = form4 T x h x x := form4_rot T _ _ _ _
  have e3 : form4 (fun p q r s => T r s p q) h x x x = form4 T x x h x := by
    rw [form4_rot (fun p q r s => T s p q r), form4_rot]
  have e4 : form4 (fun p q r s => T q r s p) h x x x = form4 T x x x h := by
    rw [form4_rot (fun p q r s => T r s p q), form4_rot (fun p q r s => T s p q r), form4_rot]
  rw [e2, e3, e4]

theorem quartForm_deriv (T : ι → ι → ι → ι → ℝ) (x h : ι → ℝ) :
    HasDerivAt (fun t : ℝ => quartForm T (fun i => x i + t * h i)) (∑ i, quartJac T x i * h i) 0 := by
  simp only [quartForm_eq]
  rw [quartJac_sum]
  unfold form4
  simp only [← Finset.sum_add_distrib]
  refine HasDerivAt.fun_sum fun i _ => HasDerivAt.fun_sum fun j _ => HasDerivAt.fun_sum fun k _ =>
    HasDerivAt.fun_sum fun l _ => ?_
  have hl : ∀ i, HasDerivAt (fun t : ℝ => x i + t * h i) (h i) 0 := by
    intro i
    simpa using ((hasDerivAt_id (0 : ℝ)).mul_const (h i)).const_add (x i)
  have := ((((hl i).const_mul (T i j k l)).mul (hl j)).mul (hl k)).mul (hl l)
  refine this.congr_deriv ?_
  simp
  ring

theorem quartForm_smul (T : ι → ι → ι → ι → ℝ) (c : ℝ) (x : ι → ℝ) :
    quartForm T (fun i => c * x i) = c ^ 4 * quartForm T x := by
  rw [quartForm_eq, quartForm_eq]
  unfold form4
  simp only [Finset.mul_sum]
  refine Finset.sum_congr rfl fun i _ => Finset.sum_congr rfl fun j _ =>
    Finset.sum_congr rfl fun k _ => Finset.sum_congr rfl fun l _ => ?_
  ring

end tensor

variable {N : ℕ}

theorem quartC2_sum (EA EMinv X : Matrix (Fin N) (Fin N) ℝ) (a a' : Fin N) :
    ∑ i : Fin N × Fin N, ∑ j : Fin N × Fin N, quartC2 EA EMinv (a, a') i j * X i.1 i.2 * X j.1 j.2
      = ((EA * X * EMinv) * (EA * X * EMinv)ᵀ) a a' := by
  have hF : ∀ a d, (EA * X * EMinv) a d
      = ∑ i : Fin N × Fin N, quartC1 EA EMinv a d i.1 i.2 * X i.1 i.2 := by
    intro a d
    rw [Matrix.mul_assoc, Matrix.mul_apply, Fintype.sum_prod_type]
    refine Finset.sum_congr rfl fun b _ => ?_
    rw [Matrix.mul_apply, Finset.mul_sum]
    refine Finset.sum_congr rfl fun c _ => ?_
    unfold quartC1
    ring
  rw [Matrix.mul_apply]
  simp only [Matrix.transpose_apply, hF]
  simp only [quartC2, Finset.sum_mul]
  calc _ = ∑ i : Fin N × Fin N, ∑ d, ∑ j : Fin N × Fin N,
        quartC1 EA EMinv a d i.1 i.2 * quartC1 EA EMinv a' d j.1 j.2 * X i.1 i.2 * X j.1 j.2 :=
        Finset.sum_congr rfl fun i _ => Finset.sum_comm
    _ = ∑ d, ∑ i : Fin N × Fin N, ∑ j : Fin N × Fin N,
        quartC1 EA EMinv a d i.1 i.2 * quartC1 EA EMinv a' d j.1 j.2 * X i.1 i.2 * X j.1 j.2 :=
        Finset.sum_comm
    _ = _ := by
        refine Finset.sum_congr rfl fun d _ => Finset.sum_congr rfl fun i _ => ?_
        rw [Finset.mul_sum]
        refine Finset.sum_congr rfl fun j _ => ?_
        ring

theorem quartForm_quartD (EA EMinv X : Matrix (Fin N) (Fin N) ℝ) :
    quartForm (quartD EA EMinv) (fun p => X p.1 p.2)
      = fro ((EA * X * EMinv) * (EA * X * EMinv)ᵀ) := by
  rw [quartForm_eq]
  unfold fro
  rw [← Fintype.sum_prod_type' (f := fun a a' => ((EA * X * EMinv) * (EA * X * EMinv)ᵀ) a a' ^ 2)]
  simp only [← quartC2_sum]
  unfold form4 quartD
  simp only [sq, Finset.sum_mul]
  -- move the sum over `aa` to the front
  have key : ∀ f : (Fin N × Fin N) → (Fin N × Fin N) → (Fin N × Fin N) → (Fin N × Fin N) →
      (Fin N × Fin N) → ℝ,
      ∑ i, ∑ j, ∑ k, ∑ l, ∑ aa, f aa i j k l = ∑ aa, ∑ i, ∑ j, ∑ k, ∑ l, f aa i j k l := by
    intro f
    calc ∑ i, ∑ j, ∑ k, ∑ l, ∑ aa, f aa i j k l = ∑ i, ∑ j, ∑ k, ∑ aa, ∑ l, f aa i j k l :=
          Finset.sum_congr rfl fun i _ => Finset.sum_congr rfl fun j _ =>
            Finset.sum_congr rfl fun k _ => Finset.sum_comm
      _ = ∑ i, ∑ j, ∑ aa, ∑ k, ∑ l, f aa i j k l :=
          Finset.sum_congr rfl fun i _ => Finset.sum_congr rfl fun j _ => Finset.sum_comm
      _ = ∑ i, ∑ aa, ∑ j, ∑ k, ∑ l, f aa i j k l :=
          Finset.sum_congr rfl fun i _ => Finset.sum_comm
      _ = ∑ aa, ∑ i, ∑ j, ∑ k, ∑ l, f aa i j k l := Finset.sum_comm
  rw [key]
  refine Finset.sum_congr rfl fun aa _ => Finset.sum_congr rfl fun i _ =>
    Finset.sum_congr rfl fun j _ => ?_
  rw [Finset.mul_sum]
  refine Finset.sum_congr rfl fun k _ => ?_
  rw [Finset.mul_sum]
  refine Finset.sum_congr rfl fun l _ => ?_
  ring

/-! ### the radius -/

theorem fro_one : fro (1 : Matrix (Fin N) (Fin N) ℝ) = N := by
  rw [fro_eq_trace]
  simp

theorem fro_add_le (A B : Matrix (Fin N) (Fin N) ℝ) :
    fro (A + B) ≤ (Real.sqrt (fro A) + Real.sqrt (fro B)) ^ 2 := by
  have hA := Real.sq_sqrt (fro_nonneg A)
  have hB := Real.sq_sqrt (fro_nonneg B)
  have hcs : ∑ p : Fin N × Fin N, A p.1 p.2 * B p.1 p.2 ≤ Real.sqrt (fro A) * Real.sqrt (fro B) := by
    have := Real.sum_mul_le_sqrt_mul_sqrt Finset.univ (fun p : Fin N × Fin N => A p.1 p.2)
      (fun p => B p.1 p.2)
    unfold fro
    rw [← Fintype.sum_prod_type' (f := fun i j => A i j ^ 2),
      ← Fintype.sum_prod_type' (f := fun i j => B i j ^ 2)]
    exact this
  have e : fro (A + B) = fro A + 2 * ∑ p : Fin N × Fin N, A p.1 p.2 * B p.1 p.2 + fro B := by
    unfold fro
    rw [Fintype.sum_prod_type, Finset.mul_sum, ← Finset.sum_add_distrib, ← Finset.sum_add_distrib]
    refine Finset.sum_congr rfl fun i _ => ?_
    rw [Finset.mul_sum, ← Finset.sum_add_distrib, ← Finset.sum_add_distrib]
    refine Finset.sum_congr rfl fun j _ => ?_
    rw [Matrix.add_apply]
    ring
  rw [e]
  nlinarith

theorem fro_mul_le (A B : Matrix (Fin N) (Fin N) ℝ) : fro (A * B) ≤ fro A * fro B := by
  unfold fro
  have h : ∀ i j, (A * B) i j ^ 2 ≤ (∑ k, A i k ^ 2) * ∑ k, B k j ^ 2 := by
    intro i j
    rw [Matrix.mul_apply]
    exact Finset.sum_mul_sq_le_sq_mul_sq _ _ _
  calc ∑ i, ∑ j, (A * B) i j ^ 2 ≤ ∑ i, ∑ j, (∑ k, A i k ^ 2) * ∑ k, B k j ^ 2 :=
        Finset.sum_le_sum fun i _ => Finset.sum_le_sum fun j _ => h i j
    _ = (∑ i, ∑ k, A i k ^ 2) * ∑ j, ∑ k, B k j ^ 2 := by rw [Finset.sum_mul_sum]
    _ = _ := by rw [Finset.sum_comm (f := fun j k => B k j ^ 2)]

theorem fro_transpose (A : Matrix (Fin N) (Fin N) ℝ) : fro Aᵀ = fro A := by
  unfold fro
  rw [Finset.sum_comm]
  rfl

/-- `‖A Aᵀ‖² ≥ ‖A‖⁴ / N` -/
theorem fro_mul_transpose (A : Matrix (Fin N) (Fin N) ℝ) : fro A ^ 2 ≤ N * fro (A * Aᵀ) := by
  have h1 : fro A = ∑ i, (A * Aᵀ) i i := by
    unfold fro
    refine Finset.sum_congr rfl fun i _ => ?_
    rw [Matrix.mul_apply]
    simp only [Matrix.transpose_apply, sq]
  have h2 : (∑ i, (A * Aᵀ) i i) ^ 2 ≤ N * ∑ i, ((A * Aᵀ) i i) ^ 2 := by
    have := sq_sum_le_card_mul_sum_sq (s := Finset.univ) (f := fun i => (A * Aᵀ) i i)
    simpa using this
  rw [h1]
  refine h2.trans ?_
  refine mul_le_mul_of_nonneg_left ?_ (Nat.cast_nonneg N)
  exact Finset.sum_le_sum fun i _ =>
    Finset.single_le_sum (f := fun j => ((A * Aᵀ) i j) ^ 2) (fun _ _ => sq_nonneg _) (Finset.mem_univ i)

theorem gammaFn_eq {d : ℝ} (hd : 0 ≤ d) : gammaFn d = (Real.sqrt 3 + Real.sqrt d) ^ 2 := by
  unfold gammaFn
  rw [Real.sqrt_mul (by norm_num), add_sq, Real.sq_sqrt hd, Real.sq_sqrt (by norm_num)]
  ring

theorem gammaFn_mono {d d' : ℝ} (h : d ≤ d') : gammaFn d ≤ gammaFn d' := by
  unfold gammaFn
  have := Real.sqrt_le_sqrt (show 3 * d ≤ 3 * d' by linarith)
  linarith

theorem gammaFn_pos {d : ℝ} (hd : 0 ≤ d) : 0 < gammaFn d := by
  unfold gammaFn
  have := Real.sqrt_nonneg (3 * d)
  linarith

theorem rmaxFn_nonneg {alpha d : ℝ} (ha : 0 < alpha) (hd : 0 ≤ d) : 0 ≤ rmaxFn alpha d := by
  unfold rmaxFn
  exact Real.rpow_nonneg (div_nonneg (gammaFn_pos hd).le ha.le) _

theorem rmaxFn_mono {alpha d d' : ℝ} (ha : 0 < alpha) (hd : 0 ≤ d) (h : d ≤ d') :
    rmaxFn alpha d ≤ rmaxFn alpha d' := by
  unfold rmaxFn
  refine Real.rpow_le_rpow (div_nonneg (gammaFn_pos hd).le ha.le) ?_ (by norm_num)
  exact div_le_div_of_nonneg_right (gammaFn_mono h) ha.le

theorem rmaxFn_pow {alpha d : ℝ} (ha : 0 < alpha) (hd : 0 ≤ d) :
    rmaxFn alpha d ^ 4 = gammaFn d / alpha := by
  unfold rmaxFn
  rw [← Real.rpow_natCast, ← Real.rpow_mul (div_nonneg (gammaFn_pos hd).le ha.le)]
  norm_num

theorem le_rmaxFn {alpha d r : ℝ} (ha : 0 < alpha) (hd : 0 ≤ d)
    (h : alpha * r ^ 4 ≤ gammaFn d) : r ≤ rmaxFn alpha d := by
  by_contra hlt
  rw [not_le] at hlt
  have h1 : rmaxFn alpha d ^ 4 < r ^ 4 := pow_lt_pow_left₀ hlt (rmaxFn_nonneg ha hd) (by norm_num)
  rw [rmaxFn_pow ha hd, div_lt_iff₀ ha] at h1
  linarith

/-- the quartic form bounds the norm -/
theorem quart_lower {EA EMinv : Matrix (Fin N) (Fin N) ℝ} {alpha : ℝ}
    (ha : ∀ x : Fin N × Fin N → ℝ, ∑ p, x p ^ 2 = 1 → alpha ≤ quartForm (quartD EA EMinv) x)
    (X : Matrix (Fin N) (Fin N) ℝ) :
    alpha * fro X ^ 2 ≤ fro ((EA * X * EMinv) * (EA * X * EMinv)ᵀ) := by
  by_cases h0 : fro X = 0
  · rw [h0]
    simpa using fro_nonneg _
  · have hpos : 0 < fro X := lt_of_le_of_ne (fro_nonneg X) (Ne.symm h0)
    have hs := Real.sq_sqrt hpos.le
    have hsp : 0 < Real.sqrt (fro X) := Real.sqrt_pos.mpr hpos
    have h1 := ha (fun p => (Real.sqrt (fro X))⁻¹ * X p.1 p.2) (by
      simp only [mul_pow]
      rw [← Finset.mul_sum, Fintype.sum_prod_type (f := fun p => X p.1 p.2 ^ 2), inv_pow, hs]
      exact inv_mul_cancel₀ h0)
    rw [quartForm_smul (quartD EA EMinv) _ (fun p => X p.1 p.2), quartForm_quartD] at h1
    have e : (Real.sqrt (fro X))⁻¹ ^ 4 = (fro X ^ 2)⁻¹ := by
      rw [inv_pow, show (4 : ℕ) = 2 * 2 from rfl, pow_mul, hs]
    rw [e, inv_mul_eq_div, le_div_iff₀ (by positivity)] at h1
    exact h1

end Verif.Lemmas
