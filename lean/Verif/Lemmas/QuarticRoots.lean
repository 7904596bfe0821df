import Verif.Lemmas.Quartic
import Verif.Model.Quartic
import Verif.Spec.Quartic

/-!
# Lemmas about `quartic_opt.py`
-/

namespace Verif.Lemmas

open Matrix Verif.Model Verif.Spec

variable {ι : Type} [Fintype ι]

theorem quartForm_quartic (T : ι → ι → ι → ι → ℝ) (x : ι → ℝ) : quartForm T x = quartic T x := quartForm_eq T x

theorem form4_s12 (T : ι → ι → ι → ι → ℝ) (u v w z : ι → ℝ) :
    form4 (fun p q r s => T q p r s) u v w z = form4 T v u w z := by
  unfold form4
  rw [Finset.sum_comm]
  refine Finset.sum_congr rfl fun i _ => Finset.sum_congr rfl fun j _ =>
    Finset.sum_congr rfl fun k _ => Finset.sum_congr rfl fun l _ => ?_
  ring

theorem form4_s23 (T : ι → ι → ι → ι → ℝ) (u v w z : ι → ℝ) :
    form4 (fun p q r s => T p r q s) u v w z = form4 T u w v z := by
  unfold form4
  refine Finset.sum_congr rfl fun i _ => ?_
  rw [Finset.sum_comm]
  refine Finset.sum_congr rfl fun j _ =>
    Finset.sum_congr rfl fun k _ => Finset.sum_congr rfl fun l _ => ?_
  ring

theorem form4_s34 (T : ι → ι → ι → ι → ℝ) (u v w z : ι → ℝ) :
    form4 (fun p q r s => T p q s r) u v w z = form4 T u v z w := by
  unfold form4
  refine Finset.sum_congr rfl fun i _ => Finset.sum_congr rfl fun j _ => ?_
  rw [Finset.sum_comm]
  refine Finset.sum_congr rfl fun k _ => Finset.sum_congr rfl fun l _ => ?_
  ring

theorem form4_pqrs (T : ι → ι → ι → ι → ℝ) (h v x : ι → ℝ) :
    form4 (fun p q r s => T p q r s) h v x x = form4 T h v x x :=
  rfl

theorem form4_psqr (T : ι → ι → ι → ι → ℝ) (h v x : ι → ℝ) :
    form4 (fun p q r s => T p s q r) h v x x = form4 T h x v x :=
  (form4_s34 (fun p q r s => T p r q s) _ _ _ _).trans (form4_s23 (fun p q r s => T p q r s) _ _ _ _)

theorem form4_prsq (T : ι → ι → ι → ι → ℝ) (h v x : ι → ℝ) :
    form4 (fun p q r s => T p r s q) h v x x = form4 T h x x v :=
  (form4_s23 (fun p q r s => T p q s r) _ _ _ _).trans (form4_s34 (fun p q r s => T p q r s) _ _ _ _)

theorem form4_spqr (T : ι → ι → ι → ι → ℝ) (h v x : ι → ℝ) :
    form4 (fun p q r s => T s p q r) h v x x = form4 T x h v x :=
  (form4_s34 (fun p q r s => T r p q s) _ _ _ _).trans ((form4_s23 (fun p q r s => T q p r s) _ _ _ _).trans (form4_s12 (fun p q r s => T p q r s) _ _ _ _))

theorem form4_rpsq (T : ι → ι → ι → ι → ℝ) (h v x : ι → ℝ) :
    form4 (fun p q r s => T r p s q) h v x x = form4 T x h x v :=
  (form4_s23 (fun p q r s => T q p s r) _ _ _ _).trans ((form4_s12 (fun p q r s => T p q s r) _ _ _ _).trans (form4_s34 (fun p q r s => T p q r s) _ _ _ _))

theorem form4_qprs (T : ι → ι → ι → ι → ℝ) (h v x : ι → ℝ) :
    form4 (fun p q r s => T q p r s) h v x x = form4 T v h x x :=
  (form4_s12 (fun p q r s => T p q r s) _ _ _ _)

theorem form4_rspq (T : ι → ι → ι → ι → ℝ) (h v x : ι → ℝ) :
    form4 (fun p q r s => T r s p q) h v x x = form4 T x x h v :=
  (form4_s23 (fun p q r s => T q s p r) _ _ _ _).trans ((form4_s12 (fun p q r s => T p s q r) _ _ _ _).trans ((form4_s34 (fun p q r s => T p r q s) _ _ _ _).trans (form4_s23 (fun p q r s => T p q r s) _ _ _ _)))

theorem form4_qrps (T : ι → ι → ι → ι → ℝ) (h v x : ι → ℝ) :
    form4 (fun p q r s => T q r p s) h v x x = form4 T v x h x :=
  (form4_s12 (fun p q r s => T p r q s) _ _ _ _).trans (form4_s23 (fun p q r s => T p q r s) _ _ _ _)

theorem form4_sqpr (T : ι → ι → ι → ι → ℝ) (h v x : ι → ℝ) :
    form4 (fun p q r s => T s q p r) h v x x = form4 T x v h x :=
  (form4_s12 (fun p q r s => T s p q r) _ _ _ _).trans ((form4_s34 (fun p q r s => T r p q s) _ _ _ _).trans ((form4_s23 (fun p q r s => T q p r s) _ _ _ _).trans (form4_s12 (fun p q r s => T p q r s) _ _ _ _)))

theorem form4_qrsp (T : ι → ι → ι → ι → ℝ) (h v x : ι → ℝ) :
    form4 (fun p q r s => T q r s p) h v x x = form4 T v x x h :=
  (form4_s12 (fun p q r s => T p r s q) _ _ _ _).trans ((form4_s23 (fun p q r s => T p q s r) _ _ _ _).trans (form4_s34 (fun p q r s => T p q r s) _ _ _ _))

theorem form4_sqrp (T : ι → ι → ι → ι → ℝ) (h v x : ι → ℝ) :
    form4 (fun p q r s => T s q r p) h v x x = form4 T x v x h :=
  (form4_s12 (fun p q r s => T s p r q) _ _ _ _).trans ((form4_s23 (fun p q r s => T s p q r) _ _ _ _).trans ((form4_s34 (fun p q r s => T r p q s) _ _ _ _).trans ((form4_s23 (fun p q r s => T q p r s) _ _ _ _).trans (form4_s12 (fun p q r s => T p q r s) _ _ _ _))))

theorem form4_rsqp (T : ι → ι → ι → ι → ℝ) (h v x : ι → ℝ) :
    form4 (fun p q r s => T r s q p) h v x x = form4 T x x v h :=
  (form4_s12 (fun p q r s => T r s p q) _ _ _ _).trans ((form4_s23 (fun p q r s => T q s p r) _ _ _ _).trans ((form4_s12 (fun p q r s => T p s q r) _ _ _ _).trans ((form4_s34 (fun p q r s => T p r q s) _ _ _ _).trans (form4_s23 (fun p q r s => T p q r s) _ _ _ _))))

theorem dot2_sum (T : ι → ι → ι → ι → ℝ) (x v h : ι → ℝ) :
    ∑ i, (∑ j, dot2 T x i j * v j) * h i = form4 T h v x x := by
  unfold dot2 form4
  refine Finset.sum_congr rfl fun i _ => ?_
  rw [Finset.sum_mul]
  refine Finset.sum_congr rfl fun j _ => ?_
  rw [Finset.sum_mul, Finset.sum_mul]
  refine Finset.sum_congr rfl fun k _ => ?_
  rw [Finset.sum_mul, Finset.sum_mul, Finset.sum_mul]
  refine Finset.sum_congr rfl fun l _ => ?_
  ring

theorem rootHess_sum (T : ι → ι → ι → ι → ℝ) (x v h : ι → ℝ) :
    ∑ i, (∑ j, rootHess T x i j * v j) * h i =
      form4 T h v x x + form4 T h x v x + form4 T h x x v + (form4 T x h v x + form4 T x h x v + form4 T v h x x) +
      (form4 T x x h v + form4 T v x h x + form4 T x v h x) +
      (form4 T v x x h + form4 T x v x h + form4 T x x v h) := by
  unfold rootHess
  simp only [add_mul, Finset.sum_add_distrib, dot2_sum]
  linarith [form4_pqrs T h v x, form4_psqr T h v x, form4_prsq T h v x, form4_spqr T h v x, form4_rpsq T h v x, form4_qprs T h v x, form4_rspq T h v x, form4_qrps T h v x, form4_sqpr T h v x, form4_qrsp T h v x, form4_sqrp T h v x, form4_rsqp T h v x]

theorem form4_deriv (T : ι → ι → ι → ι → ℝ) {a b c d : ℝ → ι → ℝ} {a' b' c' d' : ι → ℝ}
    (ha : ∀ i, HasDerivAt (fun t => a t i) (a' i) 0) (hb : ∀ i, HasDerivAt (fun t => b t i) (b' i) 0)
    (hc : ∀ i, HasDerivAt (fun t => c t i) (c' i) 0) (hd : ∀ i, HasDerivAt (fun t => d t i) (d' i) 0) :
    HasDerivAt (fun t => form4 T (a t) (b t) (c t) (d t))
      (form4 T a' (b 0) (c 0) (d 0) + form4 T (a 0) b' (c 0) (d 0) + form4 T (a 0) (b 0) c' (d 0) +
        form4 T (a 0) (b 0) (c 0) d') 0 := by
  unfold form4
  simp only [← Finset.sum_add_distrib]
  refine HasDerivAt.fun_sum fun i _ => HasDerivAt.fun_sum fun j _ => HasDerivAt.fun_sum fun k _ =>
    HasDerivAt.fun_sum fun l _ => ?_
  have := ((((ha i).const_mul (T i j k l)).mul (hb j)).mul (hc k)).mul (hd l)
  refine this.congr_deriv ?_
  simp
  ring

/-- the block of second derivatives -/
theorem quartJac_deriv [DecidableEq ι] (T : ι → ι → ι → ι → ℝ) (x v : ι → ℝ) (i : ι) :
    HasDerivAt (fun t : ℝ => quartJac T (fun k => x k + t * v k) i) (∑ j, rootHess T x i j * v j) 0 := by
  have hl : ∀ i, HasDerivAt (fun t : ℝ => x i + t * v i) (v i) 0 := by
    intro i
    simpa using ((hasDerivAt_id (0 : ℝ)).mul_const (v i)).const_add (x i)
  set h : ι → ℝ := Pi.single i 1 with hh
  have h0 : ∀ i, HasDerivAt (fun _ : ℝ => h i) ((fun _ => 0 : ι → ℝ) i) 0 := fun i => hasDerivAt_const _ _
  have e1 : ∀ f : ι → ℝ, ∑ k, f k * h k = f i := by
    intro f
    simp [hh, Pi.single_apply]
  have hz : ∀ a b c : ι → ℝ, form4 T (fun _ => 0) a b c = 0 ∧ form4 T a (fun _ => 0) b c = 0 ∧
      form4 T a b (fun _ => 0) c = 0 ∧ form4 T a b c (fun _ => 0) = 0 := by
    intro a b c
    simp [form4]
  have key : HasDerivAt (fun t : ℝ => ∑ k, quartJac T (fun k => x k + t * v k) k * h k)
      (∑ k, (∑ j, rootHess T x k j * v j) * h k) 0 := by
    simp only [quartJac_sum]
    rw [rootHess_sum]
    have := (((form4_deriv T h0 hl hl hl).add (form4_deriv T hl h0 hl hl)).add (form4_deriv T hl hl h0 hl)).add
      (form4_deriv T hl hl hl h0)
    refine this.congr_deriv ?_
    simp only [(hz _ _ _).1, (hz _ _ _).2.1, (hz _ _ _).2.2.1, (hz _ _ _).2.2.2, zero_mul, add_zero, zero_add]
    ring
  simpa only [e1] using key

/-- Euler's identity -/
theorem quartJac_self (T : ι → ι → ι → ι → ℝ) (x : ι → ℝ) : ∑ i, quartJac T x i * x i = 4 * quartic T x := by
  rw [quartJac_sum, show form4 T x x x x = quartic T x from rfl]
  ring

/-- the gradient for two equal orthonormal cells -/
theorem quartJac_cubic (Y : Matrix (Fin 3) (Fin 3) ℝ) (a b : Fin 3) :
    quartJac (quartD (1 : Matrix (Fin 3) (Fin 3) ℝ) 1) (fun p => Y p.1 p.2) (a, b) = 4 * (Y * Yᵀ * Y) a b := by
  have h1 := quartForm_deriv (quartD (1 : Matrix (Fin 3) (Fin 3) ℝ) 1) (fun p => Y p.1 p.2) (Pi.single (a, b) 1)
  have e1 : ∑ i, quartJac (quartD (1 : Matrix (Fin 3) (Fin 3) ℝ) 1) (fun p => Y p.1 p.2) i *
      (Pi.single (a, b) 1 : Fin 3 × Fin 3 → ℝ) i
      = quartJac (quartD (1 : Matrix (Fin 3) (Fin 3) ℝ) 1) (fun p => Y p.1 p.2) (a, b) := by
    simp [Pi.single_apply]
  rw [e1] at h1
  refine h1.unique ?_
  have hform : ∀ t : ℝ, quartForm (quartD (1 : Matrix (Fin 3) (Fin 3) ℝ) 1)
      (fun p => Y p.1 p.2 + t * (Pi.single (a, b) 1 : Fin 3 × Fin 3 → ℝ) p)
      = ∑ i, ∑ j, (∑ k, (Y i k + t * (Pi.single (a, b) 1 : Fin 3 × Fin 3 → ℝ) (i, k)) *
          (Y j k + t * (Pi.single (a, b) 1 : Fin 3 × Fin 3 → ℝ) (j, k))) ^ 2 := by
    intro t
    have := quartForm_quartD (1 : Matrix (Fin 3) (Fin 3) ℝ) 1
      (Matrix.of fun i j => Y i j + t * (Pi.single (a, b) 1 : Fin 3 × Fin 3 → ℝ) (i, j))
    refine Eq.trans this ?_
    simp [fro, Matrix.mul_apply]
  simp only [hform]
  have hl : ∀ p : Fin 3 × Fin 3, HasDerivAt (fun t : ℝ => Y p.1 p.2 + t * (Pi.single (a, b) 1 : Fin 3 × Fin 3 → ℝ) p)
      ((Pi.single (a, b) 1 : Fin 3 × Fin 3 → ℝ) p) 0 := by
    intro p
    simpa using ((hasDerivAt_id (0 : ℝ)).mul_const ((Pi.single (a, b) 1 : Fin 3 × Fin 3 → ℝ) p)).const_add (Y p.1 p.2)
  have := HasDerivAt.fun_sum (u := Finset.univ) fun (i : Fin 3) _ => HasDerivAt.fun_sum (u := Finset.univ)
    fun (j : Fin 3) _ => (HasDerivAt.fun_sum (u := Finset.univ) fun (k : Fin 3) _ => (hl (i, k)).mul (hl (j, k))).pow 2
  refine this.congr_deriv ?_
  fin_cases a <;> fin_cases b <;>
    · simp [Fin.sum_univ_three, Matrix.mul_apply, Pi.single_apply]
      ring

end Verif.Lemmas
