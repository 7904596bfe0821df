import Verif.Lemmas.VecGen
import Mathlib.Algebra.Order.Floor.Ring
import Mathlib.Algebra.Order.Floor.Semiring

/-!
# `vec_generator` only depends on the integer part of the squared radius

This gives an executable version, used to evaluate concrete runs.
-/

namespace Verif.Lemmas

open Verif.Model

def vecLoopZ (sub : ℤ → Option (List ℤ) → List (List ℤ)) (ρ : ℤ) :
    ℕ → ℤ → Option (List ℤ) → List (List ℤ)
  | 0, _, _ => []
  | fuel + 1, f, xs =>
    if f ≤ 0 ∨ f ^ 2 ≤ ρ then
      (sub (max 0 (ρ - f ^ 2)) xs).map (fun w => f :: w) ++
      (if f > 0 then (sub (max 0 (ρ - f ^ 2)) xs).map (fun w => -f :: w) else []) ++
      vecLoopZ sub ρ fuel (|f| + 1) none
    else []

def vecGenZ : ℕ → ℤ → Option (List ℤ) → List (List ℤ)
  | 0, _, _ => [[]]
  | d + 1, ρ, x0 =>
    vecLoopZ (vecGenZ d) ρ (ρ.toNat + 2) ((x0.getD (List.replicate (d + 1) 0)).headD 0)
      (some (x0.getD (List.replicate (d + 1) 0)).tail)

theorem le_iff_sq {R : ℝ} (hR : 0 ≤ R) (f : ℤ) : (f : ℝ) ≤ R ↔ f ≤ 0 ∨ f ^ 2 ≤ ⌊R ^ 2⌋ := by
  rw [Int.le_floor]
  constructor
  · intro h
    by_cases hf : f ≤ 0
    · exact Or.inl hf
    · right
      push_cast
      have : (0 : ℝ) < f := by exact_mod_cast not_le.mp hf
      nlinarith
  · rintro (h | h)
    · exact le_trans (by exact_mod_cast h) hR
    · push_cast at h
      exact le_of_sq_le_sq₀ h hR
where
  le_of_sq_le_sq₀ {a b : ℝ} (h : a ^ 2 ≤ b ^ 2) (hb : 0 ≤ b) : a ≤ b := by
    have := sq_le_sq.mp h
    rw [abs_of_nonneg hb] at this
    exact (le_abs_self a).trans this

theorem floor_subR (R : ℝ) (f : ℤ) : ⌊subR R f ^ 2⌋ = max 0 (⌊R ^ 2⌋ - f ^ 2) := by
  rw [subR_sq]
  have : ((f : ℝ) ^ 2) = ((f ^ 2 : ℤ) : ℝ) := by push_cast; rfl
  rw [this]
  rcases le_total 0 (R ^ 2 - ((f ^ 2 : ℤ) : ℝ)) with h | h
  · rw [max_eq_right h, Int.floor_sub_intCast, max_eq_right]
    rw [← Int.floor_sub_intCast]
    exact Int.floor_nonneg.mpr h
  · rw [max_eq_left h, Int.floor_zero]
    symm
    apply max_eq_left
    rw [← Int.floor_sub_intCast]
    have := Int.floor_mono h
    simpa using this

theorem vecLoop_fuel (sub : ℝ → Option (List ℤ) → List (List ℤ)) (R : ℝ) (fuel : ℕ)
    (h : vecFuel R ≤ fuel) (f : ℤ) (xs : Option (List ℤ)) :
    vecLoop sub R fuel f xs = vecLoop sub R (vecFuel R) f xs := by
  unfold vecFuel at *
  obtain ⟨m, rfl⟩ : ∃ m, fuel = m + 1 := ⟨fuel - 1, by omega⟩
  rw [vecLoop, vecLoop]
  have e : |f| + 1 = ((f.natAbs + 1 : ℕ) : ℤ) := by
    push_cast
    rw [Int.abs_eq_natAbs]
  rw [e, vecLoop_pos sub R m _ (by omega) (by omega), vecLoop_pos sub R _ _ (by omega) (by omega)]

theorem vecLoop_eqZ {subR' : ℝ → Option (List ℤ) → List (List ℤ)}
    {subZ : ℤ → Option (List ℤ) → List (List ℤ)}
    (hsub : ∀ R xs, 0 ≤ R → subR' R xs = subZ ⌊R ^ 2⌋ xs) {R : ℝ} (hR : 0 ≤ R) :
    ∀ (fuel : ℕ) (f : ℤ) (xs : Option (List ℤ)),
      vecLoop subR' R fuel f xs = vecLoopZ subZ ⌊R ^ 2⌋ fuel f xs := by
  intro fuel
  induction fuel with
  | zero => intro f xs; rfl
  | succ fuel ih =>
    intro f xs
    unfold vecLoop vecLoopZ
    have e : subR' (Real.sqrt (max 0 (R ^ 2 - (f : ℝ) ^ 2))) xs = subZ (max 0 (⌊R ^ 2⌋ - f ^ 2)) xs := by
      rw [hsub _ _ (Real.sqrt_nonneg _), ← floor_subR]
      rfl
    rw [e, ih]
    by_cases h : (f : ℝ) ≤ R
    · rw [if_pos h, if_pos ((le_iff_sq hR f).mp h)]
    · rw [if_neg h, if_neg (fun h' => h ((le_iff_sq hR f).mpr h'))]

theorem vecGen0_eqZ (d : ℕ) : ∀ (R : ℝ) (x0 : Option (List ℤ)), 0 ≤ R →
    vecGen0 d R x0 = vecGenZ d ⌊R ^ 2⌋ x0 := by
  induction d with
  | zero => intro R x0 _; rfl
  | succ d ih =>
    intro R x0 hR
    rw [vecGen0, vecGenZ, ← vecLoop_fuel _ _ (⌊R ^ 2⌋.toNat + 2), vecLoop_eqZ ih hR]
    unfold vecFuel
    have : ⌊R⌋₊ ≤ ⌊R ^ 2⌋.toNat := by
      by_cases h1 : 1 ≤ R
      · have h2 : (⌊R⌋₊ : ℤ) ≤ ⌊R ^ 2⌋ := by
          rw [Int.le_floor]
          push_cast
          have := Nat.floor_le hR
          nlinarith
        omega
      · rw [Nat.floor_eq_zero.mpr (not_le.mp h1)]
        omega
    omega

/-- `vec_generator` in executable form. -/
theorem vecGen_eqZ (d : ℕ) (R : ℝ) (x0 : Option (List ℤ)) (hR : 0 ≤ R) :
    vecGen (d + 1) R x0 = vecGenZ (d + 1) ⌊R ^ 2⌋ x0 := by
  rw [vecGen_eq, vecGen0_eqZ _ _ _ hR]

end Verif.Lemmas
