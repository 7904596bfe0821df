import Verif.Props.SmallCofactor
import Verif.Props.TwinSwap

/-!
# The cofactor conditions with the rounding of `twinparam()`

C114 continued: the rounding of shears and normals to ten decimals changes the values of `direct_cof()` by at most 1e-9.
-/

namespace Verif.Props

open Matrix Verif.Model Verif.Spec Verif.Lemmas

local notation "Mat3" => Matrix (Fin 3) (Fin 3) ℝ

variable {U V W : Mat3} {t : Tol}

section norm

attribute [local instance] Matrix.linftyOpNormedRing Matrix.linftyOpNormedAddCommGroup

theorem sq_entry (h : SmallStretch V) (i j : Fin 3) : |(V * V - 1) i j| ≤ 2769 / 10000 := by
  have h1 := small_norm h
  have e : V * V - 1 = (V - 1) * (V - 1) + (V - 1) + (V - 1) := by
    rw [Matrix.sub_mul, Matrix.mul_sub, Matrix.mul_one, Matrix.one_mul]
    abel
  refine (entry_norm _ i j).trans ?_
  rw [e]
  have h2 := norm_mul_le (V - 1) (V - 1)
  have h3 := norm_add_le ((V - 1) * (V - 1) + (V - 1)) (V - 1)
  have h4 := norm_add_le ((V - 1) * (V - 1)) (V - 1)
  have h5 := mul_le_mul h1 h1 (norm_nonneg _) (by norm_num)
  linarith

end norm

theorem minor_bound {x y z w c : ℝ} (hx : |x| ≤ c) (hy : |y| ≤ c) (hz : |z| ≤ c) (hw : |w| ≤ c) : |x * y - z * w| ≤ 2 * (c * c) := by
  have h0 := (abs_nonneg x).trans hx
  have h1 : |x * y| ≤ c * c := by rw [abs_mul]; exact mul_le_mul hx hy (abs_nonneg _) h0
  have h2 : |z * w| ≤ c * c := by rw [abs_mul]; exact mul_le_mul hz hw (abs_nonneg _) h0
  have h3 := abs_sub (x * y) (z * w)
  linarith

theorem cofactor_entry (h : SmallStretch V) (i j : Fin 3) : |((V * V - 1).adjugate)ᵀ i j| ≤ 1534 / 10000 := by
  have b := sq_entry h
  set A := V * V - 1
  rw [transpose_apply, adjugate_fin_three]
  have key : ∀ x y z w : ℝ, |x| ≤ 2769 / 10000 → |y| ≤ 2769 / 10000 → |z| ≤ 2769 / 10000 → |w| ≤ 2769 / 10000 →
      |x * y - z * w| ≤ 1534 / 10000 := fun x y z w hx hy hz hw =>
    (minor_bound hx hy hz hw).trans (by norm_num)
  have key' : ∀ x y z w : ℝ, |x| ≤ 2769 / 10000 → |y| ≤ 2769 / 10000 → |z| ≤ 2769 / 10000 → |w| ≤ 2769 / 10000 →
      |-(x * y) + z * w| ≤ 1534 / 10000 := fun x y z w hx hy hz hw => by
    rw [neg_add_eq_sub]
    exact key z w x y hz hw hx hy
  fin_cases i <;> fin_cases j <;> simp <;>
    first
    | (exact key _ _ _ _ (b _ _) (b _ _) (b _ _) (b _ _); done)
    | (exact key' _ _ _ _ (b _ _) (b _ _) (b _ _) (b _ _); done)

theorem cofactor_form (V : Mat3) (a n : V3) :
    cofactorValue V a n = ∑ i, ∑ j, (Vᵀ * ((V * V - 1).adjugate)ᵀ) i j * (a i * n j) := by
  rw [cofactorValue, dotProduct_comm, dotProduct_mulVec, ← mulVec_transpose, mulVec_mulVec, dotProduct_comm]
  simp only [dotProduct, mulVec, Finset.mul_sum]
  exact Finset.sum_congr rfl fun i _ => Finset.sum_congr rfl fun j _ => by ring

theorem form_entry (h : SmallStretch V) (i j : Fin 3) : |(Vᵀ * ((V * V - 1).adjugate)ᵀ) i j| ≤ 1 / 5 := by
  have h2 : ∑ k, |V i k| ≤ 113 / 100 := by
    have h1 := h.near i
    have e : ∑ j, |(1 : Mat3) i j| = 1 := by
      simp only [Matrix.one_apply, apply_ite abs, abs_one, abs_zero]
      simp
    calc ∑ j, |V i j| ≤ ∑ j, (|V i j - (1 : Mat3) i j| + |(1 : Mat3) i j|) :=
          Finset.sum_le_sum fun j _ => by
            have := abs_add_le (V i j - (1 : Mat3) i j) ((1 : Mat3) i j)
            rwa [sub_add_cancel] at this
      _ ≤ 113 / 100 := by rw [Finset.sum_add_distrib, e]; linarith
  rw [h.symmetric, Matrix.mul_apply]
  calc |∑ k, V i k * ((V * V - 1).adjugate)ᵀ k j| ≤ ∑ k, |V i k| * (1534 / 10000) := by
        refine (Finset.abs_sum_le_sum_abs _ _).trans (Finset.sum_le_sum fun k _ => ?_)
        rw [abs_mul]
        exact mul_le_mul_of_nonneg_left (cofactor_entry h k j) (abs_nonneg _)
    _ ≤ 1 / 5 := by
        rw [← Finset.sum_mul]
        linarith

theorem cofactor_round (h : SmallStretch V) {a n a' n' : V3} (ha : ∀ i, |a i| ≤ 4) (hn : ∀ i, |n i| ≤ 1)
    (ha' : ∀ i, |a' i - a i| ≤ 5 / 10 ^ 11) (hn' : ∀ i, |n' i - n i| ≤ 5 / 10 ^ 11) :
    |cofactorValue V a' n' - cofactorValue V a n| ≤ 1 / 10 ^ 9 := by
  have term : ∀ i j, |a' i * n' j - a i * n j| ≤ 26 / 10 ^ 11 := fun i j => by
    have e : a' i * n' j - a i * n j = a i * (n' j - n j) + (a' i - a i) * (n' j - n j) + (a' i - a i) * n j := by ring
    rw [e]
    have h1 : |a i * (n' j - n j)| ≤ 4 * (5 / 10 ^ 11) := by
      rw [abs_mul]; exact mul_le_mul (ha i) (hn' j) (abs_nonneg _) (by norm_num)
    have h2 : |(a' i - a i) * (n' j - n j)| ≤ 5 / 10 ^ 11 * (5 / 10 ^ 11) := by
      rw [abs_mul]; exact mul_le_mul (ha' i) (hn' j) (abs_nonneg _) (by norm_num)
    have h3 : |(a' i - a i) * n j| ≤ 5 / 10 ^ 11 * 1 := by
      rw [abs_mul]; exact mul_le_mul (ha' i) (hn j) (abs_nonneg _) (by norm_num)
    have h4 := abs_add_le (a i * (n' j - n j) + (a' i - a i) * (n' j - n j)) ((a' i - a i) * n j)
    have h5 := abs_add_le (a i * (n' j - n j)) ((a' i - a i) * (n' j - n j))
    norm_num only at h1 h2 h3 h4 h5 ⊢
    linarith
  rw [cofactor_form, cofactor_form, ← Finset.sum_sub_distrib]
  simp only [← Finset.sum_sub_distrib, ← mul_sub]
  calc |∑ i, ∑ j, (Vᵀ * ((V * V - 1).adjugate)ᵀ) i j * (a' i * n' j - a i * n j)|
      ≤ ∑ i : Fin 3, ∑ j : Fin 3, (1 / 5 * (26 / 10 ^ 11) : ℝ) := by
        refine (Finset.abs_sum_le_sum_abs _ _).trans (Finset.sum_le_sum fun i _ => ?_)
        refine (Finset.abs_sum_le_sum_abs _ _).trans (Finset.sum_le_sum fun j _ => ?_)
        rw [abs_mul]
        exact mul_le_mul (form_entry h i j) (term i j) (abs_nonneg _) (by norm_num)
    _ ≤ 1 / 10 ^ 9 := by
        simp
        norm_num

theorem entry_of_dot {x : V3} {c : ℝ} (hc : 0 ≤ c) (h : x ⬝ᵥ x ≤ c ^ 2) (i : Fin 3) : |x i| ≤ c := by
  refine abs_le_of_sq_le_sq ?_ hc
  refine le_trans ?_ h
  rw [pow_two, dotProduct]
  exact Finset.single_le_sum (f := fun i => x i * x i) (fun i _ => mul_self_nonneg _) (Finset.mem_univ i)

theorem shear_bound (hV : SmallStretch V) (hW : SmallStretch W) {Q : Mat3} {a n : V3} (h : SolvesTwin V W Q a n) (i : Fin 3) :
    |a i| ≤ 4 := by
  refine entry_of_dot (by norm_num) ?_ i
  have e : a = Q *ᵥ (W *ᵥ n) - V *ᵥ n := by
    have h1 := congrArg (· *ᵥ n) h.equation
    simp only [sub_mulVec, vecMulVec_mulVec, h.unit, op_smul_eq_smul, one_smul, ← mulVec_mulVec] at h1
    exact h1.symm
  have hq : (Q *ᵥ (W *ᵥ n)) ⬝ᵥ (Q *ᵥ (W *ᵥ n)) = (W *ᵥ n) ⬝ᵥ (W *ᵥ n) := by
    rw [dotProduct_mulVec, ← mulVec_transpose, mulVec_mulVec, mul_eq_one_comm.1 h.rotation.1, one_mulVec]
  have h1 := small_upper hV n
  have h2 := small_upper hW n
  rw [h.unit] at h1 h2
  have h3 := self_nonneg (Q *ᵥ (W *ᵥ n) + V *ᵥ n)
  rw [e]
  simp only [sub_dotProduct, dotProduct_sub, add_dotProduct, dotProduct_add] at h3 ⊢
  rw [hq] at h3 ⊢
  linarith

theorem cofactor_sign {a n a' n' : V3} (h : SameUpToSign a n a' n') : cofactorValue V a' n' = cofactorValue V a n := by
  rcases h with ⟨rfl, rfl⟩ | ⟨rfl, rfl⟩
  · rfl
  · rw [cofactorValue, cofactorValue, mulVec_neg, mulVec_neg, neg_dotProduct, dotProduct_neg, neg_neg]

theorem fits_sign {a n a' n' : V3} (h : SameUpToSign a n a' n') (f : ℝ) : LaminateFits V a' n' f ↔ LaminateFits V a n f := by
  rcases h with ⟨rfl, rfl⟩ | ⟨rfl, rfl⟩
  · rfl
  · rw [LaminateFits, LaminateFits, neg_vecMulVec, vecMulVec_neg, neg_neg]

/-- **C114**, the cofactor conditions with rounding: let `rnd` change no number by more than 5e-11 (as the rounding to ten decimals
does, `C55_rounding`), let the pair be one of `C113_types` and let `V` leave a direction unstretched.  Then `twinparam()` returns
the rounded shears and normals of two exact solutions of the twinning equation, and the values of `direct_cof()` differ by at
most 1e-9 from minus the exact values `V a · cof(V² - I) n`.  The first exact value vanishes iff `V⁻¹ n` has length one iff the
laminates of the first twin fit the parent at every volume fraction, the second one iff `V n` has length one iff those of the
second twin do. -/
theorem C114_cofactor (eig : Mat3 → EigRes) (heig : ∀ A, Aᵀ = A → EigOK (eig A).vals (eig A).vecs A)
    (rnd : ℝ → ℝ) (hr : ∀ x, |rnd x - x| ≤ 5 / 10 ^ 11)
    (h : SmallStretch U) (hc : ClearSymmetry U) {vs : List Mat3} (hvs : Mart.getVariants t ⟨some U, cubicR⟩ = .ok vs)
    (ht : t = .code ∨ t = .exact) (hV : V ∈ vs) (hW : W ∈ vs) (hne : V ≠ W) {n : V3} (hn : IsTwinAxis V W n)
    (hy : ClearlyNotPrincipal V (crossDirection V n)) (hun : HasUnstretched V) (skip : Bool) :
    ∃ P Q₁ a₁ n₁ Q₂ a₂ n₂ R₁ R₂ c₁ c₂, TwinPair.new eig V W skip = .ok P ∧
      SolvesTwin V W Q₁ a₁ n₁ ∧ SolvesTwin V W Q₂ a₂ n₂ ∧
      P.twinParam eig t rnd false = .ok (some
        (some (R₁, (fun l => rnd (a₁ l)), fun l => rnd (n₁ l)), some (R₂, (fun l => rnd (a₂ l)), fun l => rnd (n₂ l)))) ∧
      P.directCof eig t rnd false = .ok (some c₁, some c₂) ∧
      |c₁ + cofactorValue V a₁ n₁| ≤ 1 / 10 ^ 9 ∧ |c₂ + cofactorValue V a₂ n₂| ≤ 1 / 10 ^ 9 ∧
      (cofactorValue V a₁ n₁ = 0 ↔ (V⁻¹ *ᵥ n) ⬝ᵥ (V⁻¹ *ᵥ n) = 1) ∧
      ((∀ f, LaminateFits V a₁ n₁ f) ↔ (V⁻¹ *ᵥ n) ⬝ᵥ (V⁻¹ *ᵥ n) = 1) ∧
      (cofactorValue V a₂ n₂ = 0 ↔ (V *ᵥ n) ⬝ᵥ (V *ᵥ n) = 1) ∧
      ((∀ f, LaminateFits V a₂ n₂ f) ↔ (V *ᵥ n) ⬝ᵥ (V *ᵥ n) = 1) := by
  obtain ⟨iV, iW, ws, hws, hm⟩ := variant_of h hc hvs ht hV hW
  have sV := image_spd h iV
  have sW := image_spd h iW
  have hd := image_far h hc iV iW hne
  obtain ⟨hcl, hcomp⟩ := types_clean eig heig sV sW hn hd (clear_far (image_small h iV) hn hne hy)
  obtain ⟨P, E₁, a₁, n₁, E₂, a₂, n₂, c₁, c₂, p1, p2, p3, p4, -, p6, p7, p8, p9, p10, p11⟩ :=
    C114_exact eig heig h hc hvs ht hV hW hne hn hy hun skip
  obtain ⟨P', q1, q2⟩ := C103_all_twins eig heig t id V W sV sW (axis_related hn) hd (axis_connected sV hn) ws hws hm skip
  obtain ⟨P₀, r1, -, -, -, Q₁, b₁, Q₂, m₂, R₁, R₂, τ, ρ, hτ, r2, -, -, r3, r4, r5⟩ :=
    C113_types eig heig h hc hvs ht rnd hV hW hne hn hy skip
  obtain ⟨P₁, s1, -, -, -, S₁, d₁, S₂, l₂, X₁, X₂, σ, ω, hσ, s2, -, -, s3, s4, s5⟩ :=
    C113_types eig heig h hc hvs ht id hV hW hne hn hy skip
  rw [new_ok eig sV sW] at p1 q1 r1 s1
  cases p1
  cases q1
  cases r1
  cases s1
  obtain ⟨F₁, f₁, g₁, F₂, f₂, g₂, T₁, T₂, q3, -, -, -, -, q4, q5⟩ := q2 hcl
  rw [p2] at q3 s2
  simp only [id, Except.ok.injEq, Option.some.injEq, Prod.mk.injEq] at q3 s2
  obtain ⟨⟨-, u1, u2⟩, -, u3, u4⟩ := q3
  obtain ⟨⟨-, v1, v2⟩, -, v3, v4⟩ := s2
  have e1 : f₁ = a₁ := u1.symm
  have e2 : g₁ = n₁ := u2.symm
  have e3 : f₂ = a₂ := u3.symm
  have e4 : g₂ = n₂ := u4.symm
  rw [e1, e2, e3, e4] at q5
  rw [e2, e4] at q4
  have e5 : n₁ = σ • n := v2
  -- the normal of the second twin is not that of the first
  have apart : ¬ SameLine n₂ n := by
    intro hl
    have hσ0 : σ ≠ 0 := by rcases hσ with rfl | rfl <;> norm_num
    have : n ⬝ᵥ n₂ = 0 := by
      rw [e5, smul_dotProduct, smul_eq_mul] at q4
      exact (mul_eq_zero.1 q4).resolve_left hσ0
    rcases hl with hl | hl
    · rw [hl, hn.1] at this
      norm_num at this
    · rw [hl, dotProduct_neg, hn.1] at this
      norm_num at this
  have first : ∀ {Q a m}, SolvesTwin V W Q a m → SameLine m n → SameUpToSign a₁ n₁ a m := fun hs hl => by
    rcases q5 _ _ _ hs with ⟨-, k⟩ | ⟨-, k⟩
    · exact k
    · refine absurd ?_ apart
      rcases line_of_same k with k | k <;> rcases hl with hl | hl
      · exact .inl (k.trans hl)
      · exact .inr (k.trans hl)
      · exact .inr (by rw [k, hl])
      · exact .inl (by rw [k, hl, neg_neg])
  have hτl : SameLine (τ • n) n := by
    rcases hτ with rfl | rfl
    · exact .inl (one_smul _ _)
    · exact .inr (neg_one_smul _ _)
  have k1 : SameUpToSign a₁ n₁ b₁ (τ • n) := first r3 hτl
  have k2 : SameUpToSign a₂ n₂ (ρ • V *ᵥ n) m₂ := by
    rcases q5 _ _ _ r4 with ⟨-, k⟩ | ⟨-, k⟩
    · exfalso
      -- both rounded solutions would be the first one
      have hm : SameLine m₂ n := by
        have h1 := line_of_same k
        have h2 := line_of_same k1
        rcases h1 with h1 | h1 <;> rcases h2 with h2 | h2 <;> rcases hτl with h3 | h3
        · exact .inl (by rw [← h1, h2, h3])
        · exact .inr (by rw [← h1, h2, h3])
        · exact .inr (by rw [← h1, h2, h3])
        · exact .inl (by rw [← h1, h2, h3, neg_neg])
        · exact .inr (by rw [← h3, ← h2, h1, neg_neg])
        · exact .inl (by rw [← neg_eq_iff_eq_neg.2 h1, h2, h3, neg_neg])
        · exact .inl (by rw [← neg_eq_iff_eq_neg.2 h1, h2, h3, neg_neg])
        · exact .inr (by rw [← neg_eq_iff_eq_neg.2 h1, h2, h3, neg_neg])
      rcases r5 _ _ _ p4 with ⟨-, k'⟩ | ⟨-, k'⟩
      · rcases line_of_same k' with k' | k' <;> rcases hτl with h3 | h3
        · exact apart (.inl (by rw [← k', h3]))
        · exact apart (.inr (by rw [← k', h3]))
        · exact apart (.inr (by rw [← h3, k', neg_neg]))
        · exact apart (.inl (by rw [← neg_eq_iff_eq_neg.2 k', h3, neg_neg]))
      · rcases line_of_same k' with k' | k' <;> rcases hm with h3 | h3
        · exact apart (.inl (by rw [← k', h3]))
        · exact apart (.inr (by rw [← k', h3]))
        · exact apart (.inr (by rw [← h3, k', neg_neg]))
        · exact apart (.inl (by rw [← neg_eq_iff_eq_neg.2 k', h3, neg_neg]))
    · exact k
  have vSmall := image_small h iV
  have wSmall := image_small h iW
  have nb : ∀ {Q a m}, SolvesTwin V W Q a m → ∀ i, |m i| ≤ 1 := fun hs =>
    entry_of_dot (by norm_num) (by rw [hs.unit]; norm_num)
  have z1 := cofactor_round vSmall (shear_bound vSmall wSmall r3) (nb r3) (fun i => hr (b₁ i)) (fun i => hr ((τ • n) i))
  have z2 := cofactor_round vSmall (shear_bound vSmall wSmall r4) (nb r4) (fun i => hr ((ρ • V *ᵥ n) i)) (fun i => hr (m₂ i))
  refine ⟨_, Q₁, b₁, τ • n, Q₂, ρ • V *ᵥ n, m₂, R₁, R₂,
    -cofVal V (fun l => rnd (b₁ l)) (fun l => rnd ((τ • n) l)), -cofVal V (fun l => rnd ((ρ • V *ᵥ n) l)) (fun l => rnd (m₂ l)),
    new_ok eig sV sW skip, r3, r4, r2, by simp only [TwinPair.directCof, r2, Option.map_some]; rfl, ?_, ?_, ?_, ?_, ?_, ?_⟩
  · rw [cofVal_eq, neg_add_eq_sub, abs_sub_comm, ← cofactorValue]
    exact z1
  · rw [cofVal_eq, neg_add_eq_sub, abs_sub_comm, ← cofactorValue]
    exact z2
  · rw [cofactor_sign k1, ← p8, p6, neg_eq_zero]
  · simp only [fits_sign k1]
    exact p9
  · rw [cofactor_sign k2, ← p10, p7, neg_eq_zero]
  · simp only [fits_sign k2]
    exact p11

end Verif.Props
