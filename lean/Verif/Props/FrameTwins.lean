import Mathlib.Data.Option.Defs
import Verif.Props.Frame
import Verif.Props.TwinSwap

/-!
# C93: twins, volume fractions and habit planes of a pair in another frame

Also for compound pairs, where the two twins may be returned in the other order.
-/

namespace Verif.Props

open Matrix Verif.Model Verif.Spec Verif.Lemmas

local notation "Mat3" => Matrix (Fin 3) (Fin 3) ℝ

theorem inFrame_rotation {R Q : Mat3} (hR : IsOrtho R) (hQ : IsRotation Q) : IsRotation (inFrame R Q) := by
  refine ⟨?_, by rw [inFrame_det hR]; exact hQ.2⟩
  have h : (inFrame R Q)ᵀ = inFrame R Qᵀ := by
    simp only [inFrame, transpose_mul, transpose_transpose, Matrix.mul_assoc]
  rw [h, inFrame_mul hR, hQ.1, inFrame_one hR]

theorem inFrame_dyad (R : Mat3) (a n : V3) : inFrame R (vecMulVec a n) = vecMulVec (R *ᵥ a) (R *ᵥ n) := by
  rw [inFrame, mul_vecMulVec, vecMulVec_mul, vecMul_transpose]

theorem inFrame_sub (R A B : Mat3) : inFrame R (A - B) = inFrame R A - inFrame R B := by
  rw [inFrame, inFrame, inFrame, Matrix.mul_sub, Matrix.sub_mul]

theorem inFrame_add (R A B : Mat3) : inFrame R (A + B) = inFrame R A + inFrame R B := by
  rw [inFrame, inFrame, inFrame, Matrix.mul_add, Matrix.add_mul]

theorem inFrame_smul (R A : Mat3) (c : ℝ) : inFrame R (c • A) = c • inFrame R A := by
  rw [inFrame, inFrame, mul_smul_comm, smul_mul_assoc]

theorem inFrame_transpose (R A : Mat3) : (inFrame R A)ᵀ = inFrame R Aᵀ := by
  simp only [inFrame, transpose_mul, transpose_transpose, Matrix.mul_assoc]

theorem frame_solves {R U V Q : Mat3} {a n : V3} (hR : IsOrtho R) (h : SolvesTwin U V Q a n) :
    SolvesTwin (inFrame R U) (inFrame R V) (inFrame R Q) (R *ᵥ a) (R *ᵥ n) := by
  refine ⟨inFrame_rotation hR h.rotation, by rw [ortho_dot hR]; exact h.unit, ?_⟩
  rw [inFrame_mul hR, ← inFrame_sub, h.equation, inFrame_dyad]

theorem frame_related {R U V : Mat3} (hR : IsOrtho R) (h : Related U V) : Related (inFrame R U) (inFrame R V) := by
  obtain ⟨G, hG, rfl⟩ := h
  refine ⟨inFrame R G, inFrame_rotation hR hG, ?_⟩
  rw [inFrame_transpose, inFrame_mul hR, inFrame_mul hR]

theorem frame_connected {R U V : Mat3} (hR : IsOrtho R) (h : RankOneConnected U V) :
    RankOneConnected (inFrame R U) (inFrame R V) := by
  obtain ⟨Q, a, n, hQ, h⟩ := h
  exact ⟨inFrame R Q, R *ᵥ a, R *ᵥ n, inFrame_rotation hR hQ, by
    rw [inFrame_mul hR, ← inFrame_sub, h, inFrame_dyad]⟩

theorem differ_of_not_close {U V : Mat3} (h : ¬ maxClose U V) : ∃ i j, 1 / 10 ^ 12 ≤ |U i j - V i j| := by
  by_contra hc
  push Not at hc
  exact h fun i j => by rw [small]; exact hc i j

theorem sameSol_of {R Q Q' : Mat3} {a n a' n' : V3} (h : inFrame R Q = Q')
    (hs : SameUpToSign a' n' (R *ᵥ a) (R *ᵥ n)) : SameSol R (Q, a, n) (Q', a', n') := by
  refine ⟨h.symm, ?_⟩
  rcases hs with ⟨h1, h2⟩ | ⟨h1, h2⟩
  · exact Or.inl ⟨h1.symm, h2.symm⟩
  · exact Or.inr ⟨(neg_eq_iff_eq_neg.2 h1).symm, (neg_eq_iff_eq_neg.2 h2).symm⟩

theorem mixMetric_frame {R U : Mat3} (hR : IsOrtho R) {a n a' n' : V3} (h : SameDyad R (a, n) (a', n')) (f : ℝ) :
    mixMetric (inFrame R U) a' n' f = inFrame R (mixMetric U a n f) := by
  have hd : vecMulVec a' n' = inFrame R (vecMulVec a n) := by
    rw [inFrame_dyad]
    rcases h with ⟨h1, h2⟩ | ⟨h1, h2⟩
    · simp only at h1 h2
      rw [h1, h2]
    · simp only at h1 h2
      rw [h1, h2, neg_vecMulVec, vecMulVec_neg, neg_neg]
  rw [mixMetric, mixMetric, outer_eq, outer_eq, hd, ← inFrame_smul, ← inFrame_add, inFrame_transpose, inFrame_mul hR]

theorem sameOrder_append {α : Type} {r : α → α → Prop} {l l' m m' : List α} (h : SameUpToOrder r l l')
    (h' : SameUpToOrder r m m') : SameUpToOrder r (l ++ m) (l' ++ m') := by
  obtain ⟨x, h1, h2⟩ := h
  obtain ⟨y, h3, h4⟩ := h'
  exact ⟨x ++ y, List.rel_append h1 h3, h2.append h4⟩

theorem sameOrder_swap {α : Type} {r : α → α → Prop} {l m k : List α} (h : SameUpToOrder r l (m ++ k)) :
    SameUpToOrder r l (k ++ m) := by
  obtain ⟨x, h1, h2⟩ := h
  exact ⟨x, h1, List.perm_append_comm.trans h2⟩

theorem extendAm_frame (eig eig' : Mat3 → EigRes) (h : KeepsPromise eig) (h' : KeepsPromise eig') {R C : Mat3}
    (hR : IsOrtho R) (hC : IsSPD C) (hs : SimpleSpectrum C) {l : List (Option (M3 × V3 × V3))}
    (hl : extendAm eig C = .ok l) :
    ∃ l', extendAm eig' (inFrame R C) = .ok l' ∧ SameUpToOrder (Option.Rel (SameSol R)) l l' := by
  have hA := C93_solve_am eig eig' h h' hR hC hs
  unfold extendAm at hl ⊢
  generalize hx : solveAm eig C = x at hA hl
  generalize hy : solveAm eig' (inFrame R C) = y at hA
  cases hA with
  | nothing => cases hl
  | nan =>
    cases hl
    exact ⟨_, rfl, _, .cons .none (.cons .none .nil), List.Perm.refl _⟩
  | two h2 =>
    cases hl
    obtain ⟨m, hm, hp⟩ := h2
    refine ⟨_, rfl, m.map some, ?_, ?_⟩
    · cases hm with
      | cons h3 hm =>
        cases hm with
        | cons h4 hm =>
          cases hm
          exact .cons (.some h3) (.cons (.some h4) .nil)
    · exact hp.map some

theorem habitStep_frame (eig eig' : Mat3 → EigRes) (h : KeepsPromise eig) (h' : KeepsPromise eig') {R U V : Mat3}
    (hR : IsOrtho R) (hU : IsSPD U) (hV : IsSPD V) (hrel : Related U V) {s s' : TwinSol}
    (hs : SolvesTwin U V s.1 s.2.1 s.2.2) (hss : SameSol R s s') {f : Option ℝ}
    (hsp : ∀ g, f = some g → SimpleSpectrum (mixMetric U s.2.1 s.2.2 g)) {l : List (Option (M3 × V3 × V3))}
    (hl : habitStep eig U (some s) f = .ok l) :
    ∃ l', habitStep eig' (inFrame R U) (some s') f = .ok l' ∧ SameUpToOrder (Option.Rel (SameSol R)) l l' := by
  cases f with
  | none => cases hl
  | some f =>
    obtain ⟨-, hd⟩ := hss
    have hspd : ∀ f : ℝ, IsSPD (mixMetric U s.2.1 s.2.2 f) := fun f => by
      rw [mixMetric, outer_eq]
      exact spd_of_gram (by rw [laminate_det hU hrel hs]; exact (spd_det_pos hU).ne')
    have hsp1 := hsp f rfl
    have hsp2 : SimpleSpectrum (mixMetric U s.2.1 s.2.2 (1 - f)) := by
      obtain ⟨e, he, hi⟩ := hsp1
      obtain ⟨σ, hσ⟩ : ∃ σ : Equiv.Perm (Fin 3), Monotone (e ∘ σ) := ⟨Tuple.sort e, Tuple.monotone_sort e⟩
      have hl : SortedEigenvalues ((U + f • vecMulVec s.2.1 s.2.2)ᵀ * (U + f • vecMulVec s.2.1 s.2.2)) (e ∘ σ) := by
        refine ⟨hσ, ?_⟩
        rw [mixMetric, outer_eq] at he
        unfold IsEigenvalues at he ⊢
        rw [he]
        exact (Equiv.prod_comp σ fun i => _).symm
      refine ⟨e ∘ σ, ?_, hi.comp σ.injective⟩
      rw [mixMetric, outer_eq]
      exact (laminate_swap hU hV hrel hs f hl).2
    simp only [habitStep] at hl ⊢
    rw [mixMetric_frame hR hd, mixMetric_frame hR hd]
    cases h1 : extendAm eig (mixMetric U s.2.1 s.2.2 f) with
    | error e => rw [h1] at hl; cases hl
    | ok l1 =>
      rw [h1] at hl
      simp only at hl
      cases h2 : extendAm eig (mixMetric U s.2.1 s.2.2 (1 - f)) with
      | error e => rw [h2] at hl; cases hl
      | ok l2 =>
        rw [h2] at hl
        cases hl
        obtain ⟨m1, e1, r1⟩ := extendAm_frame eig eig' h h' hR (hspd _) hsp1 h1
        obtain ⟨m2, e2, r2⟩ := extendAm_frame eig eig' h h' hR (hspd _) hsp2 h2
        rw [e1, e2]
        exact ⟨_, rfl, sameOrder_append r1 r2⟩

/-- C93, `twinparam`, `volumefrac` and `habitplanes` of any pair, compound or not: in the turned frame they return the
turned twins with the same fractions, in some order, and the turned habit planes, in some order, where the laminates
have three distinct principal stretches.  With `R = 1` this says that the eigenvectors chosen by `la.eig` do not
matter.  The rounding to ten decimals is left out, and in both frames the two stretches have to be variants of each other
under the cubic group about the coordinate axes (the test `_isvariant`), without near misses of the axis test. -/
theorem C93_pairs_partial (eig eig' : Mat3 → EigRes) (h : KeepsPromise eig) (h' : KeepsPromise eig') (t : Tol)
    {R U V : Mat3} (hR : IsOrtho R) (hU : IsSPD U) (hV : IsSPD V) (hrel : Related U V)
    (hd : 9 / 10 ^ 24 ≤ ∑ i, ∑ j, (U i j - V i j) ^ 2) (hc : RankOneConnected U V) (vs vs' : List M3)
    (hvs : Mart.getVariants t ⟨some U, cubicR⟩ = .ok vs) (hmem : V ∈ vs)
    (hvs' : Mart.getVariants t ⟨some (inFrame R U), cubicR⟩ = .ok vs') (hmem' : inFrame R V ∈ vs') (skip : Bool) :
    ∃ p p', TwinPair.new eig U V skip = .ok p ∧ TwinPair.new eig' (inFrame R U) (inFrame R V) skip = .ok p' ∧
      (Clean p → Clean p' →
      ∃ x y x' y' f g f' g', p.twinParam eig t id false = .ok (some (some x, some y)) ∧
        p'.twinParam eig' t id false = .ok (some (some x', some y')) ∧
        p.volumeFrac eig t id false = .ok (f, g) ∧ p'.volumeFrac eig' t id false = .ok (f', g') ∧
        SameUpToOrder (fun u v => SameSol R u.1 v.1 ∧ v.2 = u.2) [(x, f), (y, g)] [(x', f'), (y', g')] ∧
        ((∀ r, f = some r → SimpleSpectrum ((U + r • vecMulVec x.2.1 x.2.2)ᵀ * (U + r • vecMulVec x.2.1 x.2.2))) →
         (∀ r, g = some r → SimpleSpectrum ((U + r • vecMulVec y.2.1 y.2.2)ᵀ * (U + r • vecMulVec y.2.1 y.2.2))) →
          ∀ ty l, p.habitPlanes eig t id false ty = .ok l →
            ∃ l', p'.habitPlanes eig' t id false ty = .ok l' ∧ SameUpToOrder (Option.Rel (SameSol R)) l l')) := by
  have hU' : IsSPD (inFrame R U) := conj_spd hU (ortho_right hR)
  have hV' : IsSPD (inFrame R V) := conj_spd hV (ortho_right hR)
  have hrel' := frame_related hR hrel
  have hd1 := differ_of_not_close (not_close hd)
  have hd2 := differ_of_not_close (not_close_frame hR hd)
  have hc' := frame_connected hR hc
  refine ⟨_, _, new_ok eig hU hV skip, new_ok eig' hU' hV' skip, fun hcl hcl' => ?_⟩
  obtain ⟨Q₁, a₁, n₁, Q₂, a₂, n₂, hp, h₁, h₂, ho⟩ :=
    twinParam_two eig h t hU hV hrel hd1 hc hvs hmem (new_ok eig hU hV skip) hcl
  obtain ⟨Q₁', a₁', n₁', Q₂', a₂', n₂', hp', h₁', h₂', ho'⟩ :=
    twinParam_two eig' h' t hU' hV' hrel' hd2 hc' hvs' hmem' (new_ok eig' hU' hV' skip) hcl'
  set p : TwinPair := ⟨U, V, sortEig eig (relMetric U V)⟩ with hpd
  set p' : TwinPair := ⟨inFrame R U, inFrame R V, sortEig eig' (relMetric (inFrame R U) (inFrame R V))⟩ with hpd'
  have hv : p.volumeFrac eig t id false = .ok (solveF U a₁ n₁, solveF U a₂ n₂) := by
    simp only [TwinPair.volumeFrac, hp, fracOf]
    rfl
  have hv' : p'.volumeFrac eig' t id false = .ok (solveF (inFrame R U) a₁' n₁', solveF (inFrame R U) a₂' n₂') := by
    simp only [TwinPair.volumeFrac, hp', fracOf]
    rfl
  refine ⟨_, _, _, _, _, _, _, _, hp, hp', hv, hv', ?_⟩
  have hoR : (R *ᵥ n₁) ⬝ᵥ (R *ᵥ n₂) = 0 := by rw [ortho_dot hR]; exact ho
  have key : (SameSol R (Q₁, a₁, n₁) (Q₁', a₁', n₁') ∧ SameSol R (Q₂, a₂, n₂) (Q₂', a₂', n₂')) ∨
      (SameSol R (Q₁, a₁, n₁) (Q₂', a₂', n₂') ∧ SameSol R (Q₂, a₂, n₂) (Q₁', a₁', n₁')) := by
    rcases twins_all hU' hV' (differ_ne hd2) hrel' h₁' h₂' ho' (frame_solves hR h₁) with ⟨q1, s1⟩ | ⟨q1, s1⟩ <;>
      rcases twins_all hU' hV' (differ_ne hd2) hrel' h₁' h₂' ho' (frame_solves hR h₂) with ⟨q2, s2⟩ | ⟨q2, s2⟩
    · exfalso
      rcases same_normal_pm s1 with e1 | e1 <;> rcases same_normal_pm s2 with e2 | e2 <;>
        rw [e1, e2] at hoR <;> simp [h₁'.unit] at hoR
    · exact Or.inl ⟨sameSol_of q1 s1, sameSol_of q2 s2⟩
    · exact Or.inr ⟨sameSol_of q1 s1, sameSol_of q2 s2⟩
    · exfalso
      rcases same_normal_pm s1 with e1 | e1 <;> rcases same_normal_pm s2 with e2 | e2 <;>
        rw [e1, e2] at hoR <;> simp [h₂'.unit] at hoR
  rcases key with ⟨k1, k2⟩ | ⟨k1, k2⟩
  · have f1 := (solveF_frame hR U k1.2).2
    have f2 := (solveF_frame hR U k2.2).2
    simp only at f1 f2
    refine ⟨⟨_, .cons ⟨k1, f1⟩ (.cons ⟨k2, f2⟩ .nil), List.Perm.refl _⟩, fun sp1 sp2 ty l hl => ?_⟩
    rw [habitPlanes_eq hp] at hl
    rw [habitPlanes_eq hp']
    simp only [hpd, hpd', f1, f2] at hl ⊢
    cases ty <;> simp only at hl ⊢
    all_goals first | (cases hl; done) | skip
    all_goals
      split_ifs at hl ⊢ with hsome
      cases s1 : habitStep eig U (some (Q₁, a₁, n₁)) (solveF U a₁ n₁) with
      | error e => rw [s1] at hl; cases hl
      | ok l1 =>
        rw [s1] at hl
        simp only at hl
        cases s2 : habitStep eig U (some (Q₂, a₂, n₂)) (solveF U a₂ n₂) with
        | error e => rw [s2] at hl; cases hl
        | ok l2 =>
          rw [s2] at hl
          cases hl
          obtain ⟨m1, e1, q1⟩ := habitStep_frame eig eig' h h' hR hU hV hrel h₁ k1
            (fun g hg => by rw [mixMetric, outer_eq]; exact sp1 g hg) s1
          obtain ⟨m2, e2, q2⟩ := habitStep_frame eig eig' h h' hR hU hV hrel h₂ k2
            (fun g hg => by rw [mixMetric, outer_eq]; exact sp2 g hg) s2
          simp only [e1, e2]
          exact ⟨_, rfl, sameOrder_append q1 q2⟩
  · have f1 := (solveF_frame hR U k1.2).2
    have f2 := (solveF_frame hR U k2.2).2
    simp only at f1 f2
    refine ⟨⟨_, .cons ⟨k1, f1⟩ (.cons ⟨k2, f2⟩ .nil), List.Perm.swap _ _ _⟩, fun sp1 sp2 ty l hl => ?_⟩
    rw [habitPlanes_eq hp] at hl
    rw [habitPlanes_eq hp']
    simp only [hpd, hpd', f1, f2] at hl ⊢
    rw [Bool.or_comm] at hl
    cases ty <;> simp only at hl ⊢
    all_goals first | (cases hl; done) | skip
    all_goals
      split_ifs at hl ⊢ with hsome
      cases s1 : habitStep eig U (some (Q₁, a₁, n₁)) (solveF U a₁ n₁) with
      | error e => rw [s1] at hl; cases hl
      | ok l1 =>
        rw [s1] at hl
        simp only at hl
        cases s2 : habitStep eig U (some (Q₂, a₂, n₂)) (solveF U a₂ n₂) with
        | error e => rw [s2] at hl; cases hl
        | ok l2 =>
          rw [s2] at hl
          cases hl
          obtain ⟨m1, e1, q1⟩ := habitStep_frame eig eig' h h' hR hU hV hrel h₁ k1
            (fun g hg => by rw [mixMetric, outer_eq]; exact sp1 g hg) s1
          obtain ⟨m2, e2, q2⟩ := habitStep_frame eig eig' h h' hR hU hV hrel h₂ k2
            (fun g hg => by rw [mixMetric, outer_eq]; exact sp2 g hg) s2
          simp only [e1, e2]
          exact ⟨_, rfl, sameOrder_swap (sameOrder_append q1 q2)⟩

theorem tetraStretch_far_apart {α γ : ℝ} (h : ClearlyTetragonal α γ) {i j : Fin 3} (hij : i ≠ j) :
    9 / 10 ^ 24 ≤ ∑ k, ∑ l, (tetraStretch α γ i k l - tetraStretch α γ j k l) ^ 2 := by
  have hg := clearly_gap h
  have h1 : (tetraStretch α γ i i i - tetraStretch α γ j i i) ^ 2 = (γ - α) ^ 2 := by
    simp [tetraStretch, hij]
  have h2 : (1 / 10 ^ 7 : ℝ) ^ 2 ≤ (γ - α) ^ 2 := by
    rw [← sq_abs (γ - α)]
    exact pow_le_pow_left₀ (by norm_num) hg 2
  have h3 := Finset.single_le_sum (f := fun l => (tetraStretch α γ i i l - tetraStretch α γ j i l) ^ 2)
    (fun l _ => sq_nonneg _) (Finset.mem_univ i)
  have h4 := Finset.single_le_sum (f := fun k => ∑ l, (tetraStretch α γ i k l - tetraStretch α γ j k l) ^ 2)
    (fun k _ => Finset.sum_nonneg fun l _ => sq_nonneg _) (Finset.mem_univ i)
  rw [h1] at h3
  calc (9 / 10 ^ 24 : ℝ) ≤ (1 / 10 ^ 7) ^ 2 := by norm_num
    _ ≤ _ := h2.trans (h3.trans h4)

/-- The hypotheses are met by any two variants of a cubic to tetragonal transformation, seen from frames that a rotation
of the cube carries into each other. -/
example (eig eig' : Mat3 → EigRes) (h : KeepsPromise eig) (h' : KeepsPromise eig') {α γ : ℝ}
    (hc : ClearlyTetragonal α γ) {i j : Fin 3} (hij : i ≠ j) {R : Matrix (Fin 3) (Fin 3) ℤ} (hR : R ∈ cubicLaue) :
    ∃ p p', TwinPair.new eig (tetraStretch α γ i) (tetraStretch α γ j) false = .ok p ∧
      TwinPair.new eig' (inFrame (toR R) (tetraStretch α γ i)) (inFrame (toR R) (tetraStretch α γ j)) false = .ok p' ∧
      ∃ x y x' y' f g f' g', p.twinParam eig .code id false = .ok (some (some x, some y)) ∧
        p'.twinParam eig' .code id false = .ok (some (some x', some y')) ∧
        p.volumeFrac eig .code id false = .ok (f, g) ∧ p'.volumeFrac eig' .code id false = .ok (f', g') ∧
        SameUpToOrder (fun u v => SameSol (toR R) u.1 v.1 ∧ v.2 = u.2) [(x, f), (y, g)] [(x', f'), (y', g')] := by
  obtain ⟨hα, hγ⟩ := clearly_pos hc
  obtain ⟨i', hi'⟩ := cubic_unitAt R hR i
  obtain ⟨j', hj'⟩ := cubic_unitAt R hR j
  have ei : inFrame (toR R) (tetraStretch α γ i) = tetraStretch α γ i' := tetraStretch_turn hR hi'
  have ej : inFrame (toR R) (tetraStretch α γ j) = tetraStretch α γ j' := tetraStretch_turn hR hj'
  have hO : IsOrtho (toR R) := mul_eq_one_comm.1 (cubicR_ortho _ (List.mem_map.2 ⟨R, hR, rfl⟩))
  have hij' : i' ≠ j' := by
    rintro rfl
    apply hij
    apply tetraStretch_inj (clearly_ne hc)
    have e := ei.trans ej.symm
    have := congrArg (fun M => (toR R)ᵀ * M * toR R) e
    simp only [inFrame, Matrix.mul_assoc] at this
    rw [show (toR R)ᵀ * toR R = 1 from hO, Matrix.mul_one, Matrix.mul_one, ortho_cancel hO, ortho_cancel hO] at this
    exact this
  obtain ⟨vs, hvs, -, -, -, hmem⟩ := C101_variants (t := .code) (Or.inl rfl) hc i
  obtain ⟨vs', hvs', -, -, -, hmem'⟩ := C101_variants (t := .code) (Or.inl rfl) hc i'
  have hi := tetraStretch_spd hα hγ i
  have hj := tetraStretch_spd hα hγ j
  have hi2 := tetraStretch_spd hα hγ i'
  have hj2 := tetraStretch_spd hα hγ j'
  obtain ⟨p, p', hp, hp', hb⟩ := C93_pairs_partial eig eig' h h' .code hO hi hj (tetraStretch_related hij)
    (tetraStretch_far_apart hc hij) (tetraStretch_connected hα hγ hij) vs vs' hvs ((hmem _).2 ⟨j, rfl⟩)
    (by rw [ei]; exact hvs') (by rw [ej]; exact (hmem' _).2 ⟨j', rfl⟩) false
  have c1 := tetraStretch_clean eig h hc hij
  have c2 := tetraStretch_clean eig' h' hc hij'
  rw [new_ok eig hi hj] at hp
  rw [ei, ej, new_ok eig' hi2 hj2] at hp'
  cases hp
  cases hp'
  obtain ⟨x, y, x', y', f, g, f', g', k1, k2, k3, k4, k5, -⟩ := hb c1 c2
  exact ⟨_, _, new_ok eig hi hj false, by rw [ei, ej]; exact new_ok eig' hi2 hj2 false, x, y, x', y', f, g, f', g',
    k1, k2, k3, k4, k5⟩

end Verif.Props
