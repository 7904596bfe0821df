import Verif.Lemmas.Report
import Verif.Model.Report
import Verif.Props.DirectRuns
import Verif.Lemmas.HnfEnum

/-!
# C39: the reported solutions are consistent
-/

namespace Verif.Props

open Matrix Verif.Model Verif.Spec Verif.Lemmas

variable {N : ℕ}

theorem intMat_det_ne {L : Matrix (Fin N) (Fin N) ℤ} (h : L.det ≠ 0) : (intMat ℝ L).det ≠ 0 := by
  have : (intMat ℝ L).det = (L.det : ℝ) := by
    unfold intMat
    exact (Int.cast_det L).symm
  rw [this]
  exact_mod_cast h

/-- **C39**, one solution: for every non-singular correspondence the entries `cor`, `u` and `lams` are
consistent.  `eigsys` may return the eigenvalues in any order and any basis of eigenvectors. -/
theorem C39_report {eigsys : Matrix (Fin N) (Fin N) ℝ → (Fin N → ℝ) × Matrix (Fin N) (Fin N) ℝ}
    (heig : ∀ A, Aᵀ = A → IsEigenSystem A (eigsys A).1 (eigsys A).2)
    {EA EM CA CM : Matrix (Fin N) (Fin N) ℝ} (hA : EA.det ≠ 0) (hM : EM.det ≠ 0) (hCA : CA.det ≠ 0)
    (s : Sol (Matrix (Fin N) (Fin N) ℤ) ℝ) (hL : s.l.det ≠ 0) :
    ∃ r, report eigsys EA EM CA CM s = .ok r ∧ r.l = s.l ∧ r.d = s.d ∧
      ConsistentReport EA EM CA CM s.l r.cor r.u r.lams := by
  have hEL : (EA * intMat ℝ s.l).det ≠ 0 := by
    rw [Matrix.det_mul]; exact mul_ne_zero hA (intMat_det_ne hL)
  have hELu : IsUnit (EA * intMat ℝ s.l).det := isUnit_iff_ne_zero.mpr hEL
  have hCAu : IsUnit CA.det := isUnit_iff_ne_zero.mpr hCA
  set F := EM * (EA * intMat ℝ s.l)⁻¹ with hF
  have hFdet : IsUnit F.det := by
    rw [hF, Matrix.det_mul]
    exact (isUnit_iff_ne_zero.mpr hM).mul (Matrix.isUnit_nonsing_inv_det _ hELu)
  have hpd : (Fᵀ * F).PosDef := by
    have := Matrix.PosDef.conjTranspose_mul_self F
      (Matrix.mulVec_injective_of_isUnit ((Matrix.isUnit_iff_isUnit_det F).mpr hFdet))
    simpa using this
  have hsym : (Fᵀ * F)ᵀ = Fᵀ * F := by rw [Matrix.transpose_mul, Matrix.transpose_transpose]
  have he := heig _ hsym
  obtain ⟨h1, h2, h3⟩ := sqrt_spec hpd he
  refine ⟨⟨s.l, s.d, CA⁻¹ * intMat ℝ s.l * CM, (eigsys (Fᵀ * F)).2 *
    Matrix.diagonal (fun i => Real.sqrt ((eigsys (Fᵀ * F)).1 i)) * (eigsys (Fᵀ * F)).2⁻¹,
    (List.ofFn fun i => Real.sqrt ((eigsys (Fᵀ * F)).1 i)).mergeSort⟩, ?_, rfl, rfl, ?_⟩
  · unfold report
    rw [if_neg hCA]
    simp only
    rw [if_neg hEL, if_neg he.1]
  · have hFE : F * (EA * intMat ℝ s.l) = EM := by
      rw [hF, Matrix.mul_assoc, Matrix.nonsing_inv_mul _ hELu, Matrix.mul_one]
    refine ⟨⟨F, hFE, ?_, h2⟩, h1, ?_, ?_⟩
    · calc F * (EA * CA) * (CA⁻¹ * intMat ℝ s.l * CM)
          = F * EA * (CA * CA⁻¹) * intMat ℝ s.l * CM := by simp only [Matrix.mul_assoc]
        _ = F * (EA * intMat ℝ s.l) * CM := by
            rw [Matrix.mul_nonsing_inv _ hCAu, Matrix.mul_one]; simp only [Matrix.mul_assoc]
        _ = EM * CM := by rw [hFE]
    · have := List.pairwise_mergeSort (le := fun a b : ℝ => decide (a ≤ b))
        (by intro a b c; simpa using le_trans) (by intro a b; simpa using le_total a b)
        (List.ofFn fun i => Real.sqrt ((eigsys (Fᵀ * F)).1 i))
      exact this.imp (by simp)
    · rw [((List.mergeSort_perm _ _).map _).prod_eq, List.map_ofFn, List.prod_ofFn]
      exact h3

theorem chooseRep_mem (L : Matrix (Fin N) (Fin N) ℤ) (l : List (Matrix (Fin N) (Fin N) ℤ)) :
    (chooseRep L l = L ∧ ∀ X ∈ l, ¬ 0 < X.det) ∨ (chooseRep L l ∈ l ∧ 0 < (chooseRep L l).det) := by
  induction l with
  | nil => left; simp [chooseRep]
  | cons X l ih =>
    unfold chooseRep
    by_cases h : 0 < X.det
    · rw [if_pos h]; right; exact ⟨List.mem_cons_self, h⟩
    · rw [if_neg h]
      rcases ih with ⟨a, b⟩ | ⟨a, b⟩
      · left
        exact ⟨a, by intro Y hY; rcases List.mem_cons.mp hY with rfl | hY; exacts [h, b Y hY]⟩
      · right; exact ⟨List.mem_cons_of_mem _ a, b⟩

theorem mapExcept_forall₂ {α β : Type} {f : α → Except Err β} {P : α → β → Prop} :
    ∀ l : List α, (∀ a ∈ l, ∃ b, f a = .ok b ∧ P a b) →
      ∃ bs, mapExcept f l = .ok bs ∧ List.Forall₂ P l bs := by
  intro l
  induction l with
  | nil => intro _; exact ⟨[], rfl, .nil⟩
  | cons a l ih =>
    intro h
    obtain ⟨b, hb, hP⟩ := h a List.mem_cons_self
    obtain ⟨bs, hbs, hF⟩ := ih fun x hx => h x (List.mem_cons_of_mem _ hx)
    exact ⟨b :: bs, by simp only [mapExcept, hb, hbs], .cons hP hF⟩

/-- **C39** for the direct search: every solution found is reported with a representative of its class
that has the stored distance; the representative has positive determinant whenever the class has such a
member, in particular in three dimensions; and the entries `cor`, `u`, `lams` are consistent.  `order`
is any iteration order of the sets `eqlatcor(l)`. -/
theorem C39_direct {eigsys : Matrix (Fin N) (Fin N) ℝ → (Fin N → ℝ) × Matrix (Fin N) (Fin N) ℝ}
    (heig : ∀ A, Aᵀ = A → IsEigenSystem A (eigsys A).1 (eigsys A).2)
    {EA EM EMinv CA CM : Matrix (Fin N) (Fin N) ℝ} {GA GM : List (Matrix (Fin N) (Fin N) ℤ)} {alpha : ℝ}
    (hS : SearchSetting EA EM EMinv GA GM alpha) (hCA : CA.det ≠ 0)
    (order : Matrix (Fin N) (Fin N) ℤ → List (Matrix (Fin N) (Fin N) ℤ))
    (horder : ∀ L X, X ∈ order L ↔ X ∈ eqlatcor GA GM L)
    (sols : List (Sol (Matrix (Fin N) (Fin N) ℤ) ℝ))
    (hsols : ∀ s ∈ sols, s.l.det ≠ 0 ∧ s.d = cauchyDist s.l EA EMinv) :
    ∃ rs, finishDirect eigsys order EA EM CA CM sols = .ok rs ∧
      List.Forall₂ (fun s r => Equivalent GA GM s.l r.l ∧ r.d = s.d ∧
        r.d = cauchyDist r.l EA EMinv ∧ r.l.det ≠ 0 ∧
        ((∃ X, Equivalent GA GM s.l X ∧ 0 < X.det) → 0 < r.l.det) ∧ (N = 3 → 0 < r.l.det) ∧
        ConsistentReport EA EM CA CM r.l r.cor r.u r.lams) sols rs := by
  have mem_eq : ∀ L X, X ∈ eqlatcor GA GM L ↔ Equivalent GA GM L X := by
    intro L X
    simp only [eqlatcor, List.mem_toFinset, List.mem_flatMap, List.mem_map, Equivalent]
    constructor
    · rintro ⟨a, ha, b, hb, rfl⟩; exact ⟨a, ha, b, hb, rfl⟩
    · rintro ⟨a, ha, b, hb, rfl⟩; exact ⟨a, ha, b, hb, rfl⟩
  have hM : EM.det ≠ 0 := by
    intro h0
    have := congrArg Matrix.det hS.invM
    rw [Matrix.det_mul, h0, zero_mul, Matrix.det_one] at this
    exact one_ne_zero this.symm
  refine mapExcept_forall₂ sols fun s hs => ?_
  obtain ⟨hdet, hd⟩ := hsols s hs
  have hself : Equivalent GA GM s.l s.l :=
    ⟨1, hS.groupA.one_mem, 1, hS.groupM.one_mem, by simp⟩
  have hrep : Equivalent GA GM s.l (chooseRep s.l (order s.l)) := by
    rcases chooseRep_mem s.l (order s.l) with ⟨a, -⟩ | ⟨a, -⟩
    · rw [a]; exact hself
    · exact (mem_eq _ _).mp ((horder _ _).mp a)
  have hdist : cauchyDist (chooseRep s.l (order s.l)) EA EMinv = s.d := by
    rw [setting_class hS _ _ hrep, hd]
  have hposOf : (∃ X, Equivalent GA GM s.l X ∧ 0 < X.det) → 0 < (chooseRep s.l (order s.l)).det := by
    rintro ⟨X, hX, hp⟩
    rcases chooseRep_mem s.l (order s.l) with ⟨-, b⟩ | ⟨-, b⟩
    · exact absurd hp (b X ((horder _ _).mpr ((mem_eq _ _).mpr hX)))
    · exact b
  have hne : (chooseRep s.l (order s.l)).det ≠ 0 := by
    rcases chooseRep_mem s.l (order s.l) with ⟨a, -⟩ | ⟨-, b⟩
    · rw [a]; exact hdet
    · exact b.ne'
  obtain ⟨r, hr, rl, rd, hc⟩ := C39_report heig (CM := CM) (isUnit_iff_ne_zero.mp hS.invA) hM hCA
    ⟨chooseRep s.l (order s.l), s.d⟩ hne
  simp only at rl rd hc
  refine ⟨r, hr, ?_⟩
  rw [rl, rd]
  refine ⟨hrep, rfl, hdist.symm, hne, hposOf, ?_, hc⟩
  intro h3
  apply hposOf
  rcases lt_or_gt_of_ne hdet with h | h
  · refine ⟨-s.l, ⟨-1, hS.negA, 1, hS.groupM.one_mem, by simp⟩, ?_⟩
    subst h3
    rw [Matrix.det_neg]
    simp only [Fintype.card_fin]
    linarith
  · exact ⟨s.l, hself, h⟩

/-- **C39** for complete runs of the direct search: whenever the search ends normally, all its solutions
are reported as described in `C39_direct`. -/
theorem C39_direct_run (hN1 : 1 ≤ N)
    {eigsys : Matrix (Fin N) (Fin N) ℝ → (Fin N → ℝ) × Matrix (Fin N) (Fin N) ℝ}
    (heig : ∀ A, Aᵀ = A → IsEigenSystem A (eigsys A).1 (eigsys A).2)
    {EA EM EMinv CA CM : Matrix (Fin N) (Fin N) ℝ} {GA GM : List (Matrix (Fin N) (Fin N) ℤ)} {alpha : ℝ}
    (hS : SearchSetting EA EM EMinv GA GM alpha) (hCA : CA.det ≠ 0)
    (order : Matrix (Fin N) (Fin N) ℤ → List (Matrix (Fin N) (Fin N) ℤ))
    (horder : ∀ L X, X ∈ order L ↔ X ∈ eqlatcor GA GM L)
    (nsol sliceSz : ℕ) (hn : 1 ≤ nsol) (hsz : 1 ≤ sliceSz)
    (samples : List (Matrix (Fin N) (Fin N) ℤ)) (fuel : ℕ)
    (sols : List (Sol (Matrix (Fin N) (Fin N) ℤ) ℝ)) (ext : Finset (Matrix (Fin N) (Fin N) ℤ))
    (dmax : ℝ) (trace : List (List ℤ))
    (hrun : directSearch GA GM nsol (fun L => cauchyDist L EA EMinv) sliceSz (rmaxFn alpha)
      (fun L => L.det = 1) samples fuel = .ok (some (sols, ext, dmax), trace)) :
    ∃ rs, finishDirect eigsys order EA EM CA CM sols = .ok rs ∧ nsol ≤ rs.length ∧
      List.Forall₂ (fun s r => Equivalent GA GM s.l r.l ∧ r.d = s.d ∧
        r.d = cauchyDist r.l EA EMinv ∧ r.l.det ≠ 0 ∧
        ((∃ X, Equivalent GA GM s.l X ∧ 0 < X.det) → 0 < r.l.det) ∧ (N = 3 → 0 < r.l.det) ∧
        ConsistentReport EA EM CA CM r.l r.cor r.u r.lams) sols rs := by
  rcases C38_examined GA GM (fun L => cauchyDist L EA EMinv) nsol sliceSz (rmaxFn alpha)
    (fun L => L.det = 1) hS.groupA hS.groupM (setting_class hS) hn hsz hN1
    (by intro L hL; rw [hL]; decide) (fun L => rmaxFn_nonneg hS.pos (C28_nonneg EA EMinv L))
    (fun L L' hd => rmaxFn_mono hS.pos (C28_nonneg EA EMinv L) hd) samples fuel with
    h | ⟨t, h⟩ | ⟨s', e', d', t', cs, h, hb, hlen⟩
  · rw [h] at hrun; cases hrun
  · rw [h] at hrun; cases hrun
  · rw [h] at hrun
    cases hrun
    have hself : ∀ L, Equivalent GA GM L L := fun L =>
      ⟨1, hS.groupA.one_mem, 1, hS.groupM.one_mem, by simp⟩
    obtain ⟨rs, h1, h2⟩ := C39_direct heig (CM := CM) hS hCA order horder sols (by
      intro s hs
      have hm : (s.l, s.d) ∈ sols.map (fun s => (s.l, s.d)) := List.mem_map.mpr ⟨s, hs, rfl⟩
      exact ⟨((hb.complete s.l (hb.from_candidates _ hm)).mp ⟨_, hm, hself _⟩).1,
        hb.distances _ hm⟩)
    exact ⟨rs, h1, by rw [← h2.length_eq]; exact hlen, h2⟩

/-- **C39** for the search over sublattices: a solution made of a Hermite normal form `h` and a matrix `l`
of determinant one, found with the Cauchy distance between `E_A h` and `E_M`, is reported with the
correspondence `h l`, its distance, a positive determinant and consistent entries. -/
theorem C39_hnf {eigsys : Matrix (Fin N) (Fin N) ℝ → (Fin N → ℝ) × Matrix (Fin N) (Fin N) ℝ}
    (heig : ∀ A, Aᵀ = A → IsEigenSystem A (eigsys A).1 (eigsys A).2)
    {EA EM CA CM : Matrix (Fin N) (Fin N) ℝ} (hA : EA.det ≠ 0) (hM : EM.det ≠ 0) (hCA : CA.det ≠ 0)
    (sols : List (Matrix (Fin N) (Fin N) ℤ × Matrix (Fin N) (Fin N) ℤ × ℝ))
    (hsols : ∀ s ∈ sols, IsHNF s.1 ∧ s.2.1.det = 1 ∧
      s.2.2 = cauchyDist s.2.1 (EA * intMat ℝ s.1) EM⁻¹) :
    ∃ rs, finishHnf eigsys EA EM CA CM sols = .ok rs ∧
      List.Forall₂ (fun s r => r.l = s.1 * s.2.1 ∧ 0 < r.l.det ∧ r.d = s.2.2 ∧
        r.d = cauchyDist r.l EA EM⁻¹ ∧
        ConsistentReport EA EM CA CM r.l r.cor r.u r.lams) sols rs := by
  refine mapExcept_forall₂ sols fun s hs => ?_
  obtain ⟨hh, hl, hd⟩ := hsols s hs
  have hpos : 0 < (s.1 * (s.2.1 * 1)).det := by
    rw [Matrix.mul_one, Matrix.det_mul, hl, mul_one]
    rw [det_isHNF hh]
    exact Finset.prod_pos fun i _ => hh.diag i
  obtain ⟨r, hr, rl, rd, hc⟩ := C39_report heig (CM := CM) hA hM hCA
    ⟨s.1 * (s.2.1 * 1), s.2.2⟩ hpos.ne'
  simp only [Matrix.mul_one] at rl rd hc hpos
  refine ⟨r, hr, rl, by rw [rl]; exact hpos, rd, ?_, by rw [rl]; exact hc⟩
  rw [rd, rl, hd]
  have e : Finv s.2.1 (EA * intMat ℝ s.1) EM⁻¹ = Finv (s.1 * s.2.1) EA EM⁻¹ := by
    unfold Finv intMat
    have := Matrix.map_mul (L := s.1) (M := s.2.1) (f := Int.castRingHom ℝ)
    simp only [Int.coe_castRingHom] at this
    rw [this]
    simp only [Matrix.mul_assoc]
  simp only [cauchyDist, Cinv, e]

/-! ### the hypotheses are met -/

/-- There is an eigenvalue routine as assumed (for every symmetric matrix). -/
theorem eigsys_exists (N : ℕ) :
    ∃ eigsys : Matrix (Fin N) (Fin N) ℝ → (Fin N → ℝ) × Matrix (Fin N) (Fin N) ℝ,
      ∀ A, Aᵀ = A → IsEigenSystem A (eigsys A).1 (eigsys A).2 := by
  have : ∀ A : Matrix (Fin N) (Fin N) ℝ, ∃ p : (Fin N → ℝ) × Matrix (Fin N) (Fin N) ℝ,
      Aᵀ = A → IsEigenSystem A p.1 p.2 := by
    intro A
    by_cases h : Aᵀ = A
    · have hA : A.IsHermitian := by rw [Matrix.IsHermitian, Matrix.conjTranspose_eq_transpose_of_trivial, h]
      refine ⟨(hA.eigenvalues, (hA.eigenvectorUnitary : Matrix (Fin N) (Fin N) ℝ)), fun _ => ⟨?_, ?_⟩⟩
      · intro h0
        have := congrArg Matrix.det (Matrix.mem_unitaryGroup_iff.mp hA.eigenvectorUnitary.2)
        rw [Matrix.det_mul, h0, zero_mul, Matrix.det_one] at this
        exact one_ne_zero this.symm
      · refine Matrix.ext_of_mulVec_single fun j => ?_
        rw [← Matrix.mulVec_mulVec, ← Matrix.mulVec_mulVec, hA.eigenvectorUnitary_mulVec,
          hA.mulVec_eigenvectorBasis, Matrix.diagonal_mulVec_single, mul_one]
        have e : (Pi.single j (hA.eigenvalues j) : Fin N → ℝ) = hA.eigenvalues j • Pi.single j 1 := by
          rw [← Pi.single_smul, smul_eq_mul, mul_one]
        rw [e, Matrix.mulVec_smul, hA.eigenvectorUnitary_mulVec]
    · exact ⟨(0, 0), fun h' => absurd h' h⟩
  choose e he using this
  exact ⟨e, he⟩

/-- A solution of determinant -1 in the square setting is replaced by one of determinant 1. -/
example (order : Matrix (Fin 2) (Fin 2) ℤ → List (Matrix (Fin 2) (Fin 2) ℤ))
    (horder : ∀ L X, X ∈ order L ↔ X ∈ eqlatcor square square L) :
    ∃ eigsys, ∃ r, finishDirect eigsys order 1 1 1 1 [⟨!![0, 1; 1, 0], 0⟩] = .ok [r] ∧ 0 < r.l.det := by
  obtain ⟨eigsys, he⟩ := eigsys_exists 2
  refine ⟨eigsys, ?_⟩
  obtain ⟨rs, h1, h2⟩ := C39_direct he (CA := 1) (CM := 1) square_setting.search (by simp) order horder
    [⟨!![0, 1; 1, 0], 0⟩] (by
      intro s hs
      rw [List.mem_singleton] at hs
      subst hs
      refine ⟨by simp, ?_⟩
      rw [squareDist_eq]
      simp [squareDist])
  cases h2 with
  | cons h hnil =>
    cases hnil
    refine ⟨_, h1, h.2.2.2.2.1 ⟨1, ⟨!![0, 1; 1, 0], ?_, 1, ?_, ?_⟩, by simp⟩⟩
    · unfold square; decide +kernel
    · unfold square; decide +kernel
    · decide +kernel

end Verif.Props
