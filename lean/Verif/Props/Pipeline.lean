import Verif.Props.Description
import Verif.Props.LatCorLabel
import Verif.Props.VariantChoice

/-!
# C96: from the correspondence to the variants

The stretch that `lat_cor` reports can be handed to `Martensite`, and the variants do not depend on which of the
equivalent correspondences was reported.
-/

namespace Verif.Props

open Matrix Verif.Spec Verif.Model Verif.Lemmas

variable {N : ℕ}

/-- the positive definite root is unique -/
theorem posDef_root_unique {u v : Matrix (Fin N) (Fin N) ℝ} (hu : u.PosDef) (hv : v.PosDef) (h : u * u = v * v) :
    u = v := by
  set w := u - v with hw
  have e : u * w = -(w * v) := by
    rw [hw, Matrix.mul_sub, Matrix.sub_mul, h]
    abel
  have hut : uᵀ = u := hu.isHermitian
  have hvt : vᵀ = v := hv.isHermitian
  have t1 : (wᵀ * (u * w)).trace = ∑ j, w.col j ⬝ᵥ (u *ᵥ w.col j) := by
    simp only [Matrix.trace, Matrix.diag_apply, Matrix.mul_apply, dotProduct, Matrix.mulVec, Matrix.transpose_apply,
      Matrix.col_apply]
  have t2 : (wᵀ * (w * v)).trace = ∑ j, w j ⬝ᵥ (v *ᵥ w j) := by
    rw [Matrix.trace_mul_comm, Matrix.mul_assoc]
    simp only [Matrix.trace, Matrix.diag_apply, Matrix.mul_apply, dotProduct, Matrix.mulVec, Matrix.transpose_apply]
  have p1 : ∀ j, 0 ≤ w.col j ⬝ᵥ (u *ᵥ w.col j) := fun j => by
    have := hu.posSemidef.dotProduct_mulVec_nonneg (w.col j)
    simpa using this
  have p2 : 0 ≤ ∑ j, w j ⬝ᵥ (v *ᵥ w j) := Finset.sum_nonneg fun j _ => by
    have := hv.posSemidef.dotProduct_mulVec_nonneg (w j)
    simpa using this
  have h0 : ∑ j, w.col j ⬝ᵥ (u *ᵥ w.col j) = 0 := by
    refine le_antisymm ?_ (Finset.sum_nonneg fun j _ => p1 j)
    rw [← t1, e, Matrix.mul_neg, Matrix.trace_neg, t2]
    linarith
  have hcol : ∀ j, w.col j = 0 := by
    intro j
    have := (Finset.sum_eq_zero_iff_of_nonneg fun j _ => p1 j).mp h0 j (Finset.mem_univ j)
    by_contra hne
    have hp := hu.dotProduct_mulVec_pos hne
    simp only [star_trivial] at hp
    exact hp.ne' this
  have : w = 0 := by
    ext i j
    exact congrFun (hcol j) i
  exact sub_eq_zero.mp this

/-- sorted lists of roots of one polynomial are equal -/
theorem roots_unique {l l' : List ℝ} (hl : l.Pairwise (· ≤ ·)) (hl' : l'.Pairwise (· ≤ ·))
    (h : (l.map fun x => Polynomial.X - Polynomial.C x).prod = (l'.map fun x => Polynomial.X - Polynomial.C x).prod) :
    l = l' := by
  have key : ∀ l : List ℝ, ((l.map fun x => Polynomial.X - Polynomial.C x).prod).roots = (l : Multiset ℝ) := by
    intro l
    have := Polynomial.roots_multiset_prod_X_sub_C (l : Multiset ℝ)
    simpa using this
  have : (l : Multiset ℝ) = (l' : Multiset ℝ) := by rw [← key l, ← key l', h]
  exact (Multiset.coe_eq_coe.mp this).eq_of_pairwise' hl hl'

/-- the reports of two correspondences that are carried into each other by orthogonal maps of the lattices -/
theorem stretch_turned {EA EM CA CM EA' EM' CA' CM' : Matrix (Fin N) (Fin N) ℝ} {L L' : Matrix (Fin N) (Fin N) ℤ}
    {cor u cor' u' : Matrix (Fin N) (Fin N) ℝ} {lams lams' : List ℝ} (h : ConsistentReport EA EM CA CM L cor u lams)
    (h' : ConsistentReport EA' EM' CA' CM' L' cor' u' lams') (hA : EA.det ≠ 0) (hL : L.det ≠ 0)
    {Q P K : Matrix (Fin N) (Fin N) ℝ} (hQ : IsOrtho Q) (hP : IsOrtho P) (hK : K.det ≠ 0)
    (e1 : EA' * toR L' = Q * (EA * toR L) * K) (e2 : EM' = P * EM * K) : u' = Q * u * Qᵀ ∧ lams' = lams := by
  obtain ⟨F, hF, -, hu⟩ := h.gradient
  obtain ⟨F', hF', -, hu'⟩ := h'.gradient
  change F * (EA * toR L) = EM at hF
  change F' * (EA' * toR L') = EM' at hF'
  have hQ' : Q * Qᵀ = 1 := mul_eq_one_comm.mp hQ
  have hX : IsUnit (EA * toR L * K).det := by
    rw [Matrix.det_mul, Matrix.det_mul]
    refine isUnit_iff_ne_zero.mpr (mul_ne_zero (mul_ne_zero hA ?_) hK)
    rw [toR_det]
    exact_mod_cast hL
  have e : F' * Q = P * F := by
    have : F' * Q * (EA * toR L * K) = P * F * (EA * toR L * K) := by
      calc F' * Q * (EA * toR L * K) = F' * (EA' * toR L') := by rw [e1]; simp only [Matrix.mul_assoc]
        _ = P * EM * K := by rw [hF', e2]
        _ = P * F * (EA * toR L * K) := by rw [← hF]; simp only [Matrix.mul_assoc]
    exact Matrix.mul_left_injective_of_inv _ _ (Matrix.mul_nonsing_inv _ hX) this
  have hF'' : F' = P * F * Qᵀ := by rw [← e, Matrix.mul_assoc, hQ', Matrix.mul_one]
  have hC : F'ᵀ * F' = Q * (Fᵀ * F) * Qᵀ := by
    rw [hF'', Matrix.transpose_mul, Matrix.transpose_mul, Matrix.transpose_transpose]
    calc Q * (Fᵀ * Pᵀ) * (P * F * Qᵀ) = Q * (Fᵀ * (Pᵀ * P) * F) * Qᵀ := by simp only [Matrix.mul_assoc]
      _ = Q * (Fᵀ * F) * Qᵀ := by rw [show Pᵀ * P = 1 from hP, Matrix.mul_one]
  have hpos : (Q * u * Qᵀ).PosDef := by
    have hinj : Function.Injective (Qᵀ.mulVec) := by
      intro x y hxy
      have := congrArg (Q *ᵥ ·) hxy
      simpa [Matrix.mulVec_mulVec, hQ'] using this
    have := h.posDef.conjTranspose_mul_mul_same (B := Qᵀ) hinj
    simpa using this
  have hu1 : u' = Q * u * Qᵀ := by
    refine posDef_root_unique h'.posDef hpos ?_
    rw [hu', hC, ← hu]
    calc Q * (u * u) * Qᵀ = Q * u * (Qᵀ * Q) * (u * Qᵀ) := by
          rw [show Qᵀ * Q = 1 from hQ, Matrix.mul_one]; simp only [Matrix.mul_assoc]
      _ = Q * u * Qᵀ * (Q * u * Qᵀ) := by simp only [Matrix.mul_assoc]
  refine ⟨hu1, roots_unique h'.sorted h.sorted ?_⟩
  rw [← h'.eigenvalues, ← h.eigenvalues, hu1, charpoly_conj hQ]

/-! ### One pair of bases -/

/-- Equivalent correspondences have the same stretch, up to a symmetry of the first lattice, and the same principal
stretches. -/
theorem stretch_equivalent {EA EM CA CM CA' CM' : Matrix (Fin N) (Fin N) ℝ} {L L' : Matrix (Fin N) (Fin N) ℤ}
    {cor u cor' u' : Matrix (Fin N) (Fin N) ℝ} {lams lams' : List ℝ} (h : ConsistentReport EA EM CA CM L cor u lams)
    (h' : ConsistentReport EA EM CA' CM' L' cor' u' lams') (hA : EA.det ≠ 0) (hM : EM.det ≠ 0) (hL : L.det ≠ 0)
    {M₁ M₂ : Matrix (Fin N) (Fin N) ℤ} (e : L' = M₁ * L * M₂) {Q : Matrix (Fin N) (Fin N) ℝ} (hQ : IsOrtho Q)
    (h1 : Q * EA = EA * toR M₁) (h2 : IsLatticeSym EM M₂) : u' = Q * u * Qᵀ ∧ lams' = lams := by
  obtain ⟨P, hP, hP2⟩ := h2
  change P * EM = EM * toR M₂ at hP2
  have hPd : P.det ≠ 0 := by
    intro h0
    have := congrArg Matrix.det (show Pᵀ * P = 1 from hP)
    rw [Matrix.det_mul, h0, mul_zero, Matrix.det_one] at this
    exact zero_ne_one this
  have hK : (toR M₂).det ≠ 0 := by
    have := congrArg Matrix.det hP2
    rw [Matrix.det_mul, Matrix.det_mul] at this
    intro h0
    rw [h0, mul_zero] at this
    exact mul_ne_zero hPd hM this
  refine stretch_turned h h' hA hL hQ (P := Pᵀ) (K := toR M₂) ?_ hK ?_ ?_
  · rw [IsOrtho, Matrix.transpose_transpose]
    exact mul_eq_one_comm.mp hP
  · rw [e, toR_mul, toR_mul, ← Matrix.mul_assoc, ← Matrix.mul_assoc, ← h1]
    simp only [Matrix.mul_assoc]
  · rw [Matrix.mul_assoc, ← hP2, ← Matrix.mul_assoc, show Pᵀ * P = 1 from hP, Matrix.one_mul]

/-- The reports of a finished call are consistent. -/
theorem finished_reports {t : Tol} {dim : Option ℕ} {EA EM : Matrix (Fin (readkw dim 3)) (Fin (readkw dim 3)) ℝ}
    {n : ℕ} {rs : List (Report (readkw dim 3))} (h : Finished t dim EA EM n rs) :
    ∃ CA CM, ∀ r ∈ rs, ConsistentReport EA EM CA CM r.l r.cor r.u r.lams := by
  obtain ⟨py, nsol, volTh, sliceSz, dist, o, brava, bravm, pa, pm, CA, CM, trace, ho, cA, cM, rA, rM, hn, hn1, hs, hv,
    hv1, hcall, hc⟩ := h
  subst hn
  obtain ⟨GA, GM, gA, gM, mA, mM, sA, sM, h⟩ := C77_lat_cor_partial t py ⟨nsol, volTh, dim, sliceSz, dist⟩ o ho brava
    bravm pa pm EA CA EM CM cA cM rA rM hn1 hs hv hv1
  rcases h with h | ⟨tr, h⟩ | ⟨rs', tr, h, -, -, hd, -⟩
  · rw [hcall] at h; cases h
  · rw [hcall] at h; cases h
  · rw [hcall] at h
    injection h with h
    injection h with h h2
    injection h with h
    subst h h2
    exact ⟨CA, CM, fun r hr => (hd r hr).2.2.2⟩

/-- **C96**: the stretch of a consistent report is accepted by `setU`, and `getU` returns it. -/
theorem C96_accepted {EA EM CA CM : M3} {L : Matrix (Fin 3) (Fin 3) ℤ} {cor u : M3} {lams : List ℝ}
    (h : ConsistentReport EA EM CA CM L cor u lams) (m : Mart) (rest : List UArg) :
    ∃ m', m.setU (.arr (.mat 3 3 false u) :: rest) = .ok m' ∧ m'.getU = .ok u ∧ m'.laue = m.laue := by
  have e1 : u = uᵀ := (show uᵀ = u from h.posDef.isHermitian).symm
  have e2 : uOf (.arr (.mat 3 3 false u) :: rest) = .ok (some u) := by
    simp only [uOf, and_self, dite_true]
    rfl
  refine ⟨⟨some u, m.laue⟩, ?_, rfl, rfl⟩
  unfold Mart.setU
  rw [e2]
  simp only [not_not.mpr e1, if_false, not_not.mpr h.posDef.det_pos]

/-- **C96**: all the stretches that a finished three-dimensional call reports are accepted. -/
theorem C96_reported {t : Tol} {EA EM : M3} {n : ℕ} {rs : List (Report 3)} (h : Finished t none EA EM n rs) (m : Mart) :
    ∀ r ∈ rs, ∃ m', m.setU [.arr (.mat 3 3 false r.u)] = .ok m' ∧ m'.getU = .ok r.u ∧ m'.laue = m.laue := by
  obtain ⟨CA, CM, hr⟩ := finished_reports h
  exact fun r h => C96_accepted (hr r h) m []

/-- **C96**: equivalent correspondences (with the lattice groups that the program uses) have the same principal
stretches, and stretches that differ by a member of the Laue group of the first lattice. -/
theorem C96_equivalent (t : Tol) {EA EM CA CM CA' CM' : M3} {L L' : Matrix (Fin 3) (Fin 3) ℤ} {cor u cor' u' : M3}
    {lams lams' : List ℝ} (h : ConsistentReport EA EM CA CM L cor u lams)
    (h' : ConsistentReport EA EM CA' CM' L' cor' u' lams') (hA : EA.det ≠ 0) (hM : EM.det ≠ 0) (hL : L.det ≠ 0)
    (rA : Reliable t EA candidates3) (rM : Reliable t EM candidates3) {GA GM : List (Matrix (Fin 3) (Fin 3) ℤ)}
    (gA : Lat.latticeGroup t ⟨3, EA⟩ = .ok GA) (gM : Lat.latticeGroup t ⟨3, EM⟩ = .ok GM)
    (he : Equivalent GA GM L L') :
    lams' = lams ∧ ∃ g, Lat.laueGroup t ⟨3, EA⟩ = .ok g ∧ ∃ Q ∈ g, u' = Q * u * Qᵀ := by
  obtain ⟨M₁, hM₁, M₂, hM₂, e⟩ := he
  obtain ⟨g, p, hg, hp, hgp, hs, -⟩ := C16_point_group_3d t EA hA rA
  obtain ⟨G, gM', -, -, sM, -⟩ := latticeGroup_sym (.inr rfl) t hM rM
  rw [gM] at gM'
  cases gM'
  simp only [Lat.latticeGroup, hp] at gA
  cases gA
  obtain ⟨Q, hQ, rfl⟩ := List.mem_map.mp hM₁
  have hQo : IsOrtho Q := mul_eq_one_comm.mp (hs.sym Q hQ).1
  obtain ⟨e1, e2⟩ := stretch_equivalent h h' hA hM hL e hQo (conj_spec hA (hs.sym Q hQ)).symm (sM M₂ hM₂)
  refine ⟨e2, g, hg, ?_⟩
  rw [hgp, List.mem_append] at hQ
  rcases hQ with hQ | hQ
  · exact ⟨Q, hQ, e1⟩
  · obtain ⟨R, hR, rfl⟩ := List.mem_map.mp hQ
    refine ⟨R, hR, ?_⟩
    rw [e1, Matrix.transpose_neg, Matrix.neg_mul, Matrix.neg_mul, Matrix.mul_neg, neg_neg]

/-- **C96**, variants: with the Laue group of the first lattice, equivalent correspondences have the same variants, in
another order.  What is missing: that the variants of the one can be computed if those of the other can
(`C91_fails`). -/
theorem C96_variants_partial (t : Tol) {EA EM CA CM CA' CM' : M3} {L L' : Matrix (Fin 3) (Fin 3) ℤ}
    {cor u cor' u' : M3} {lams lams' : List ℝ} (h : ConsistentReport EA EM CA CM L cor u lams)
    (h' : ConsistentReport EA EM CA' CM' L' cor' u' lams') (hA : EA.det ≠ 0) (hM : EM.det ≠ 0) (hL : L.det ≠ 0)
    (rA : Reliable t EA candidates3) (rM : Reliable t EM candidates3) {GA GM : List (Matrix (Fin 3) (Fin 3) ℤ)}
    (gA : Lat.latticeGroup t ⟨3, EA⟩ = .ok GA) (gM : Lat.latticeGroup t ⟨3, EM⟩ = .ok GM)
    (he : Equivalent GA GM L L') {g : List M3} (hg : Lat.laueGroup t ⟨3, EA⟩ = .ok g)
    (hsep : ∀ P ∈ g, ∀ Q ∈ g, allclose t (P * u * Pᵀ) (Q * u * Qᵀ) ↔ P * u * Pᵀ = Q * u * Qᵀ)
    {vs vs' : List M3} (hv : Mart.getVariants t ⟨some u, g⟩ = .ok vs)
    (hv' : Mart.getVariants t ⟨some u', g⟩ = .ok vs') : vs.Perm vs' := by
  obtain ⟨-, g', hg', Q, hQ, rfl⟩ := C96_equivalent t h h' hA hM hL rA rM gA gM he
  rw [hg] at hg'
  cases hg'
  obtain ⟨g', hg', hs, -⟩ := C15_laue_group_3d t EA hA rA
  rw [hg] at hg'
  cases hg'
  exact C91_same_variants_partial t g u Q hQ ⟨hs.one, hs.mul, hs.inv⟩ hs.nodup (fun Q hQ => (hs.sym Q hQ).1) hsep hv hv'

/-! ### Two descriptions of the crystals -/

/-- Equivalent correspondences have the same distance. -/
theorem mismatch_equivalent {EA EM : Matrix (Fin N) (Fin N) ℝ} {GA GM : List (Matrix (Fin N) (Fin N) ℤ)}
    {rs : List (Report N)} (hb : BestList EA EM GA GM rs) {L X : Matrix (Fin N) (Fin N) ℤ}
    (h : Equivalent GA GM L X) : mismatch EA EM X = mismatch EA EM L := by
  obtain ⟨M₁, hM₁, M₂, hM₂, rfl⟩ := h
  obtain ⟨Q₁, oQ₁, hQ₁⟩ := hb.symA M₁ hM₁
  obtain ⟨Q₂, oQ₂, hQ₂⟩ := hb.symM M₂ hM₂
  obtain ⟨N₁, -, i₁⟩ := hb.groupA.inv_mem M₁ hM₁
  obtain ⟨N₂, -, i₂⟩ := hb.groupM.inv_mem M₂ hM₂
  change Q₁ * EA = EA * toR M₁ at hQ₁
  change Q₂ * EM = EM * toR M₂ at hQ₂
  have j₁ : toR M₁ * toR N₁ = 1 := by rw [← toR_mul, i₁, toR_one]
  exact mismatch_base (RA := Q₁) (RM := Q₂ᵀ) (UA := N₁) (VA := M₁) (UM := M₂) (VM := N₂) oQ₁ (isOrtho_transpose oQ₂)
    (by rw [hQ₁, Matrix.mul_assoc, j₁, Matrix.mul_one])
    (by rw [Matrix.mul_assoc, ← hQ₂, ← Matrix.mul_assoc, show Q₂ᵀ * Q₂ = 1 from oQ₂, Matrix.one_mul])
    (mul_eq_one_comm.mp i₁) i₂ L

/-- **C96**, crystals: of two finished calls for the same two crystals, however these are described, every solution of
the one that is not worse than all the solutions of the other occurs in the other, with the same distance, the same
principal stretches and the same stretch, up to a turn.  (No condition on the groups that the program finds.) -/
theorem C96_crystals {t t' : Tol} {dim : Option ℕ}
    {EA EM EA' EM' : Matrix (Fin (readkw dim 3)) (Fin (readkw dim 3)) ℝ} {n n' : ℕ}
    {rs rs' : List (Report (readkw dim 3))} (h : Finished t dim EA EM n rs) (h' : Finished t' dim EA' EM' n' rs')
    (cA : SameCrystal EA EA') (cM : SameCrystal EM EM') :
    ∀ r ∈ rs, (∃ s ∈ rs', r.d ≤ s.d) →
      ∃ s ∈ rs', s.d = r.d ∧ s.lams = r.lams ∧ ∃ R, IsOrtho R ∧ s.u = R * r.u * Rᵀ := by
  obtain ⟨dA, dM, -, -, -, -, GA, GM, -, -, hb⟩ := finished_best h
  obtain ⟨dA', dM', -, -, -, -, GA', GM', -, -, hb'⟩ := finished_best h'
  obtain ⟨CA, CM, hc⟩ := finished_reports h
  obtain ⟨CA', CM', hc'⟩ := finished_reports h'
  obtain ⟨RA, UA, VA, oA, vA, uA, eA⟩ := sameCrystal_base dA dA' cA
  obtain ⟨RM, UM, VM, oM, vM, uM, eM⟩ := sameCrystal_base dM dM' cM
  rintro r hr ⟨s', hs', hle⟩
  have hdist := mismatch_base oA oM eA eM uA uM r.l
  have hdet : (VA * r.l * UM).det ≠ 0 := by
    have d : ∀ {X Y : Matrix (Fin (readkw dim 3)) (Fin (readkw dim 3)) ℤ}, X * Y = 1 → X.det ≠ 0 := by
      intro X Y h h0
      have := congrArg Matrix.det h
      rw [Matrix.det_mul, h0, zero_mul, Matrix.det_one] at this
      exact zero_ne_one this
    rw [Matrix.det_mul, Matrix.det_mul]
    exact mul_ne_zero (mul_ne_zero (d vA) (hb.dist r hr).2) (d uM)
  have hex : ∃ s ∈ rs', Equivalent GA' GM' s.l (VA * r.l * UM) := by
    by_contra hno
    have := hb'.best _ hdet hno s' hs'
    rw [hdist, ← (hb.dist r hr).1] at this
    exact absurd this (not_lt.mpr hle)
  obtain ⟨s, hs, M₁, hM₁, M₂, hM₂, e⟩ := hex
  obtain ⟨Q₁, oQ₁, hQ₁⟩ := hb'.symA M₁ hM₁
  obtain ⟨Q₂, oQ₂, hQ₂⟩ := hb'.symM M₂ hM₂
  obtain ⟨N₁, -, i₁⟩ := hb'.groupA.inv_mem M₁ hM₁
  obtain ⟨N₂, -, i₂⟩ := hb'.groupM.inv_mem M₂ hM₂
  change Q₁ * EA' = EA' * toR M₁ at hQ₁
  change Q₂ * EM' = EM' * toR M₂ at hQ₂
  have j₁ : toR M₁ * toR N₁ = 1 := by rw [← toR_mul, i₁, toR_one]
  have j₂ : toR M₂ * toR N₂ = 1 := by rw [← toR_mul, i₂, toR_one]
  have jA : toR UA * toR VA = 1 := by rw [← toR_mul, uA, toR_one]
  have jM : toR UM * toR VM = 1 := by rw [← toR_mul, uM, toR_one]
  have hd : s.d = r.d := by
    rw [(hb'.dist s hs).1, (hb.dist r hr).1, ← mismatch_equivalent hb' ⟨M₁, hM₁, M₂, hM₂, e⟩, hdist]
  have hK : (toR UM * toR N₂).det ≠ 0 := by
    intro h0
    have h1 : toR UM * toR N₂ * (toR M₂ * toR VM) = 1 := by
      calc toR UM * toR N₂ * (toR M₂ * toR VM) = toR UM * (toR N₂ * toR M₂) * toR VM := by
            simp only [Matrix.mul_assoc]
        _ = 1 := by rw [mul_eq_one_comm.mp j₂, Matrix.mul_one, jM]
    have := congrArg Matrix.det h1
    rw [Matrix.det_mul, h0, zero_mul, Matrix.det_one] at this
    exact zero_ne_one this
  have oQ : IsOrtho (Q₁ᵀ * RA) := isOrtho_mul (isOrtho_transpose oQ₁) oA
  obtain ⟨h1, h2⟩ := stretch_turned (hc r hr) (hc' s hs) dA (hb.dist r hr).2 (Q := Q₁ᵀ * RA) (P := Q₂ * RM)
    (K := toR UM * toR N₂) oQ (isOrtho_mul oQ₂ oM) hK (by
      have e' : toR VA * toR r.l * toR UM = toR M₁ * toR s.l * toR M₂ := by
        rw [← toR_mul, ← toR_mul, e, toR_mul, toR_mul]
      calc EA' * toR s.l = Q₁ᵀ * Q₁ * EA' * toR s.l * (toR M₂ * toR N₂) := by
            rw [show Q₁ᵀ * Q₁ = 1 from oQ₁, Matrix.one_mul, j₂, Matrix.mul_one]
        _ = Q₁ᵀ * (Q₁ * EA') * toR s.l * (toR M₂ * toR N₂) := by simp only [Matrix.mul_assoc]
        _ = Q₁ᵀ * EA' * (toR M₁ * toR s.l * toR M₂) * toR N₂ := by rw [hQ₁]; simp only [Matrix.mul_assoc]
        _ = Q₁ᵀ * RA * (EA * (toR UA * toR VA) * toR r.l) * (toR UM * toR N₂) := by
            rw [← e', eA]; simp only [Matrix.mul_assoc]
        _ = _ := by rw [jA, Matrix.mul_one]) (by
      calc EM' = EM' * (toR M₂ * toR N₂) := by rw [j₂, Matrix.mul_one]
        _ = Q₂ * EM' * toR N₂ := by rw [hQ₂, Matrix.mul_assoc]
        _ = _ := by rw [eM]; simp only [Matrix.mul_assoc])
  exact ⟨s, hs, hd, h2, Q₁ᵀ * RA, oQ, h1⟩

/-! ### Where it fails -/

/-- from the simple cubic lattice to the lattice with the base `U`: the correspondence `1` -/
theorem report_one {U : M3} (hU : U.PosDef) : ∃ lams, ConsistentReport 1 U 1 1 (1 : Matrix (Fin 3) (Fin 3) ℤ) 1 U lams := by
  refine ⟨(Finset.univ.val.map hU.isHermitian.eigenvalues).sort (· ≤ ·),
    ⟨U, by simp, by simp, by rw [(show Uᵀ = U from hU.isHermitian)]⟩, hU, Multiset.pairwise_sort _ _, ?_⟩
  rw [hU.isHermitian.charpoly_eq, ← Multiset.prod_coe, ← Multiset.map_coe, Multiset.sort_eq, Multiset.map_map]
  rfl

/-- and the correspondence `q`, a rotation of the cube -/
theorem report_rot {U : M3} (hU : U.PosDef) {q : Matrix (Fin 3) (Fin 3) ℤ} (hq : IsOrtho (toR q)) {lams : List ℝ}
    (h : ConsistentReport 1 U 1 1 (1 : Matrix (Fin 3) (Fin 3) ℤ) 1 U lams) :
    ConsistentReport 1 U 1 1 q (toR q) (toR q * U * (toR q)ᵀ) lams := by
  have ho' : (toR q)ᵀ * toR q = 1 := hq
  have ho : toR q * (toR q)ᵀ = 1 := mul_eq_one_comm.mp ho'
  have ht : Uᵀ = U := hU.isHermitian
  refine ⟨⟨U * (toR q)ᵀ, ?_, ?_, ?_⟩, ?_, h.sorted, ?_⟩
  · change U * (toR q)ᵀ * (1 * toR q) = U
    rw [Matrix.one_mul, Matrix.mul_assoc, ho', Matrix.mul_one]
  · rw [Matrix.mul_one, Matrix.mul_one, Matrix.mul_assoc, ho', Matrix.mul_one]
  · rw [Matrix.transpose_mul, Matrix.transpose_transpose, ht]
    calc toR q * U * (toR q)ᵀ * (toR q * U * (toR q)ᵀ)
        = toR q * U * ((toR q)ᵀ * toR q) * (U * (toR q)ᵀ) := by simp only [Matrix.mul_assoc]
      _ = _ := by rw [ho', Matrix.mul_one]
  · have hinj : Function.Injective ((toR q)ᵀ.mulVec) := by
      intro x y hxy
      have := congrArg (toR q *ᵥ ·) hxy
      simpa [Matrix.mulVec_mulVec, ho] using this
    have := hU.conjTranspose_mul_mul_same (B := (toR q)ᵀ) hinj
    simpa using this
  · rw [charpoly_conj hq, h.eigenvalues]

theorem cubic_laue (t : Tol) (ht : t = .code ∨ t = .exact) : Lat.laueGroup t ⟨3, 1⟩ = .ok cubicR := by
  have htol : TolOK t := by rcases ht with rfl | rfl; exacts [tolOK_code, tolOK_exact]
  have hE1 : (1 : Matrix (Fin 3) (Fin 3) ℝ).det ≠ 0 := by simp
  have hall : cubicHits t 1 = cubicLaue := List.filter_eq_self.mpr fun M hM =>
    passes_of_sym htol hE1 _ (inPointGroup_unit (cubic_ortho M hM))
  rw [laueGroup_three, Lat.select, cubicHits_filter t hE1, hall]
  refine if_neg ?_
  rw [List.length_map]
  unfold cubicLaue
  decide

/-- In the simple cubic lattice a rotation of the table is equivalent to the identity. -/
theorem cubic_equivalent {U : M3} (hU : U.det ≠ 0) {q : Matrix (Fin 3) (Fin 3) ℤ} (hq : q ∈ cubicLaue) :
    ∃ GA GM, Lat.latticeGroup .exact ⟨3, (1 : M3)⟩ = .ok GA ∧ Lat.latticeGroup .exact ⟨3, U⟩ = .ok GM ∧
      Equivalent GA GM 1 q := by
  have h1 : (1 : M3).det ≠ 0 := by simp
  obtain ⟨g, p, hg, hp, hgp, hs, -⟩ := C16_point_group_3d .exact 1 h1 (.inl rfl)
  obtain ⟨GM, gM, mM, -⟩ := latticeGroup_sym (.inr rfl) .exact hU (.inl rfl)
  have hcub := cubic_laue .exact (.inr rfl)
  rw [hg] at hcub
  cases hcub
  have hc : toR q ∈ p := by
    rw [hgp]
    exact List.mem_append_left _ (List.mem_map_of_mem hq)
  refine ⟨p.map (Lat.conj ⟨3, 1⟩), GM, by simp only [Lat.latticeGroup, hp], gM, q, ?_, 1, mM.one_mem, by simp⟩
  refine List.mem_map.mpr ⟨toR q, hc, conj_unique h1 ?_⟩
  exact (conj_spec h1 (hs.sym _ hc)).trans (by rw [Matrix.mul_one, Matrix.one_mul])

/-- **C96** fails for the variants: from the simple cubic lattice to the lattice whose base has the rows
`(1, 2 - √3, 0)`, `(2 - √3, 1, 0)`, `(0, 0, 1)`, two equivalent correspondences have consistent reports with the same
principal stretches, but `getvariants()` raises `AttributeError` for the stretch of the first and returns a list for
that of the second. -/
theorem C96_variants_fails : ∃ (EM : M3) (L L' : Matrix (Fin 3) (Fin 3) ℤ) (cor u cor' u' : M3) (lams : List ℝ)
    (GA GM : List (Matrix (Fin 3) (Fin 3) ℤ)) (g : List M3), EM.det ≠ 0 ∧
    ConsistentReport 1 EM 1 1 L cor u lams ∧ ConsistentReport 1 EM 1 1 L' cor' u' lams ∧
    Lat.latticeGroup .exact ⟨3, (1 : M3)⟩ = .ok GA ∧ Lat.latticeGroup .exact ⟨3, EM⟩ = .ok GM ∧ Equivalent GA GM L L' ∧
    Lat.laueGroup .exact ⟨3, (1 : M3)⟩ = .ok g ∧
    Mart.getVariants .exact ⟨some u, g⟩ = .error .attributeError ∧ ∃ vs, Mart.getVariants .exact ⟨some u', g⟩ = .ok vs := by
  obtain ⟨U, Q, hU, hQ, -, -, h1, h2⟩ := C91_fails .exact (.inr rfl)
  obtain ⟨q, hq, rfl⟩ := List.mem_map.mp hQ
  have hP := posDef_of_spd hU
  have ho : IsOrtho (toR q) := mul_eq_one_comm.mp (cubicR_ortho _ hQ)
  obtain ⟨lams, hr⟩ := report_one hP
  obtain ⟨GA, GM, gA, gM, he⟩ := cubic_equivalent hP.det_pos.ne' hq
  exact ⟨U, 1, q, 1, U, toR q, _, lams, GA, GM, cubicR, hP.det_pos.ne', hr, report_rot hP ho hr, gA, gM, he,
    cubic_laue .exact (.inr rfl), h1, h2⟩

/-! ### The hypotheses are met -/

/-- the hypotheses of `C96_equivalent` and `C96_variants_partial` are met, and the two stretches are different: from the
simple cubic to the simple tetragonal lattice, the correspondences `1` and a permutation of the axes -/
example : ∃ GA GM vs vs' lams, ConsistentReport 1 tetra 1 1 (1 : Matrix (Fin 3) (Fin 3) ℤ) 1 tetra lams ∧
    ConsistentReport 1 tetra 1 1 cycZ (toR cycZ) (toR cycZ * tetra * (toR cycZ)ᵀ) lams ∧
    Lat.latticeGroup .exact ⟨3, (1 : M3)⟩ = .ok GA ∧ Lat.latticeGroup .exact ⟨3, tetra⟩ = .ok GM ∧
    Equivalent GA GM 1 cycZ ∧ Lat.laueGroup .exact ⟨3, (1 : M3)⟩ = .ok cubicR ∧
    Mart.getVariants .exact ⟨some tetra, cubicR⟩ = .ok vs ∧
    Mart.getVariants .exact ⟨some (toR cycZ * tetra * (toR cycZ)ᵀ), cubicR⟩ = .ok vs' ∧
    toR cycZ * tetra * (toR cycZ)ᵀ ≠ tetra := by
  have hP : tetra.PosDef := by
    rw [tetra_eq]
    exact Matrix.PosDef.diagonal fun i => by fin_cases i <;> simp
  have hq : cycZ ∈ cubicLaue := by decide +kernel
  obtain ⟨lams, hr⟩ := report_one hP
  obtain ⟨GA, GM, gA, gM, he⟩ := cubic_equivalent hP.det_pos.ne' hq
  obtain ⟨vs, vs', hv, hv', -⟩ := tetra_two_stretches
  refine ⟨GA, GM, vs, vs', lams, hr, report_rot hP (mul_eq_one_comm.mp (cubicR_ortho _ (List.mem_map_of_mem hq))) hr,
    gA, gM, he, cubic_laue .exact (.inr rfl), hv, hv', ?_⟩
  intro h
  have := congrFun (congrFun h 0) 0
  rw [tetra_eq] at this
  simp [toR, cycZ, Matrix.mul_apply, Fin.sum_univ_three] at this

/-- the hypotheses of `C96_crystals` are met -/
example (py : Py) : ∃ rs rs' : List (Report 2),
    Finished .exact (some 2) (Matrix.diagonal ![1, 2]) (Matrix.diagonal ![1, 2]) 1 rs ∧
    Finished .exact (some 2) (Matrix.diagonal ![2, 1]) (Matrix.diagonal ![2, 1]) 1 rs' ∧
    SameCrystal (Matrix.diagonal ![(1 : ℝ), 2]) (Matrix.diagonal ![2, 1]) ∧ ∃ r ∈ rs, ∃ s ∈ rs', r.d ≤ s.d := by
  obtain ⟨rs, rs', h, h', hs, g, g'⟩ := rectangle_finished py
  obtain ⟨l, l', hk⟩ := C95_lat_cor_partial (dim := some 2) h h' hs hs g g g' g'
  exact ⟨rs, rs', h, h', hs, rs[0], List.getElem_mem l, rs'[0], List.getElem_mem l', (hk 0 l l').le⟩

/-- the hypothesis of `C96_reported` is met: a body-centred tetragonal lattice -/
example (py : Py) : ∃ (E C : M3) (rs : List (Report 3)), Constructs py 7 (.list (.float [1.4, 2.1])) 3 E C ∧
    Finished .exact none E E 1 rs ∧ rs ≠ [] := by
  have h90 : cosDeg 90 = 0 := by
    rw [cosDeg, show (90 : ℝ) * Real.pi / 180 = Real.pi / 2 by ring, Real.cos_pi_div_two]
  have hf : Feasible3 ![90, 90, 90] := by
    refine ⟨fun i => by fin_cases i <;> simp <;> norm_num, ?_⟩
    simp [h90]
  obtain ⟨E, C, h, r⟩ := constructs_3d py 7 (by norm_num) (by norm_num) (.float [1.4, 2.1]) (.inr rfl)
    (by simp [Nums.vals]; norm_num) (by simp [Nums.vals, paramCount3]) (by simpa [angles3] using hf)
  obtain ⟨rs, hrs⟩ := finished_self .exact py none 7 _ E C h r
  refine ⟨E, C, rs, h, hrs, ?_⟩
  obtain ⟨-, -, -, -, -, hl, -⟩ := finished_best hrs
  rintro rfl
  exact absurd hl (Nat.not_succ_le_zero 0)

end Verif.Props
