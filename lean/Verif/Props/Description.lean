import Verif.Spec.Description
import Verif.Props.SelfRun
import Verif.Props.Orientation

/-!
# C95: the results do not depend on the description of the two crystals, nor on chance

Two calls of `lat_cor` for the same two crystals, described by different cells, with different random numbers,
slice sizes and numbers of solutions, return the same distances.
-/

namespace Verif.Props

open Matrix Verif.Spec Verif.Model Verif.Lemmas

variable {N : ℕ}

theorem sameCrystal_base {E E' : Matrix (Fin N) (Fin N) ℝ} (hE : E.det ≠ 0) (hE' : E'.det ≠ 0)
    (h : SameCrystal E E') :
    ∃ (R : Matrix (Fin N) (Fin N) ℝ) (U V : Matrix (Fin N) (Fin N) ℤ), IsOrtho R ∧ V * U = 1 ∧ U * V = 1 ∧
      E' = R * E * toR U := by
  obtain ⟨R, hR, h⟩ := h
  rw [image_latticePoints] at h
  have hRE : (R * E).det ≠ 0 := fun h => hE ((turned_det hR E).mp h)
  obtain ⟨U, hU⟩ := (isIntegral_iff _).mp ((latticePoints_subset_iff hRE).mp h.le)
  obtain ⟨V, hV⟩ := (isIntegral_iff _).mp ((latticePoints_subset_iff hE').mp h.ge)
  have e : V * U = 1 := by
    apply toR_injective
    rw [toR_mul, toR_one, ← hU, ← hV, Matrix.mul_assoc, ← Matrix.mul_assoc (R * E),
      Matrix.mul_nonsing_inv _ (isUnit_det_of_ne hRE), Matrix.one_mul, Matrix.nonsing_inv_mul _ (isUnit_det_of_ne hE')]
  refine ⟨R, U, V, hR, e, mul_eq_one_comm.mp e, ?_⟩
  rw [← hU, ← Matrix.mul_assoc, Matrix.mul_nonsing_inv _ (isUnit_det_of_ne hRE), Matrix.one_mul]

theorem sameCrystal_refl (E : Matrix (Fin N) (Fin N) ℝ) : SameCrystal E E :=
  ⟨1, by simp [IsOrtho], by simp⟩

/-! ### The lattice groups -/

theorem base_pointGroup {E E' : Matrix (Fin N) (Fin N) ℝ} (h : latticePoints E' = latticePoints E)
    (Q : Matrix (Fin N) (Fin N) ℝ) : InPointGroup E' Q ↔ InPointGroup E Q := by
  rw [InPointGroup, InPointGroup, h]

theorem select_base (t : Tol) {E E' : Matrix (Fin N) (Fin N) ℝ} (hE : E.det ≠ 0) (hE' : E'.det ≠ 0)
    (h : latticePoints E' = latticePoints E) (G H : List (NMat N)) (k : ℕ)
    (hr : Reliable t E (G.map NMat.val ++ H.map NMat.val)) (hr' : Reliable t E' (G.map NMat.val ++ H.map NMat.val)) :
    Lat.select t ⟨N, E'⟩ G H k = Lat.select t ⟨N, E⟩ G H k := by
  have key : ∀ T : List (NMat N), (T = G ∨ T = H) → T.filter (passes t E') = T.filter (passes t E) := by
    intro T hT
    have hsub : T.map NMat.val ⊆ G.map NMat.val ++ H.map NMat.val := by
      rcases hT with rfl | rfl <;> simp
    refine List.filter_congr fun Q hQ => ?_
    have h1 := passes_reliable hE (hr.mono hsub) Q hQ
    have h2 := passes_reliable hE' (hr'.mono hsub) Q hQ
    rw [Bool.eq_iff_iff, h1, h2, base_pointGroup h]
  simp only [Lat.select, filter_ok t hE, filter_ok t hE', key G (.inl rfl), key H (.inr rfl)]

/-- C95: two bases of one lattice have the same `Laue_group` and the same `point_group`, as lists. -/
theorem C95_point_groups_3d (t : Tol) {E E' : Matrix (Fin 3) (Fin 3) ℝ} (hE : E.det ≠ 0) (hE' : E'.det ≠ 0)
    (h : latticePoints E' = latticePoints E) (hr : Reliable t E candidates3) (hr' : Reliable t E' candidates3) :
    Lat.laueGroup t ⟨3, E'⟩ = Lat.laueGroup t ⟨3, E⟩ ∧ Lat.pointGroup t ⟨3, E'⟩ = Lat.pointGroup t ⟨3, E⟩ := by
  have h1 : Lat.laueGroup t ⟨3, E'⟩ = Lat.laueGroup t ⟨3, E⟩ := by
    rw [laueGroup_three, laueGroup_three]
    exact select_base t hE hE' h _ _ _ (by rwa [map_int_val]) (by rwa [map_int_val])
  refine ⟨h1, ?_⟩
  cases hL : Lat.laueGroup t ⟨3, E⟩ with
  | error e => simp only [Lat.pointGroup, if_true, hL, h1.trans hL]
  | ok g => simp only [Lat.pointGroup, if_true, hL, h1.trans hL]

/-- C95: the same in two dimensions. -/
theorem C95_point_groups_2d (t : Tol) {E E' : Matrix (Fin 2) (Fin 2) ℝ} (hE : E.det ≠ 0) (hE' : E'.det ≠ 0)
    (h : latticePoints E' = latticePoints E) (hr : Reliable t E candidates2) (hr' : Reliable t E' candidates2) :
    Lat.laueGroup t ⟨2, E'⟩ = Lat.laueGroup t ⟨2, E⟩ ∧ Lat.pointGroup t ⟨2, E'⟩ = Lat.pointGroup t ⟨2, E⟩ := by
  have hsub : ∀ Q ∈ (squareRot.map NMat.int).map NMat.val ++ hex2dRot.map NMat.val, Q ∈ candidates2 := by
    intro Q hQ
    rcases List.mem_append.mp hQ with hQ | hQ
    · rw [map_int_val] at hQ
      obtain ⟨R, hR, rfl⟩ := List.mem_map.mp hQ
      exact List.mem_append_left _ (List.mem_map.mpr ⟨R, squareRot_sub R hR, rfl⟩)
    · obtain ⟨R, hR, rfl⟩ := List.mem_map.mp hQ
      exact List.mem_append_right _ (List.mem_map.mpr ⟨R, hex2dRot_sub R hR, rfl⟩)
  constructor
  · rw [laueGroup_two, laueGroup_two]
    exact select_base t hE hE' h _ _ _ (hr.mono hsub) (hr'.mono hsub)
  · rw [pointGroup_two, pointGroup_two]
    exact select_base t hE hE' h _ _ _ (by rwa [map_int_val]) (by rwa [map_int_val])

theorem conj_base {E E' : Matrix (Fin N) (Fin N) ℝ} (hE : E.det ≠ 0) {U V : Matrix (Fin N) (Fin N) ℤ} (hV : V * U = 1)
    (e : E' = E * toR U) {Q : Matrix (Fin N) (Fin N) ℝ} (hQ : InPointGroup E Q) :
    Lat.conj ⟨N, E'⟩ Q = V * Lat.conj ⟨N, E⟩ Q * U := by
  have hU : IsUnit (toR U).det := by
    refine isUnit_iff_ne_zero.mpr fun h => ?_
    have := congrArg Matrix.det (congrArg toR hV)
    rw [toR_mul, toR_one, Matrix.det_mul, h, mul_zero, Matrix.det_one] at this
    exact zero_ne_one this
  have hE' : E'.det ≠ 0 := by
    rw [e, Matrix.det_mul]
    exact mul_ne_zero hE hU.ne_zero
  refine conj_unique hE' ?_
  have h := conj_spec hE hQ
  have hV' : toR U * toR V = 1 := by rw [← toR_mul, mul_eq_one_comm.mp hV, toR_one]
  have hQ' : InPointGroup E' Q := (inPointGroup_iff hE').mpr ⟨hQ.1, by
    obtain ⟨M, hM⟩ := (isIntegral_iff _).mp ((inPointGroup_iff hE).mp hQ).2
    refine (isIntegral_iff _).mpr ⟨V * M * U, ?_⟩
    have hVU : toR V * toR U = 1 := by rw [← toR_mul, hV, toR_one]
    rw [toR_mul, toR_mul, ← hM, e, Matrix.mul_inv_rev, Matrix.inv_eq_left_inv hVU]
    simp only [Matrix.mul_assoc]⟩
  refine (conj_spec hE' hQ').trans ?_
  rw [toR_mul, toR_mul, e]
  calc Q * (E * toR U) = Q * E * toR U := by rw [Matrix.mul_assoc]
    _ = E * toR (Lat.conj ⟨N, E⟩ Q) * toR U := by rw [← h]; rfl
    _ = E * (toR U * toR V) * toR (Lat.conj ⟨N, E⟩ Q) * toR U := by rw [hV', Matrix.mul_one]
    _ = E * toR U * (toR V * toR (Lat.conj ⟨N, E⟩ Q) * toR U) := by simp only [Matrix.mul_assoc]

/-- The matrices of `G'` are those of `G` written in the other base. -/
def GroupsMatch (U V : Matrix (Fin N) (Fin N) ℤ) (G G' : List (Matrix (Fin N) (Fin N) ℤ)) : Prop :=
  ∀ M, M ∈ G ↔ V * M * U ∈ G'

/-! ### The distances -/

theorem mismatch_base {RA RM EA EM EA' EM' : Matrix (Fin N) (Fin N) ℝ} (hA : IsOrtho RA) (hM : IsOrtho RM)
    {UA VA UM VM : Matrix (Fin N) (Fin N) ℤ} (eA : EA' = RA * EA * toR UA) (eM : EM' = RM * EM * toR UM)
    (hUA : UA * VA = 1) (hUM : UM * VM = 1) (L : Matrix (Fin N) (Fin N) ℤ) :
    mismatch EA' EM' (VA * L * UM) = mismatch EA EM L := by
  have hUM' : toR UM * (toR UM)⁻¹ = 1 := by
    refine Matrix.mul_nonsing_inv _ (isUnit_iff_ne_zero.mpr fun h => ?_)
    have := congrArg Matrix.det (congrArg toR hUM)
    rw [toR_mul, toR_one, Matrix.det_mul, h, zero_mul, Matrix.det_one] at this
    exact zero_ne_one this
  have hUA' : toR UA * toR VA = 1 := by rw [← toR_mul, hUA, toR_one]
  rw [← mismatch_eq, ← mismatch_eq, ← C94_cauchy_dist hA hM L EA EM]
  have : Finv (VA * L * UM) EA' EM'⁻¹ = Finv L (RA * EA) (RM * EM)⁻¹ := by
    have e3 : ∀ X : Matrix (Fin N) (Fin N) ℤ, intMat ℝ X = toR X := fun X => rfl
    rw [Finv, Finv, eM, Matrix.mul_inv_rev (RM * EM), e3, e3, toR_mul, toR_mul, eA]
    calc RA * EA * toR UA * (toR VA * toR L * toR UM) * ((toR UM)⁻¹ * (RM * EM)⁻¹)
        = RA * EA * (toR UA * toR VA) * toR L * (toR UM * (toR UM)⁻¹) * (RM * EM)⁻¹ := by
          simp only [Matrix.mul_assoc]
      _ = _ := by rw [hUA', hUM', Matrix.mul_one, Matrix.mul_one]
  simp only [cauchyDist, Cinv, this]

/-- C95: two descriptions of two crystals offer the same distances: every non-singular correspondence of the one has
a counterpart of the same volume ratio, up to sign, and the same distance in the other. -/
theorem C95_distances {EA EM EA' EM' : Matrix (Fin N) (Fin N) ℝ} (hA : EA.det ≠ 0) (hM : EM.det ≠ 0)
    (hA' : EA'.det ≠ 0) (hM' : EM'.det ≠ 0) (cA : SameCrystal EA EA') (cM : SameCrystal EM EM')
    (L : Matrix (Fin N) (Fin N) ℤ) :
    ∃ L' : Matrix (Fin N) (Fin N) ℤ, |L'.det| = |L.det| ∧ mismatch EA' EM' L' = mismatch EA EM L := by
  obtain ⟨RA, UA, VA, oA, vA, uA, eA⟩ := sameCrystal_base hA hA' cA
  obtain ⟨RM, UM, VM, oM, vM, uM, eM⟩ := sameCrystal_base hM hM' cM
  refine ⟨VA * L * UM, ?_, mismatch_base oA oM eA eM uA uM L⟩
  have d : ∀ {X Y : Matrix (Fin N) (Fin N) ℤ}, X * Y = 1 → |X.det| = 1 := by
    intro X Y h
    have := congrArg Matrix.det h
    rw [Matrix.det_mul, Matrix.det_one] at this
    exact Int.isUnit_iff_abs_eq.mp (IsUnit.of_mul_eq_one _ this)
  rw [Matrix.det_mul, Matrix.det_mul, abs_mul, abs_mul, d vA, d uM, one_mul, mul_one]

/-! ### The lists of solutions -/

/-- What a finished search guarantees (`C77_lat_cor_partial`). -/
structure BestList (EA EM : Matrix (Fin N) (Fin N) ℝ) (GA GM : List (Matrix (Fin N) (Fin N) ℤ)) (rs : List (Report N)) :
    Prop where
  groupA : IsMatGroup GA
  groupM : IsMatGroup GM
  symA : ∀ M ∈ GA, IsLatticeSym EA M
  symM : ∀ M ∈ GM, IsLatticeSym EM M
  sorted : rs.Pairwise (fun r s => r.d ≤ s.d ∧ ¬ Equivalent GA GM r.l s.l)
  dist : ∀ r ∈ rs, r.d = mismatch EA EM r.l ∧ r.l.det ≠ 0
  best : ∀ L : Matrix (Fin N) (Fin N) ℤ, L.det ≠ 0 → (¬ ∃ r ∈ rs, Equivalent GA GM r.l L) →
    ∀ r ∈ rs, r.d < mismatch EA EM L

theorem bestList_le {EA EM EA' EM' : Matrix (Fin N) (Fin N) ℝ} {GA GM GA' GM' : List (Matrix (Fin N) (Fin N) ℤ)}
    {rs rs' : List (Report N)} (hM' : EM'.det ≠ 0) (h : BestList EA EM GA GM rs) (h' : BestList EA' EM' GA' GM' rs')
    (f : Matrix (Fin N) (Fin N) ℤ → Matrix (Fin N) (Fin N) ℤ)
    (hd : ∀ L, mismatch EA' EM' (f L) = mismatch EA EM L) (h0 : ∀ L, L.det ≠ 0 → (f L).det ≠ 0)
    (hf : ∀ L X, Equivalent GA' GM' (f L) (f X) → Equivalent GA GM L X)
    (k : ℕ) (hk : k < rs.length) (hk' : k < rs'.length) : rs'[k].d ≤ rs[k].d := by
  by_contra hlt
  push Not at hlt
  have hcl : ∀ L X, Equivalent GA' GM' L X → mismatch EA' EM' X = mismatch EA' EM' L := by
    intro L X hE
    rw [← mismatch_eq, ← mismatch_eq]
    exact C28_class_function EA' EM' EM'⁻¹ (Matrix.mul_nonsing_inv _ (isUnit_det_of_ne hM')) GA' GM' h'.symA h'.symM
      L X hE
  have mono : ∀ i (hi : i < rs.length), i ≤ k → rs[i].d ≤ rs[k].d := by
    intro i hi hik
    rcases hik.eq_or_lt with rfl | hik
    · exact le_rfl
    · exact (List.pairwise_iff_getElem.mp h.sorted i k hi hk hik).1
  have cover : ∀ i : Fin (k + 1), ∃ j : Fin k, ∃ hj : j.1 < rs'.length,
      Equivalent GA' GM' (rs'[j.1]).l (f (rs[i.1]'(by omega)).l) := by
    intro i
    have hi : i.1 < rs.length := by omega
    have hdi := h.dist _ (List.getElem_mem hi)
    have hlt' : mismatch EA' EM' (f rs[i.1].l) < rs'[k].d := by
      rw [hd, ← hdi.1]
      exact (mono i.1 hi (by omega)).trans_lt hlt
    obtain ⟨r, hr, he⟩ : ∃ r ∈ rs', Equivalent GA' GM' r.l (f rs[i.1].l) := by
      by_contra hno
      exact absurd (h'.best _ (h0 _ hdi.2) hno _ (List.getElem_mem hk')) (not_lt.mpr hlt'.le)
    obtain ⟨j, hj, rfl⟩ := List.getElem_of_mem hr
    have hdj : rs'[j].d < rs'[k].d := by
      rw [(h'.dist _ (List.getElem_mem hj)).1, ← hcl _ _ he]
      exact hlt'
    have hjk : j < k := by
      by_contra hjk
      push Not at hjk
      rcases hjk.eq_or_lt with rfl | hjk
      · exact lt_irrefl _ hdj
      · exact absurd (List.pairwise_iff_getElem.mp h'.sorted k j hk' hj hjk).1 (not_le.mpr hdj)
    exact ⟨⟨j, hjk⟩, hj, he⟩
  choose j hj he using cover
  obtain ⟨a, b, hab, e⟩ := Fintype.exists_ne_map_eq_of_card_lt j (by simp)
  have key : ∀ a b : Fin (k + 1), a < b → j a = j b → False := by
    intro a b hab e
    have ha := he a
    have hb := he b
    have e' : (rs'[(j a).1]'(hj a)).l = (rs'[(j b).1]'(hj b)).l := by
      congr 2
      rw [e]
    rw [e'] at ha
    have := hf _ _ (equivalent_trans h'.groupA h'.groupM (equivalent_symm h'.groupA h'.groupM ha) hb)
    exact (List.pairwise_iff_getElem.mp h.sorted a.1 b.1 (by omega) (by omega) hab).2 this
  rcases lt_or_gt_of_ne hab with hab | hab
  · exact key a b hab e
  · exact key b a hab e.symm

/-! ### Calls of `lat_cor` -/

/-- A call of `lat_cor` for two lattices with the primitive bases `EA` and `EM` has returned the list `rs`: some
lattice types and parameters that give these bases, some options, some random numbers, under one of the two
interpreters; `n` solutions were asked for, and the checkpoints of the run were harmless (`C38`). -/
def Finished (t : Tol) (dim : Option ℕ) (EA EM : Matrix (Fin (readkw dim 3)) (Fin (readkw dim 3)) ℝ) (n : ℕ)
    (rs : List (Report (readkw dim 3))) : Prop :=
  ∃ (py : Py) (nsol : Option ℕ) (volTh : Option ℝ) (sliceSz : Option ℕ) (dist : Option String)
    (o : Outside (readkw dim 3)) (brava bravm : ℤ) (pa pm : PArg)
    (CA CM : Matrix (Fin (readkw dim 3)) (Fin (readkw dim 3)) ℝ) (trace : List (List ℤ)),
    Sound o ∧ Constructs py brava pa (readkw dim 3) EA CA ∧ Constructs py bravm pm (readkw dim 3) EM CM ∧
    Reliable t EA (candidates _) ∧ Reliable t EM (candidates _) ∧
    readkw nsol 1 = n ∧ 1 ≤ n ∧ 1 ≤ readkw sliceSz 100 ∧ 0 < readkw volTh 0.1 ∧ readkw volTh 0.1 ≤ 1 ∧
    latCor t py ⟨nsol, volTh, dim, sliceSz, dist⟩ o brava pa bravm pm = .ok (some rs, trace) ∧
    ∀ c ∈ trace, PositiveThenZero c.tail

theorem finished_best {t : Tol} {dim : Option ℕ} {EA EM : Matrix (Fin (readkw dim 3)) (Fin (readkw dim 3)) ℝ} {n : ℕ}
    {rs : List (Report (readkw dim 3))} (h : Finished t dim EA EM n rs) :
    EA.det ≠ 0 ∧ EM.det ≠ 0 ∧ Reliable t EA (candidates _) ∧ Reliable t EM (candidates _) ∧
    (readkw dim 3 = 2 ∨ readkw dim 3 = 3) ∧ n ≤ rs.length ∧
    ∃ GA GM, Lat.latticeGroup t ⟨_, EA⟩ = .ok GA ∧ Lat.latticeGroup t ⟨_, EM⟩ = .ok GM ∧ BestList EA EM GA GM rs := by
  obtain ⟨py, nsol, volTh, sliceSz, dist, o, brava, bravm, pa, pm, CA, CM, trace, ho, cA, cM, rA, rM, hn, hn1, hs, hv,
    hv1, hcall, hc⟩ := h
  obtain ⟨hN, dA, dCA⟩ := constructs_det cA
  obtain ⟨-, dM, -⟩ := constructs_det cM
  subst hn
  obtain ⟨GA, GM, gA, gM, mA, mM, sA, sM, h⟩ := C77_lat_cor_partial t py ⟨nsol, volTh, dim, sliceSz, dist⟩ o ho brava
    bravm pa pm EA CA EM CM cA cM rA rM hn1 hs hv hv1
  rcases h with h | ⟨tr, h⟩ | ⟨rs', tr, h, hlen, hp, hd, hb⟩
  · rw [hcall] at h; cases h
  · rw [hcall] at h; cases h
  · rw [hcall] at h
    injection h with h
    injection h with h h2
    injection h with h
    subst h h2
    exact ⟨dA, dM, rA, rM, hN, hlen, GA, GM, gA, gM, mA, mM, sA, sM, hp, fun r hr => ⟨(hd r hr).1, (hd r hr).2.1⟩,
      hb hc⟩

theorem bestList_eq {EA EM EA' EM' : Matrix (Fin N) (Fin N) ℝ} {GA GM GA' GM' : List (Matrix (Fin N) (Fin N) ℤ)}
    {rs rs' : List (Report N)} (hM : EM.det ≠ 0) (hM' : EM'.det ≠ 0) (h : BestList EA EM GA GM rs)
    (h' : BestList EA' EM' GA' GM' rs') {RA RM : Matrix (Fin N) (Fin N) ℝ} (oA : IsOrtho RA) (oM : IsOrtho RM)
    {UA VA UM VM : Matrix (Fin N) (Fin N) ℤ} (eA : EA' = RA * EA * toR UA) (eM : EM' = RM * EM * toR UM)
    (hUA : UA * VA = 1) (hUM : UM * VM = 1) (gA : GroupsMatch UA VA GA GA') (gM : GroupsMatch UM VM GM GM')
    (k : ℕ) (hk : k < rs.length) (hk' : k < rs'.length) : rs[k].d = rs'[k].d := by
  have hVA := mul_eq_one_comm.mp hUA
  have hVM := mul_eq_one_comm.mp hUM
  have dne : ∀ {X Y : Matrix (Fin N) (Fin N) ℤ}, X * Y = 1 → X.det ≠ 0 := by
    intro X Y h h0
    have := congrArg Matrix.det h
    rw [Matrix.det_mul, Matrix.det_one, h0, zero_mul] at this
    exact zero_ne_one this
  have hback : ∀ X, UA * (VA * X * UM) * VM = X := by
    intro X
    rw [show UA * (VA * X * UM) * VM = (UA * VA) * X * (UM * VM) by simp only [Matrix.mul_assoc], hUA, hUM,
      Matrix.one_mul, Matrix.mul_one]
  have hforth : ∀ X, VA * (UA * X * VM) * UM = X := by
    intro X
    rw [show VA * (UA * X * VM) * UM = (VA * UA) * X * (VM * UM) by simp only [Matrix.mul_assoc], hVA, hVM,
      Matrix.one_mul, Matrix.mul_one]
  have hd := mismatch_base oA oM eA eM hUA hUM
  refine le_antisymm ?_ ?_
  · refine bestList_le hM h' h (fun L => UA * L * VM) (fun L => ?_) (fun L hL => ?_) (fun L X hE => ?_) k hk' hk
    · rw [← hd, hforth]
    · rw [Matrix.det_mul, Matrix.det_mul]
      exact mul_ne_zero (mul_ne_zero (dne hUA) hL) (dne hVM)
    · obtain ⟨M1, h1, M2, h2, e⟩ := hE
      refine ⟨VA * M1 * UA, (gA M1).mp h1, VM * M2 * UM, (gM M2).mp h2, ?_⟩
      rw [← hforth X, e]
      simp only [Matrix.mul_assoc]
  · refine bestList_le hM' h h' (fun L => VA * L * UM) hd (fun L hL => ?_) (fun L X hE => ?_) k hk hk'
    · rw [Matrix.det_mul, Matrix.det_mul]
      exact mul_ne_zero (mul_ne_zero (dne hVA) hL) (dne hUM)
    · obtain ⟨M1, h1, M2, h2, e⟩ := hE
      have c1 : VA * (UA * M1 * VA) * UA = M1 := by
        rw [show VA * (UA * M1 * VA) * UA = (VA * UA) * M1 * (VA * UA) by simp only [Matrix.mul_assoc], hVA,
          Matrix.one_mul, Matrix.mul_one]
      have c2 : VM * (UM * M2 * VM) * UM = M2 := by
        rw [show VM * (UM * M2 * VM) * UM = (VM * UM) * M2 * (VM * UM) by simp only [Matrix.mul_assoc], hVM,
          Matrix.one_mul, Matrix.mul_one]
      refine ⟨UA * M1 * VA, (gA _).mpr (by rwa [c1]), UM * M2 * VM, (gM _).mpr (by rwa [c2]), ?_⟩
      rw [← hback X, e]
      simp only [Matrix.mul_assoc]

/-- The group `lat_cor` uses for the lattice with base `E` holds all symmetries of the lattice. -/
def CompleteGroup (t : Tol) (E : Matrix (Fin N) (Fin N) ℝ) : Prop :=
  ∃ G, Lat.latticeGroup t ⟨N, E⟩ = .ok G ∧ ∀ M, M ∈ G ↔ IsLatticeSym E M

theorem latticeSym_base {E E' R : Matrix (Fin N) (Fin N) ℝ} (hR : IsOrtho R) {U V : Matrix (Fin N) (Fin N) ℤ}
    (hU : U * V = 1) (e : E' = R * E * toR U) (M : Matrix (Fin N) (Fin N) ℤ) (h : IsLatticeSym E M) :
    IsLatticeSym E' (V * M * U) := by
  obtain ⟨Q, hQ, h⟩ := h
  have hU' : toR U * toR V = 1 := by rw [← toR_mul, hU, toR_one]
  refine ⟨R * Q * Rᵀ, ?_, ?_⟩
  · rw [IsOrtho, Matrix.transpose_mul, Matrix.transpose_mul, Matrix.transpose_transpose]
    calc R * (Qᵀ * Rᵀ) * (R * Q * Rᵀ) = R * (Qᵀ * (Rᵀ * R) * Q) * Rᵀ := by simp only [Matrix.mul_assoc]
      _ = R * Rᵀ := by
        rw [show Rᵀ * R = 1 from hR, Matrix.mul_one, show Qᵀ * Q = 1 from hQ, Matrix.mul_one]
      _ = 1 := mul_eq_one_comm.mp hR
  · change R * Q * Rᵀ * E' = E' * toR (V * M * U)
    replace h : Q * E = E * toR M := h
    rw [toR_mul, toR_mul, e]
    calc R * Q * Rᵀ * (R * E * toR U) = R * Q * (Rᵀ * R) * E * toR U := by simp only [Matrix.mul_assoc]
      _ = R * (Q * E) * toR U := by rw [show Rᵀ * R = 1 from hR, Matrix.mul_one]; simp only [Matrix.mul_assoc]
      _ = R * E * (toR U * toR V) * toR M * toR U := by rw [h, hU', Matrix.mul_one]; simp only [Matrix.mul_assoc]
      _ = R * E * toR U * (toR V * toR M * toR U) := by simp only [Matrix.mul_assoc]

theorem groupsMatch_complete {t t' : Tol} {E E' R : Matrix (Fin N) (Fin N) ℝ} (hR : IsOrtho R)
    {U V : Matrix (Fin N) (Fin N) ℤ} (hU : U * V = 1) (e : E' = R * E * toR U) (h : CompleteGroup t E)
    (h' : CompleteGroup t' E') {G G' : List (Matrix (Fin N) (Fin N) ℤ)} (hG : Lat.latticeGroup t ⟨N, E⟩ = .ok G)
    (hG' : Lat.latticeGroup t' ⟨N, E'⟩ = .ok G') : GroupsMatch U V G G' := by
  obtain ⟨H, h1, h2⟩ := h
  obtain ⟨H', h1', h2'⟩ := h'
  rw [hG] at h1
  rw [hG'] at h1'
  cases h1
  cases h1'
  have hV := mul_eq_one_comm.mp hU
  intro M
  rw [h2, h2']
  refine ⟨latticeSym_base hR hU e M, fun h => ?_⟩
  have hR' : IsOrtho Rᵀ := by rw [IsOrtho, Matrix.transpose_transpose]; exact mul_eq_one_comm.mp hR
  have hU' : toR U * toR V = 1 := by rw [← toR_mul, hU, toR_one]
  have e' : E = Rᵀ * E' * toR V := by
    rw [e]
    calc E = (Rᵀ * R) * E * (toR U * toR V) := by
          rw [show Rᵀ * R = 1 from hR, hU', Matrix.one_mul, Matrix.mul_one]
      _ = _ := by simp only [Matrix.mul_assoc]
  have := latticeSym_base hR' hV e' _ h
  rwa [show U * (V * M * U) * V = (U * V) * M * (U * V) by simp only [Matrix.mul_assoc], hU, Matrix.one_mul,
    Matrix.mul_one] at this

/-- **C95**, `lat_cor`, proved part: two finished calls for the same two crystals return the same distances, position
by position, whatever cells were used to describe the crystals, and whatever the options, the interpreter, the
tolerance and the random numbers were; provided the program finds all symmetries in both descriptions.  The lists
have at least the lengths asked for.  Missing: lattices of which it does not find all symmetries, for which it is
false (`C95_fails`); runs with harmful checkpoints (`C38_missed_fails`). -/
theorem C95_lat_cor_partial {t t' : Tol} {dim : Option ℕ}
    {EA EM EA' EM' : Matrix (Fin (readkw dim 3)) (Fin (readkw dim 3)) ℝ} {n n' : ℕ}
    {rs rs' : List (Report (readkw dim 3))} (h : Finished t dim EA EM n rs) (h' : Finished t' dim EA' EM' n' rs')
    (cA : SameCrystal EA EA') (cM : SameCrystal EM EM') (gA : CompleteGroup t EA) (gM : CompleteGroup t EM)
    (gA' : CompleteGroup t' EA') (gM' : CompleteGroup t' EM') :
    n ≤ rs.length ∧ n' ≤ rs'.length ∧
      ∀ (k : ℕ) (hk : k < rs.length) (hk' : k < rs'.length), rs[k].d = rs'[k].d := by
  obtain ⟨dA, dM, -, -, -, hl, GA, GM, hA, hM, hb⟩ := finished_best h
  obtain ⟨dA', dM', -, -, -, hl', GA', GM', hA', hM', hb'⟩ := finished_best h'
  obtain ⟨RA, UA, VA, oA, -, uA, eA⟩ := sameCrystal_base dA dA' cA
  obtain ⟨RM, UM, VM, oM, -, uM, eM⟩ := sameCrystal_base dM dM' cM
  exact ⟨hl, hl', bestList_eq dM dM' hb hb' oA oM eA eM uA uM (groupsMatch_complete oA uA eA gA gA' hA hA')
    (groupsMatch_complete oM uM eM gM gM' hM hM')⟩

/-- **C95**, `lat_cor`, chance: two finished calls for the same bases return the same distances, position by
position, and the same correspondences up to symmetry: a solution of the one that is not worse than all solutions
of the other is equivalent to one of these.  The options, the interpreter and the random numbers may differ. -/
theorem C95_chance {t : Tol} {dim : Option ℕ} {EA EM : Matrix (Fin (readkw dim 3)) (Fin (readkw dim 3)) ℝ} {n n' : ℕ}
    {rs rs' : List (Report (readkw dim 3))} (h : Finished t dim EA EM n rs) (h' : Finished t dim EA EM n' rs') :
    (∀ (k : ℕ) (hk : k < rs.length) (hk' : k < rs'.length), rs[k].d = rs'[k].d) ∧
      ∃ GA GM, Lat.latticeGroup t ⟨_, EA⟩ = .ok GA ∧ Lat.latticeGroup t ⟨_, EM⟩ = .ok GM ∧
        ∀ r ∈ rs, (∃ s ∈ rs', r.d ≤ s.d) → ∃ s ∈ rs', Equivalent GA GM s.l r.l := by
  obtain ⟨dA, dM, -, -, -, hl, GA, GM, hA, hM, hb⟩ := finished_best h
  obtain ⟨-, -, -, -, -, hl', GA', GM', hA', hM', hb'⟩ := finished_best h'
  rw [hA] at hA'
  rw [hM] at hM'
  cases hA'
  cases hM'
  refine ⟨bestList_eq dM dM hb hb' (RA := 1) (RM := 1) (UA := 1) (VA := 1) (UM := 1) (VM := 1) (by simp [IsOrtho])
    (by simp [IsOrtho]) (by simp [toR_one]) (by simp [toR_one]) (by simp) (by simp) (fun M => by simp)
    (fun M => by simp), GA, GM, hA, hM, ?_⟩
  rintro r hr ⟨s, hs, hrs⟩
  by_contra hno
  have := hb'.best _ (hb.dist r hr).2 hno s hs
  rw [← (hb.dist r hr).1] at this
  exact absurd this (not_lt.mpr hrs)

/-! ### Examples, and where it fails -/

/-- The types whose symmetries are all found. -/
theorem completeGroup_types (t : Tol) (py : Py) (N : ℕ) (id : ℤ) (arg : PArg) (E C : Matrix (Fin N) (Fin N) ℝ)
    (h : Constructs py id arg N E C) (hr : Reliable t E (candidates N))
    (hid : N = 2 ∧ 1 ≤ id ∧ id ≤ 4 ∨ N = 3 ∧ (id = 1 ∨ id = 2 ∨ id = 3 ∨ id = 4 ∨ id = 6 ∨ id = 8)) :
    CompleteGroup t E := by
  rcases hid with ⟨rfl, hid⟩ | ⟨rfl, hid⟩
  · exact C77_symmetries_2d_partial t py id hid arg E C h hr
  · exact C77_symmetries_partial t py id hid arg E C h hr

/-- **C95**, perfect matches: if the program finds all symmetries of a lattice, a call for the lattice onto itself
returns at most one solution of distance 0.  (The checkpoints do not matter.) -/
theorem C95_one_perfect_match (t : Tol) (py : Py) (kw : LatCorKw) (o : Outside (readkw kw.dim 3)) (ho : Sound o)
    (id id' : ℤ) (p p' : PArg) (E C C' : Matrix (Fin (readkw kw.dim 3)) (Fin (readkw kw.dim 3)) ℝ)
    (hA : Constructs py id p (readkw kw.dim 3) E C) (hM : Constructs py id' p' (readkw kw.dim 3) E C')
    (hr : Reliable t E (candidates _)) (hn : 1 ≤ readkw kw.nsol 1) (hsz : 1 ≤ readkw kw.sliceSz 100)
    (hv : 0 < readkw kw.volTh 0.1) (hv1 : readkw kw.volTh 0.1 ≤ 1) (hg : CompleteGroup t E)
    (rs : List (Report (readkw kw.dim 3))) (trace : List (List ℤ))
    (h : latCor t py kw o id p id' p' = .ok (some rs, trace)) :
    ∀ (k : ℕ) (hk : k < rs.length), 1 ≤ k → 0 < rs[k].d := by
  intro k hk hk1
  obtain ⟨-, dE, -⟩ := constructs_det hA
  obtain ⟨GA, GM, gA, gM, mA, mM, sA, sM, hh⟩ := C77_lat_cor_partial t py kw o ho id id' p p' E C E C' hA hM hr hr hn hsz
    hv hv1
  rw [gA] at gM
  cases gM
  obtain ⟨G, hG, hfull⟩ := hg
  rw [gA] at hG
  cases hG
  rcases hh with hh | ⟨tr, hh⟩ | ⟨rs', tr, hh, -, hp, hd, -⟩
  · rw [h] at hh; cases hh
  · rw [h] at hh; cases hh
  rw [h] at hh
  injection hh with hh
  injection hh with hh h2
  injection hh with hh
  subst hh h2
  by_contra hneg
  push Not at hneg
  have hinv : E * E⁻¹ = 1 := Matrix.mul_nonsing_inv _ (isUnit_det_of_ne dE)
  have hsym : ∀ r ∈ rs, r.d ≤ 0 → r.l ∈ GA := by
    intro r hr h0
    have e := (hd r hr).1
    rw [← mismatch_eq] at e
    have hz : cauchyDist r.l E E⁻¹ = 0 := le_antisymm (e ▸ h0) (C28_nonneg E E⁻¹ r.l)
    obtain ⟨Q, hQ, hQ'⟩ := (C28_zero_iff E E E⁻¹ r.l hinv).mp hz
    rw [hfull]
    refine ⟨Qᵀ, ?_, ?_⟩
    · rw [IsOrtho, Matrix.transpose_transpose]
      exact mul_eq_one_comm.mp hQ
    · calc Qᵀ * E = Qᵀ * (Q * (E * r.l.map (Int.cast : ℤ → ℝ))) := by rw [hQ']
        _ = E * r.l.map (Int.cast : ℤ → ℝ) := by
          rw [← Matrix.mul_assoc, show Qᵀ * Q = 1 from hQ, Matrix.one_mul]
  have h0k := List.pairwise_iff_getElem.mp hp 0 k (by omega) hk (by omega)
  have m0 := hsym _ (List.getElem_mem (by omega)) (h0k.1.trans hneg)
  have mk := hsym _ (List.getElem_mem hk) hneg
  obtain ⟨B, hB, e⟩ := mA.inv_mem _ m0
  refine h0k.2 ⟨_, mA.mul_mem _ mk _ hB, 1, mA.one_mem, ?_⟩
  rw [Matrix.mul_one, Matrix.mul_assoc, mul_eq_one_comm.mp e, Matrix.mul_one]

theorem rhombus_sameCrystal : SameCrystal rhombus centred := by
  have h5 : Real.sqrt 5 * Real.sqrt 5 = 5 := Real.mul_self_sqrt (by norm_num)
  have hi : (Real.sqrt 5)⁻¹ * (Real.sqrt 5)⁻¹ = 1 / 5 := by rw [← mul_inv, h5]; norm_num
  refine ⟨(1 / Real.sqrt 5) • !![1, -2; 2, 1], ?_, ?_⟩
  · unfold IsOrtho
    ext i j
    fin_cases i <;> fin_cases j <;> simp [Matrix.mul_apply, Fin.sum_univ_two] <;> nlinarith
  · rw [image_latticePoints]
    congr 1
    ext i j
    fin_cases i <;> fin_cases j <;> simp [centred, rhombus, Matrix.mul_apply, Fin.sum_univ_two] <;> ring

theorem bestList_two_zeros {EA EM : Matrix (Fin N) (Fin N) ℝ} {GA GM : List (Matrix (Fin N) (Fin N) ℤ)}
    {rs : List (Report N)} (hb : BestList EA EM GA GM rs) {r s : Report N} (hr : r ∈ rs) (hs : s ∈ rs) (hne : r.l ≠ s.l)
    (hr0 : r.d = 0) (hs0 : s.d = 0) : ∃ h : 1 < rs.length, rs[0].d = 0 ∧ rs[1].d = 0 := by
  have hnn : ∀ (k : ℕ) (hk : k < rs.length), 0 ≤ rs[k].d := by
    intro k hk
    have e := (hb.dist _ (List.getElem_mem hk)).1
    rw [← mismatch_eq] at e
    exact e ▸ C28_nonneg EA EM⁻¹ rs[k].l
  have key : ∀ (j : ℕ) (hj : j < rs.length), 1 ≤ j → rs[j].d = 0 →
      ∃ h : 1 < rs.length, rs[0].d = 0 ∧ rs[1].d = 0 := by
    intro j hj hj1 h0
    have h01 : rs[1].d ≤ 0 := by
      rcases hj1.eq_or_lt with rfl | hlt
      · exact h0.le
      · exact h0 ▸ (List.pairwise_iff_getElem.mp hb.sorted 1 j (by omega) hj hlt).1
    have h00 : rs[0].d ≤ 0 := (List.pairwise_iff_getElem.mp hb.sorted 0 1 (by omega) (by omega) one_pos).1.trans h01
    exact ⟨by omega, le_antisymm h00 (hnn 0 (by omega)), le_antisymm h01 (hnn 1 (by omega))⟩
  obtain ⟨i, hi, rfl⟩ := List.getElem_of_mem hr
  obtain ⟨j, hj, rfl⟩ := List.getElem_of_mem hs
  rcases Nat.eq_zero_or_pos i with rfl | hi0
  · rcases Nat.eq_zero_or_pos j with rfl | hj0
    · exact absurd rfl hne
    · exact key j hj hj0 hs0
  · exact key i hi hi0 hr0

/-- **C95** fails in general: the rhombic lattice of `C77_same_solution_twice_fails` can be described as an oblique
and as a centred rectangular lattice.  For the first description there is a finished call, asking for one solution,
whose list starts with two distances 0; for the second description all distances but the first are positive, in all
lists that are returned. -/
theorem C95_fails (py : Py) :
    SameCrystal rhombus centred ∧
    (∃ rs : List (Report 2), Finished .exact (some 2) rhombus rhombus 1 rs ∧
      ∃ h : 1 < rs.length, rs[0].d = 0 ∧ rs[1].d = 0) ∧
    ∀ (n : ℕ) (rs : List (Report 2)), Finished .exact (some 2) centred centred n rs →
      ∀ h : 1 < rs.length, (0 : ℝ) < rs[1].d := by
  refine ⟨rhombus_sameCrystal, ?_, ?_⟩
  · obtain ⟨o, ho, -, rs, trace, h1, h2, r, hr, s, hs, M, hne, hr0, hs0, -⟩ := rhombus_run .exact (.inr rfl) py
    have hfin : Finished .exact (some 2) rhombus rhombus 1 rs :=
      ⟨py, none, none, none, none, o, 5, 5, rhombusParam, rhombusParam, 1, 1, trace, ho, rhombus_constructs py,
        rhombus_constructs py, .inl rfl, .inl rfl, rfl, le_rfl, by simp [readkw], by norm_num [readkw],
        by norm_num [readkw], h1, h2⟩
    obtain ⟨-, -, -, -, -, -, GA, GM, -, -, hb⟩ := finished_best hfin
    exact ⟨rs, hfin, bestList_two_zeros hb hr hs hne hr0 hs0⟩
  · rintro n rs ⟨py', nsol, volTh, sliceSz, dist, o, brava, bravm, pa, pm, CA, CM, trace, ho, cA, cM, rA, rM, hn, hn1,
      hs, hv, hv1, hcall, hc⟩ h
    obtain ⟨C, hC⟩ := centred_constructs py
    subst hn
    have := C95_one_perfect_match .exact py' ⟨nsol, volTh, some 2, sliceSz, dist⟩ o ho brava bravm pa pm centred CA CM cA cM rA
      hn1 hs hv hv1 (completeGroup_types .exact py 2 3 centredParam centred C hC (.inl rfl) (.inl (by norm_num))) rs trace
      hcall 1 h le_rfl
    exact this

/-- Finished calls exist for every lattice: ask for the best correspondence of the lattice with itself. -/
theorem finished_self (t : Tol) (py : Py) (dim : Option ℕ) (id : ℤ) (p : PArg)
    (E C : Matrix (Fin (readkw dim 3)) (Fin (readkw dim 3)) ℝ) (h : Constructs py id p (readkw dim 3) E C)
    (hr : Reliable t E (candidates _)) : ∃ rs, Finished t dim E E 1 rs := by
  obtain ⟨hN, hE, hC⟩ := constructs_det h
  obtain ⟨o, ho, -, rs, hrs⟩ := self_core hN t hE hr (CA := C) (CM := C) hC (v := 0.1) (by norm_num) (by norm_num)
    (sz := 100) (by norm_num)
  refine ⟨rs, py, none, none, none, none, o, id, id, p, p, C, C, _, ho, h, h, hr, hr, rfl, le_rfl, by simp [readkw],
    by norm_num [readkw], by norm_num [readkw], (latCor_eq (kw := ⟨none, none, dim, none, none⟩) h h).trans hrs, ?_⟩
  simp only [List.mem_singleton, forall_eq, PositiveThenZero, List.tail_replicate]
  exact List.pairwise_replicate.mpr (.inr fun h => absurd h (lt_irrefl 0))

theorem rectangle_constructs (py : Py) (a b : ℝ) (ha : 0 < a) (hb : 0 < b) :
    ∃ C, Constructs py 2 (.list (.float [a, b])) 2 (Matrix.diagonal ![a, b]) C := by
  have hbase : primBase2 2 (Nums.get (.float [a, b])) = Matrix.diagonal ![a, b] := by
    ext i j
    fin_cases i <;> fin_cases j <;> simp [primBase2, Nums.get, Nums.vals]
  have hdet : (Matrix.diagonal ![a, b]).det ≠ 0 := by
    simp [Matrix.det_diagonal, ha.ne', hb.ne']
  refine ⟨(centring2 2)⁻¹, ⟨2, some (Matrix.diagonal ![a, b]), 2, .float [a, b], (centring2 2)⁻¹⟩, rfl, ?_, rfl, rfl⟩
  have hch : checkParam (.list (.float [a, b])) = .ok (.float [a, b]) := by
    simp only [checkParam]
    rw [if_neg]
    simp only [Nums.vals, List.mem_cons, List.not_mem_nil, or_false, not_exists, not_and, not_le]
    rintro v (rfl | rfl) <;> assumption
  have hi : initBase (some (Matrix.diagonal ![a, b])) = .ok () := by
    simp only [initBase]
    rw [lat_new_sq false hdet]
  simp only [BLat.new, hch]
  norm_num [Nums.vals, paramLen2, hbase, hi]

/-- the hypotheses of `C95_lat_cor_partial` are met: the rectangular lattice with the sides 1 and 2, described with
the sides in either order -/
theorem rectangle_finished (py : Py) : ∃ rs rs' : List (Report 2),
    Finished .exact (some 2) (Matrix.diagonal ![1, 2]) (Matrix.diagonal ![1, 2]) 1 rs ∧
    Finished .exact (some 2) (Matrix.diagonal ![2, 1]) (Matrix.diagonal ![2, 1]) 1 rs' ∧
    SameCrystal (Matrix.diagonal ![(1 : ℝ), 2]) (Matrix.diagonal ![2, 1]) ∧
    CompleteGroup .exact (Matrix.diagonal ![(1 : ℝ), 2]) ∧ CompleteGroup .exact (Matrix.diagonal ![(2 : ℝ), 1]) := by
  obtain ⟨C, hC⟩ := rectangle_constructs py 1 2 one_pos two_pos
  obtain ⟨C', hC'⟩ := rectangle_constructs py 2 1 two_pos one_pos
  obtain ⟨rs, h⟩ := finished_self .exact py (some 2) 2 _ _ C hC (.inl rfl)
  obtain ⟨rs', h'⟩ := finished_self .exact py (some 2) 2 _ _ C' hC' (.inl rfl)
  refine ⟨rs, rs', h, h', ⟨!![0, 1; 1, 0], ?_, ?_⟩,
    completeGroup_types .exact py 2 2 _ _ C hC (.inl rfl) (.inl (by norm_num)),
    completeGroup_types .exact py 2 2 _ _ C' hC' (.inl rfl) (.inl (by norm_num))⟩
  · unfold IsOrtho
    ext i j
    fin_cases i <;> fin_cases j <;> simp [Matrix.mul_apply, Fin.sum_univ_two]
  · ext x
    simp only [latticePoints, Set.mem_ofPred_eq, Set.mem_image]
    constructor
    · rintro ⟨c, rfl⟩
      refine ⟨_, ⟨![c 1, c 0], rfl⟩, ?_⟩
      ext i
      fin_cases i <;> simp [Matrix.mulVec, dotProduct, Fin.sum_univ_two, Matrix.diagonal_apply]
    · rintro ⟨_, ⟨c, rfl⟩, rfl⟩
      refine ⟨![c 1, c 0], ?_⟩
      ext i
      fin_cases i <;> simp [Matrix.mulVec, dotProduct, Fin.sum_univ_two, Matrix.diagonal_apply]

end Verif.Props
