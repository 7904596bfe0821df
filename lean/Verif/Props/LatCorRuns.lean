import Verif.Props.LatCor
import Verif.Props.Complete
import Mathlib.Topology.MetricSpace.ProperSpace
import Mathlib.Topology.Algebra.Monoid
import Mathlib.Topology.Order.Compact
import Mathlib.Analysis.Normed.Group.Constructions

/-!
# Property C77: the groups, complete runs, and a run that raises
-/

namespace Verif.Props

open Matrix Verif.Model Verif.Spec Verif.Lemmas

variable {N : ℕ}

/-! ### The assumptions on the outside can be met -/

/-- a quartic form has a minimum on the unit sphere -/
theorem quart_min_exists {ι : Type} [Fintype ι] [Nonempty ι] (T : ι → ι → ι → ι → ℝ) :
    ∃ m, IsLeast {v | ∃ x : ι → ℝ, ∑ p, x p ^ 2 = 1 ∧ v = quartForm T x} m := by
  classical
  have hc : Continuous fun x : ι → ℝ => quartForm T x := by
    unfold quartForm dot3
    fun_prop
  have hs : Continuous fun x : ι → ℝ => ∑ p, x p ^ 2 := by fun_prop
  have hcl : IsClosed {x : ι → ℝ | ∑ p, x p ^ 2 = 1} := isClosed_eq hs continuous_const
  have hb : {x : ι → ℝ | ∑ p, x p ^ 2 = 1} ⊆ Set.pi Set.univ fun _ => Set.Icc (-1 : ℝ) 1 := by
    intro x hx p _
    have : x p ^ 2 ≤ ∑ p, x p ^ 2 := Finset.single_le_sum (f := fun p => x p ^ 2) (fun i _ => sq_nonneg _)
      (Finset.mem_univ p)
    rw [show ∑ p, x p ^ 2 = 1 from hx] at this
    exact abs_le.mp (by nlinarith [abs_nonneg (x p), sq_abs (x p)])
  have hk : IsCompact {x : ι → ℝ | ∑ p, x p ^ 2 = 1} :=
    (isCompact_univ_pi fun _ => isCompact_Icc).of_isClosed_subset hcl hb
  obtain ⟨i⟩ := ‹Nonempty ι›
  have hne : {x : ι → ℝ | ∑ p, x p ^ 2 = 1}.Nonempty :=
    ⟨Pi.single i 1, by simp [Pi.single_apply, Finset.sum_ite_eq']⟩
  obtain ⟨x, hx, hmin⟩ := hk.exists_isMinOn hne hc.continuousOn
  exact ⟨quartForm T x, ⟨x, hx, rfl⟩, by
    rintro v ⟨y, hy, rfl⟩
    exact hmin hy⟩

/-- for any draws and number of rounds there are a minimisation, an eigenvalue routine and an iteration that
do what `C77_lat_cor_partial` assumes -/
theorem sound_exists (hN : 1 ≤ N) (shifts : List (Matrix (Fin N) (Fin N) ℤ)) (rounds : ℕ) :
    ∃ o : Outside N, Sound o ∧ o.shifts = shifts ∧ o.rounds = rounds := by
  haveI : Nonempty (Fin N × Fin N) := ⟨(⟨0, hN⟩, ⟨0, hN⟩)⟩
  obtain ⟨eigsys, he⟩ := eigsys_exists N
  choose q hq using fun T : Fin N × Fin N → Fin N × Fin N → Fin N × Fin N → Fin N × Fin N → ℝ =>
    quart_min_exists T
  exact ⟨⟨q, eigsys, Finset.toList, shifts, rounds⟩, ⟨hq, he, fun S X => Finset.mem_toList⟩, rfl, rfl⟩

/-! ### The groups are complete for the cell types of `C73_standard_partial` -/

theorem latticeGroup_full (t : Tol) {E : Matrix (Fin 3) (Fin 3) ℝ} (hE : E.det ≠ 0)
    (hr : Reliable t E candidates3)
    (hf : ∃ g, Lat.laueGroup t ⟨3, E⟩ = .ok g ∧ IsFullLaueGroup E g) :
    ∃ G, Lat.latticeGroup t ⟨3, E⟩ = .ok G ∧ ∀ M, M ∈ G ↔ IsLatticeSym E M := by
  obtain ⟨g, hg, -, hfull⟩ := hf
  obtain ⟨g', p, h1, h2, h3, h4, -⟩ := C16_point_group_3d t E hE hr
  rw [hg] at h1
  cases h1
  refine ⟨p.map (Lat.conj ⟨3, E⟩), by simp only [Lat.latticeGroup, h2], fun M => ⟨?_, ?_⟩⟩
  · intro hM
    obtain ⟨Q, hQ, rfl⟩ := List.mem_map.mp hM
    exact ⟨Q, mul_eq_one_comm.mp (h4.sym Q hQ).1, (conj_spec hE (h4.sym Q hQ)).symm⟩
  · rintro ⟨Q, hQ, h⟩
    have hQ' : Q * Qᵀ = 1 := mul_eq_one_comm.mp hQ
    have hin : InPointGroup E Q := (inPointGroup_iff hE).mpr ⟨hQ', by
      rw [h, ← Matrix.mul_assoc, Matrix.nonsing_inv_mul _ (isUnit_det_of_ne hE), Matrix.one_mul]
      intro i j
      exact ⟨M i j, rfl⟩⟩
    refine List.mem_map.mpr ⟨Q, ?_, ?_⟩
    · have hd : Q.det * Q.det = 1 := by
        have := congrArg Matrix.det hQ'
        rwa [Matrix.det_mul, Matrix.det_transpose, Matrix.det_one] at this
      rw [h3, List.mem_append, List.mem_map]
      rcases mul_self_eq_one_iff.mp hd with hd | hd
      · exact .inl ((hfull Q).mpr ⟨hin, hd⟩)
      · refine .inr ⟨-Q, (hfull _).mpr ⟨inPointGroup_neg hin, ?_⟩, neg_neg Q⟩
        rw [Matrix.det_neg, hd]
        norm_num
    · exact conj_unique hE ((conj_spec hE hin).trans h)

/-- **C77**, the symmetries, proved part: for a three-dimensional lattice of one of the six types listed, the
group with respect to which `lat_cor` regards correspondences as equivalent holds all symmetries of the
lattice.  Missing: the other types, for which symmetries are missing (`C73_types_fail`,
`C77_same_solution_twice_fails`). -/
theorem C77_symmetries_partial (t : Tol) (py : Py) (id : ℤ)
    (hid : id = 1 ∨ id = 2 ∨ id = 3 ∨ id = 4 ∨ id = 6 ∨ id = 8) (arg : PArg) (E C : Matrix (Fin 3) (Fin 3) ℝ)
    (h : Constructs py id arg 3 E C) (hr : Reliable t E candidates3) :
    ∃ G, Lat.latticeGroup t ⟨3, E⟩ = .ok G ∧ ∀ M, M ∈ G ↔ IsLatticeSym E M := by
  have hE := (constructs_det h).2.1
  obtain ⟨L, hN, h1, h2, h3⟩ := h
  have hid' := (C21_accepted py id arg 3 L h1).2.2.1
  obtain ⟨N', E', id', p', C'⟩ := L
  dsimp only at hN h2
  subst hN
  rw [castSq_rfl] at h2
  subst h2
  change id' = id at hid'
  subst hid'
  exact latticeGroup_full t hE hr (C73_standard_partial t py id' hid arg E C' p' h1 hr)

/-! ### The square lattice -/

theorem square_constructs (py : Py) : Constructs py 1 (.num (.float [1])) 2 1 1 := by
  have hb : primBase2 1 (Nums.get (.float [1])) = 1 := by
    ext i j
    fin_cases i <;> fin_cases j <;> simp [primBase2, Nums.get, Nums.vals]
  refine ⟨⟨2, some 1, 1, .float [1], 1⟩, rfl, ?_, rfl, rfl⟩
  have hc : checkParam (.num (.float [1])) = .ok (.float [1]) := by simp [checkParam, Nums.vals]
  have hi : initBase (some (1 : Matrix (Fin 2) (Fin 2) ℝ)) = .ok () := by
    simp only [initBase]
    rw [lat_new_sq false (by simp)]
  simp only [BLat.new, hc]
  norm_num [Nums.vals, paramLen2, hb, hi, centring2]

theorem square_group_eq (t : Tol) (ht : TolOK t) :
    Lat.latticeGroup t ⟨2, (1 : Matrix (Fin 2) (Fin 2) ℝ)⟩ = .ok squareExt := by
  have hE : (1 : Matrix (Fin 2) (Fin 2) ℝ).det ≠ 0 := by simp
  have hall : ∀ M ∈ squareExt, InPointGroup (1 : Matrix (Fin 2) (Fin 2) ℝ) (toR M) := by
    intro M hM
    refine (inPointGroup_iff hE).mpr ⟨?_, ?_⟩
    · have key : ∀ M ∈ squareExt, M * Mᵀ = 1 := by unfold squareExt; decide +kernel
      have := congrArg toR (key M hM)
      rw [toR_mul, toR_one] at this
      exact this
    · simp only [inv_one, Matrix.one_mul, Matrix.mul_one]
      exact fun i j => ⟨M i j, rfl⟩
  have hf : (squareExt.map NMat.int).filter (passes t 1) = squareExt.map NMat.int := by
    rw [List.filter_eq_self]
    intro Q hQ
    obtain ⟨M, hM, rfl⟩ := List.mem_map.mp hQ
    exact passes_of_sym ht hE _ (hall M hM)
  have hp : Lat.pointGroup t ⟨2, (1 : Matrix (Fin 2) (Fin 2) ℝ)⟩ = .ok (squareExt.map toR) := by
    rw [pointGroup_two]
    simp only [Lat.select, filter_ok t hE, hf, map_int_val]
    rw [if_neg (by simp [squareExt])]
  simp only [Lat.latticeGroup, hp]
  congr 1
  rw [List.map_map]
  conv_rhs => rw [← List.map_id squareExt]
  refine List.map_congr_left fun M _ => ?_
  simp only [Function.comp, Lat.conj, inv_one, Matrix.one_mul, Matrix.mul_one, id]
  exact rintMat_toR M

theorem square_alpha {o : Outside 2} (ho : Sound o) :
    o.quartMin (quartD (1 : Matrix (Fin 2) (Fin 2) ℝ) (1 : Matrix (Fin 2) (Fin 2) ℝ)⁻¹) = 1 / 2 := by
  refine (ho.quart _).unique ⟨?_, ?_⟩
  · set X : Matrix (Fin 2) (Fin 2) ℝ := (Real.sqrt 2 / 2) • 1 with hX
    have h2 : Real.sqrt 2 * Real.sqrt 2 = 2 := Real.mul_self_sqrt (by norm_num)
    refine ⟨fun p => X p.1 p.2, ?_, ?_⟩
    · rw [Fintype.sum_prod_type]
      simp [hX, Fin.sum_univ_two, Matrix.one_apply]
      nlinarith
    · rw [C31_tensor_real]
      simp [hX, Fin.sum_univ_two, Matrix.one_apply, Matrix.mul_apply]
      nlinarith
  · rintro v ⟨x, hx, rfl⟩
    have e : quartForm (quartD (1 : Matrix (Fin 2) (Fin 2) ℝ) (1 : Matrix (Fin 2) (Fin 2) ℝ)⁻¹) x = _ :=
      C31_tensor_real 1 1⁻¹ (Matrix.of fun i j => x (i, j))
    rw [e, inv_one]
    refine square_setting.bound _ ?_
    rw [← hx, Fintype.sum_prod_type]
    rfl

set_option synthInstance.maxHeartbeats 400000
set_option synthInstance.maxSize 4000
set_option maxRecDepth 100000

theorem squareExt_init : initLoop (eqlatcor squareExt squareExt) (fun L => L.det ≠ 0) (fun L => L.det = 1) 1
    squareDist squareSamples 20 ([], ∅, none)
      = .ok (some ([⟨!![1, 1; 0, 1], 3⟩], eqlatcor squareExt squareExt !![1, 1; 0, 1], some 3)) := by
  decide +kernel

theorem squareExt_round : sliceLoop squareExt squareExt 1 squareDist 100
    ((vecGenZ 4 4 (some [0, 0, 0, 0])).length + 1) (vecGenZ 4 4 (some [0, 0, 0, 0]))
    ([⟨!![1, 1; 0, 1], 3⟩], eqlatcor squareExt squareExt !![1, 1; 0, 1], 3) = .error .stopIteration := by
  decide +kernel

theorem startL0_one : startL0 (1 : Matrix (Fin 2) (Fin 2) ℝ) 1 = 1 := by
  ext i j
  fin_cases i <;> fin_cases j <;> simp [startL0]

/-- **C77** fails: there is a call of `lat_cor`, for the square lattice of unit cells onto itself with default
arguments except for `dim=2`, that raises `StopIteration`; the matrices drawn have entries -1, 0 and 1 as they
should. -/
theorem C77_stop_iteration_fails (t : Tol) (ht : t = .code ∨ t = .exact) (py : Py) :
    ∃ o : Outside 2, Sound o ∧ (∀ s ∈ o.shifts, ∀ i j, |s i j| ≤ 1) ∧
      latCor t py { dim := some 2 } o 1 (.num (.float [1])) 1 (.num (.float [1])) = .error .stopIteration := by
  have htol : TolOK t := by rcases ht with rfl | rfl; exacts [tolOK_code, tolOK_exact]
  obtain ⟨o, ho, hs, hr⟩ := sound_exists (N := 2) (by norm_num) (squareSamples.map (fun L => L - 1)) 1
  refine ⟨o, ho, by rw [hs]; decide +kernel, ?_⟩
  refine (latCor_eq (kw := { dim := some 2 }) (square_constructs py) (square_constructs py)).trans ?_
  change latCorCore t o 1 0.1 100 1 1 1 1 = _
  unfold latCorCore
  simp only [square_group_eq t htol]
  rw [directSearch_congr _ _ _ _ _ _ _ (fun L => L.det = 1)
    (volOk_iff (N := 2) (v := 0.1) (by norm_num) (by norm_num)), square_alpha ho, startL0_one, hs, hr]
  have e0 : (squareSamples.map (fun L => L - 1)).map (fun shift => 1 + shift) = squareSamples := by
    rw [List.map_map]
    conv_rhs => rw [← List.map_id squareSamples]
    exact List.map_congr_left fun L _ => by simp
  rw [e0]
  have e : (fun L => cauchyDist L (1 : Matrix (Fin 2) (Fin 2) ℝ) (1 : Matrix (Fin 2) (Fin 2) ℝ)⁻¹)
      = fun L => (fun z : ℤ => (z : ℝ) / 1) (squareDist L) := by
    rw [inv_one]
    exact funext squareDist_eq
  have h : directSearch squareExt squareExt 1
      (fun L => cauchyDist L (1 : Matrix (Fin 2) (Fin 2) ℝ) (1 : Matrix (Fin 2) (Fin 2) ℝ)⁻¹) 100
      (rmaxFn (1 / 2)) (fun L => L.det = 1) squareSamples 1 = .error .stopIteration := by
    rw [e, directSearch_map (strictMono_div _ (by norm_num))]
    unfold directSearch
    rw [show 20 * 1 = 20 from rfl, squareExt_init]
    simp only
    have e1 : vecGen (2 ^ 2) (rmaxFn (1 / 2) (((3 : ℤ) : ℝ) / 1))
        (some (List.replicate (2 ^ 2) 0)) = vecGenZ 4 4 (some [0, 0, 0, 0]) := by
      rw [show (2 : ℕ) ^ 2 = 3 + 1 from rfl,
        vecGen_eqZ _ _ _ (rmaxFn_nonneg (by norm_num) (by norm_num)), square_floor]
      rfl
    unfold searchLoop
    simp only
    rw [e1, squareExt_round]
  rw [h]
  rfl

/-! ### A search that starts with a perfect match -/

theorem good_dmax_adm {D : Type} [LinearOrder D] {GA GM : List (Matrix (Fin N) (Fin N) ℤ)} {nsol : ℕ}
    {dist : Matrix (Fin N) (Fin N) ℤ → D} {seen : List (Matrix (Fin N) (Fin N) ℤ)} {st : SearchState N D}
    (h : Good GA GM nsol dist seen st) : ∃ L : Matrix (Fin N) (Fin N) ℤ, L.det ≠ 0 ∧ dist L = st.2.2 := by
  obtain ⟨s, h1, h2⟩ := h.last
  have h3 := h.inv.sound s (List.mem_of_getLast? h1)
  exact ⟨s.l, h3.2.1, by rw [← h2, h3.2.2]⟩

/-- no slice improves on the smallest possible distance -/
theorem sliceLoop_bottom {D : Type} [LinearOrder D] {GA GM : List (Matrix (Fin N) (Fin N) ℤ)} {nsol : ℕ}
    {dist : Matrix (Fin N) (Fin N) ℤ → D}
    (hsym : IsSymmetry (eqlatcor GA GM) dist (fun L => L.det ≠ 0)) (hn : 1 ≤ nsol) {sz : ℕ} :
    ∀ (fuel : ℕ) (g : List (List ℤ)) (seen : List (Matrix (Fin N) (Fin N) ℤ)) (st : SearchState N D),
      Good GA GM nsol dist seen st → (∀ L, L.det ≠ 0 → st.2.2 ≤ dist L) →
      ∃ st', sliceLoop GA GM nsol dist sz fuel g st = .ok (none, st') := by
  intro fuel
  induction fuel with
  | zero => intro g seen st _ _; exact ⟨st, rfl⟩
  | succ fuel ih =>
    intro g seen st h hb
    obtain ⟨sols, ext, dmax⟩ := st
    unfold sliceLoop
    split_ifs with hl
    · obtain ⟨st', h1, h2, h3⟩ := good_update hsym hn h ((g.take sz).map (toMat N))
      simp only at h1 h3
      rw [h1]
      obtain ⟨L, hd, hL⟩ := good_dmax_adm h2
      have hge : dmax ≤ st'.2.2 := by rw [← hL]; exact hb L hd
      simp only [not_lt.mpr hge, decide_false, Bool.false_eq_true, if_false]
      refine ih _ _ st' h2 fun L hd => (h3.trans (hb L hd))
    · exact ⟨_, rfl⟩

/-- a search that starts with `nsol` solutions at the smallest possible distance ends at once -/
theorem searchLoop_bottom {D : Type} [LinearOrder D] {GA GM : List (Matrix (Fin N) (Fin N) ℤ)} {nsol : ℕ}
    {dist : Matrix (Fin N) (Fin N) ℤ → D}
    (hsym : IsSymmetry (eqlatcor GA GM) dist (fun L => L.det ≠ 0)) (hn : 1 ≤ nsol) {sz : ℕ} {rmax : D → ℝ}
    (fuel : ℕ) (cp : List ℤ) (seen : List (Matrix (Fin N) (Fin N) ℤ)) (st : SearchState N D)
    (h : Good GA GM nsol dist seen st) (hb : ∀ L, L.det ≠ 0 → st.2.2 ≤ dist L) :
    ∃ st', searchLoop GA GM nsol dist sz rmax (fuel + 1) cp st = .ok (some st', [cp]) := by
  unfold searchLoop
  obtain ⟨st', h'⟩ := sliceLoop_bottom hsym hn (sz := sz)
    ((vecGen (N ^ 2) (rmax st.2.2) (some cp)).length + 1) (vecGen (N ^ 2) (rmax st.2.2) (some cp)) seen st h hb
  simp only [h']
  exact ⟨st', rfl⟩

/-! ### A rhombic lattice given as an oblique one -/

/-- two unit vectors with the angle `arccos (3/5)` -/
noncomputable def rhombus : Matrix (Fin 2) (Fin 2) ℝ := !![1, 3 / 5; 0, 4 / 5]

theorem rhombus_det : rhombus.det = 4 / 5 := by simp [rhombus, Matrix.det_fin_two]

theorem rhombus_inv : rhombus⁻¹ = !![1, -3 / 4; 0, 5 / 4] := by
  apply Matrix.inv_eq_right_inv
  ext i j
  fin_cases i <;> fin_cases j <;> norm_num [rhombus, Matrix.mul_apply, Fin.sum_univ_two]

/-- the parameters: both lengths 1, and the angle in degrees -/
noncomputable def rhombusParam : PArg := .list (.float [1, 1, Real.arccos (3 / 5) * 180 / Real.pi])

theorem rhombus_constructs (py : Py) : Constructs py 5 rhombusParam 2 rhombus 1 := by
  have hpi := Real.pi_pos
  have hang : radians (Real.arccos (3 / 5) * 180 / Real.pi) = Real.arccos (3 / 5) := by
    unfold radians
    field_simp
  have hc : Real.cos (Real.arccos (3 / 5)) = 3 / 5 := Real.cos_arccos (by norm_num) (by norm_num)
  have hs : Real.sin (Real.arccos (3 / 5)) = 4 / 5 := by
    rw [Real.sin_arccos, show (1 : ℝ) - (3 / 5) ^ 2 = (4 / 5) ^ 2 by norm_num, Real.sqrt_sq (by norm_num)]
  have hb : primBase2 5 (Nums.get (.float [1, 1, Real.arccos (3 / 5) * 180 / Real.pi])) = rhombus := by
    ext i j
    fin_cases i <;> fin_cases j <;> simp [primBase2, Nums.get, Nums.vals, hang, hc, hs, rhombus]
  refine ⟨⟨2, some rhombus, 5, .float [1, 1, Real.arccos (3 / 5) * 180 / Real.pi], 1⟩, rfl, ?_, rfl, rfl⟩
  have hpos : 0 < Real.arccos (3 / 5) * 180 / Real.pi := by
    have : 0 < Real.arccos (3 / 5) := Real.arccos_pos.mpr (by norm_num)
    positivity
  have hch : checkParam rhombusParam = .ok (.float [1, 1, Real.arccos (3 / 5) * 180 / Real.pi]) := by
    unfold rhombusParam
    simp only [checkParam]
    rw [if_neg]
    simp only [Nums.vals, List.mem_cons, List.not_mem_nil, or_false, not_exists, not_and, not_le]
    rintro v (rfl | rfl | rfl)
    · norm_num
    · norm_num
    · exact hpos
  have hi : initBase (some rhombus) = .ok () := by
    simp only [initBase]
    rw [lat_new_sq false (by rw [rhombus_det]; norm_num)]
  simp only [BLat.new, hch]
  norm_num [Nums.vals, paramLen2, hb, hi, centring2]
  exact fun h => absurd rfl h

/-- the code finds only two of the four symmetries -/
theorem rhombus_group (t : Tol) (ht : t = .code ∨ t = .exact) :
    Lat.latticeGroup t ⟨2, rhombus⟩ = .ok pm1 := by
  have htol : TolOK t := by rcases ht with rfl | rfl; exacts [tolOK_code, tolOK_exact]
  have hE : rhombus.det ≠ 0 := by rw [rhombus_det]; norm_num
  have h1 : passes t rhombus (.int !![1, 0; 0, 1]) = true := by
    apply passes_of_sym htol hE
    have := inPointGroup_one rhombus
    rwa [← toR_one, show (1 : Matrix (Fin 2) (Fin 2) ℤ) = !![1, 0; 0, 1] by decide +kernel] at this
  have hn1 : passes t rhombus (.int !![-1, 0; 0, -1]) = true := by
    apply passes_of_sym htol hE
    have := inPointGroup_neg (inPointGroup_one rhombus)
    rwa [← toR_one, ← toR_neg, show -(1 : Matrix (Fin 2) (Fin 2) ℤ) = !![-1, 0; 0, -1] by
      decide +kernel] at this
  have far : ∀ (Q : Matrix (Fin 2) (Fin 2) ℤ) (i j : Fin 2) (k : ℤ), |(k : ℝ)| ≤ 5 →
      (k + 1 / 100 : ℝ) ≤ (rhombus⁻¹ * (toR Q * rhombus)) i j →
      (rhombus⁻¹ * (toR Q * rhombus)) i j ≤ (k + 99 / 100 : ℝ) →
      passes t rhombus (.int Q) = false := by
    intro Q i j k hk ha hb
    simp only [passes, Bool.and_eq_false_iff]
    right
    exact eqTest_of_far ht (i := i) (j := j) (far_of_between k hk ha hb)
  have hf : (squareExt.map NMat.int).filter (passes t rhombus)
      = [.int !![1, 0; 0, 1], .int !![-1, 0; 0, -1]] := by
    have q1 : passes t rhombus (.int !![0, -1; 1, 0]) = false := by
      apply far _ 0 0 (-1) (by norm_num) <;> rw [rhombus_inv] <;>
        norm_num [rhombus, toR, Matrix.mul_apply, Fin.sum_univ_two]
    have q2 : passes t rhombus (.int !![0, 1; -1, 0]) = false := by
      apply far _ 0 0 0 (by norm_num) <;> rw [rhombus_inv] <;>
        norm_num [rhombus, toR, Matrix.mul_apply, Fin.sum_univ_two]
    have q3 : passes t rhombus (.int !![1, 0; 0, -1]) = false := by
      apply far _ 0 1 1 (by norm_num) <;> rw [rhombus_inv] <;>
        norm_num [rhombus, toR, Matrix.mul_apply, Fin.sum_univ_two]
    have q4 : passes t rhombus (.int !![-1, 0; 0, 1]) = false := by
      apply far _ 0 1 (-2) (by norm_num) <;> rw [rhombus_inv] <;>
        norm_num [rhombus, toR, Matrix.mul_apply, Fin.sum_univ_two]
    have q5 : passes t rhombus (.int !![0, 1; 1, 0]) = false := by
      apply far _ 0 0 (-1) (by norm_num) <;> rw [rhombus_inv] <;>
        norm_num [rhombus, toR, Matrix.mul_apply, Fin.sum_univ_two]
    have q6 : passes t rhombus (.int !![0, -1; -1, 0]) = false := by
      apply far _ 0 0 0 (by norm_num) <;> rw [rhombus_inv] <;>
        norm_num [rhombus, toR, Matrix.mul_apply, Fin.sum_univ_two]
    simp only [squareExt, List.map_cons, List.map_nil]
    simp [h1, hn1, q1, q2, q3, q4, q5, q6]
  have hp : Lat.pointGroup t ⟨2, rhombus⟩ = .ok [1, -1] := by
    rw [pointGroup_two]
    simp only [Lat.select, filter_ok t hE, hf]
    rw [if_neg (by simp)]
    simp only [List.map_cons, List.map_nil]
    congr 2
    · change toR !![1, 0; 0, 1] = 1
      rw [show (!![1, 0; 0, 1] : Matrix (Fin 2) (Fin 2) ℤ) = 1 by decide +kernel, toR_one]
    · congr 1
      change toR !![-1, 0; 0, -1] = -1
      rw [show (!![-1, 0; 0, -1] : Matrix (Fin 2) (Fin 2) ℤ) = -1 by decide +kernel, toR_neg, toR_one]
  simp only [Lat.latticeGroup, hp, List.map_cons, List.map_nil, conj_neg_one hE]
  have : Lat.conj ⟨2, rhombus⟩ 1 = 1 := by
    have h := conj_spec hE (inPointGroup_one rhombus)
    refine conj_unique hE (h.trans ?_)
    rw [toR_one, Matrix.one_mul, Matrix.mul_one]
  rw [this]
  congr 1
  decide +kernel

/-- the distance for the rhombic lattice -/
def rhoDist (L : Matrix (Fin 2) (Fin 2) ℤ) : ℤ :=
  let a := L 0 0
  let b := L 0 1
  let c := L 1 0
  let d := L 1 1
  let g11 := 4 * (5 * a + 3 * c)
  let g12 := 5 * (5 * b + 3 * d) - 3 * (5 * a + 3 * c)
  let g21 := 16 * c
  let g22 := 20 * d - 12 * c
  (g11 * g11 + g12 * g12 - 400) * (g11 * g11 + g12 * g12 - 400) +
    2 * ((g11 * g21 + g12 * g22) * (g11 * g21 + g12 * g22)) +
    (g21 * g21 + g22 * g22 - 400) * (g21 * g21 + g22 * g22 - 400)

theorem rhoDist_eq (L : Matrix (Fin 2) (Fin 2) ℤ) :
    cauchyDist L rhombus rhombus⁻¹ = (rhoDist L : ℝ) / 400 ^ 2 := by
  rw [rhombus_inv]
  simp only [cauchyDist, Cinv, Finv, intMat, rhombus, Fin.sum_univ_two, Matrix.mul_apply,
    Matrix.sub_apply, Matrix.transpose_apply, Matrix.map_apply, rhoDist]
  simp
  ring

theorem rhombus_sym : ∀ M ∈ [(1 : Matrix (Fin 2) (Fin 2) ℤ), -1, !![0, 1; 1, 0], !![0, -1; -1, 0]],
    IsLatticeSym rhombus M := by
  intro M hM
  simp only [List.mem_cons, List.not_mem_nil, or_false] at hM
  have hswap : IsOrtho (!![3 / 5, 4 / 5; 4 / 5, -3 / 5] : Matrix (Fin 2) (Fin 2) ℝ) := by
    unfold IsOrtho
    ext i j
    fin_cases i <;> fin_cases j <;> norm_num [Matrix.mul_apply, Fin.sum_univ_two]
  rcases hM with rfl | rfl | rfl | rfl
  · refine ⟨1, by simp [IsOrtho], ?_⟩
    ext i j
    fin_cases i <;> fin_cases j <;> simp [Matrix.mul_apply]
  · refine ⟨-1, by simp [IsOrtho], ?_⟩
    ext i j
    fin_cases i <;> fin_cases j <;> simp [Matrix.mul_apply]
  · refine ⟨_, hswap, ?_⟩
    ext i j
    fin_cases i <;> fin_cases j <;> norm_num [rhombus, Matrix.mul_apply, Fin.sum_univ_two]
  · refine ⟨-!![3 / 5, 4 / 5; 4 / 5, -3 / 5], by
      unfold IsOrtho at *
      rw [Matrix.transpose_neg, neg_mul_neg]
      exact hswap, ?_⟩
    ext i j
    fin_cases i <;> fin_cases j <;> norm_num [rhombus, Matrix.mul_apply, Fin.sum_univ_two]

theorem pm1_matGroup : IsMatGroup pm1 := by
  refine ⟨?_, ?_, ?_⟩ <;> unfold pm1 <;> decide +kernel

theorem mem_pm1 {M : Matrix (Fin 2) (Fin 2) ℤ} (h : M ∈ pm1) : M = 1 ∨ M = -1 := by
  unfold pm1 at h
  simp only [List.mem_cons, List.not_mem_nil, or_false] at h
  rcases h with rfl | rfl
  · left; decide +kernel
  · right; decide +kernel

theorem rhombus_setting {o : Outside 2} (ho : Sound o) :
    SearchSetting rhombus rhombus rhombus⁻¹ pm1 pm1 (o.quartMin (quartD rhombus rhombus⁻¹)) := by
  have hE : rhombus.det ≠ 0 := by rw [rhombus_det]; norm_num
  have hI : (rhombus⁻¹).det ≠ 0 := by rw [rhombus_inv]; simp [Matrix.det_fin_two]
  have hsym : ∀ M ∈ pm1, IsLatticeSym rhombus M := by
    intro M hM
    apply rhombus_sym
    rcases mem_pm1 hM with rfl | rfl <;> simp
  obtain ⟨c1, c2⟩ := quart_pos hE hI (ho.quart _)
  exact ⟨isUnit_det_of_ne hE, Matrix.mul_nonsing_inv _ (isUnit_det_of_ne hE), pm1_matGroup, pm1_matGroup, hsym, hsym,
    by unfold pm1; decide +kernel, c1, c2⟩

/-- the draws: the identity and nineteen times a shear -/
def rhoSamples : List (Matrix (Fin 2) (Fin 2) ℤ) := 1 :: List.replicate 19 !![1, 1; 0, 1]

theorem rho_init : initLoop (eqlatcor pm1 pm1) (fun L => L.det ≠ 0) (fun L => L.det = 1) 1
    rhoDist rhoSamples 20 ([], ∅, none) = .ok (some ([⟨1, 0⟩], eqlatcor pm1 pm1 1, some 0)) := by
  decide +kernel

/-- a run for the rhombic lattice onto itself, with harmless checkpoints -/
theorem rhombus_run (t : Tol) (ht : t = .code ∨ t = .exact) (py : Py) :
    ∃ o : Outside 2, Sound o ∧ (∀ s ∈ o.shifts, ∀ i j, |s i j| ≤ 1) ∧
      ∃ (rs : List (Report 2)) (trace : List (List ℤ)),
        latCor t py { dim := some 2 } o 5 rhombusParam 5 rhombusParam = .ok (some rs, trace) ∧
        (∀ c ∈ trace, PositiveThenZero c.tail) ∧
        ∃ r ∈ rs, ∃ s ∈ rs, ∃ M, r.l ≠ s.l ∧ r.d = 0 ∧ s.d = 0 ∧ s.l = r.l * M ∧ IsLatticeSym rhombus M := by
  obtain ⟨o, ho, hs, hr⟩ := sound_exists (N := 2) (by norm_num) (rhoSamples.map (fun L => L - 1)) 1
  refine ⟨o, ho, by rw [hs]; decide +kernel, ?_⟩
  have hS := rhombus_setting ho
  have hcall : latCor t py { dim := some 2 } o 5 rhombusParam 5 rhombusParam
      = latCorCore t o 1 0.1 100 rhombus rhombus 1 1 :=
    latCor_eq (kw := { dim := some 2 }) (rhombus_constructs py) (rhombus_constructs py)
  have hL0 : startL0 rhombus rhombus = 1 := by
    unfold startL0
    rw [Matrix.nonsing_inv_mul _ hS.invA]
    ext i j
    fin_cases i <;> fin_cases j <;> simp
  have e0 : (rhoSamples.map (fun L => L - 1)).map (fun shift => 1 + shift) = rhoSamples := by
    rw [List.map_map]
    conv_rhs => rw [← List.map_id rhoSamples]
    exact List.map_congr_left fun L _ => by simp
  have e : (fun L => cauchyDist L rhombus rhombus⁻¹) = fun L => (fun z : ℤ => (z : ℝ) / 400 ^ 2) (rhoDist L) :=
    funext rhoDist_eq
  have hmono := strictMono_div (400 ^ 2) (by norm_num)
  have hclass : ∀ L X, Equivalent pm1 pm1 L X → rhoDist X = rhoDist L := by
    intro L X h
    have := setting_class hS L X h
    rw [rhoDist_eq, rhoDist_eq] at this
    exact hmono.injective this
  have hsym := eqlatcor_isSymmetry pm1_matGroup pm1_matGroup hclass
  have hpos : ∀ L, (0 : ℤ) ≤ rhoDist L := by
    intro L
    have h0 := C28_nonneg rhombus rhombus⁻¹ L
    rw [rhoDist_eq] at h0
    have h1 : (0 : ℝ) ≤ (rhoDist L : ℝ) := by
      by_contra hneg
      have : (rhoDist L : ℝ) / 400 ^ 2 < 0 := div_neg_of_neg_of_pos (not_le.mp hneg) (by norm_num)
      linarith
    exact_mod_cast h1
  have hgood : ∃ seen, Good pm1 pm1 1 rhoDist seen ([⟨1, 0⟩], eqlatcor pm1 pm1 1, 0) := by
    rcases initLoop_spec hsym le_rfl (volOk := fun L => L.det = 1) (by intro L hL; rw [hL]; decide) rhoSamples 20
      [] [] ∅ none Inv.nil ExtInv.nil rfl (by simp) with h | ⟨acc, s1, e1, d1, h1, -, h3⟩
    · rw [rho_init] at h; cases h
    · rw [rho_init] at h1
      cases h1
      exact ⟨_, h3⟩
  obtain ⟨seen, hgood⟩ := hgood
  obtain ⟨st, hst⟩ := searchLoop_bottom hsym le_rfl (sz := 100)
    (rmax := fun d : ℤ => rmaxFn (o.quartMin (quartD rhombus rhombus⁻¹)) ((d : ℝ) / 400 ^ 2)) 0
    (List.replicate (2 ^ 2) 0) seen _ hgood (fun L _ => hpos L)
  have hrun : directSearch pm1 pm1 1 (fun L => cauchyDist L rhombus rhombus⁻¹) 100
      (rmaxFn (o.quartMin (quartD rhombus rhombus⁻¹))) (fun L => L.det = 1) rhoSamples 1
      = .ok (some (mapState (fun z : ℤ => (z : ℝ) / 400 ^ 2) st), [List.replicate (2 ^ 2) 0]) := by
    rw [e, directSearch_map hmono]
    unfold directSearch
    rw [show 20 * 1 = 20 from rfl, rho_init]
    simp only
    rw [hst]
    rfl
  set st' := mapState (fun z : ℤ => (z : ℝ) / 400 ^ 2) st with hst'
  obtain ⟨sols, ext, dmax⟩ := st'
  obtain ⟨rs, h1, h2, h3⟩ := C39_direct_run (N := 2) (by norm_num) ho.eig (CA := 1) (CM := 1) hS (by simp)
    (fun L => o.order (eqlatcor pm1 pm1 L)) (fun L X => ho.visit _ _) 1 100 le_rfl (by norm_num) _ _ _ _ _ _ hrun
  have hopt := C38_cauchy_optimal_partial (N := 2) (by norm_num) (by norm_num) hS 1 100 le_rfl (by norm_num)
    _ _ _ _ _ _ hrun (by simp [PositiveThenZero])
  refine ⟨rs, [List.replicate (2 ^ 2) 0], ?_, by simp [PositiveThenZero], ?_⟩
  · rw [hcall]
    unfold latCorCore
    simp only [rhombus_group t ht]
    rw [directSearch_congr _ _ _ _ _ _ _ (fun L => L.det = 1)
      (volOk_iff (N := 2) (v := 0.1) (by norm_num) (by norm_num)), hL0, hs, hr, e0, hrun]
    simp only [h1]
    rfl
  -- both perfect matches are returned
  have hin : ∀ L : Matrix (Fin 2) (Fin 2) ℤ, L.det ≠ 0 → rhoDist L = 0 →
      ∃ r ∈ rs, r.d = 0 ∧ (r.l = L ∨ r.l = -L) := by
    intro L hL h0
    have hd0 : cauchyDist L rhombus rhombus⁻¹ = 0 := by rw [rhoDist_eq, h0]; simp
    have hex : ∃ s ∈ sols, Equivalent pm1 pm1 s.l L := by
      by_contra hno
      have hlt := hopt L hL hno
      have hne : sols ≠ [] := by
        rintro rfl
        cases h3
        simp at h2
      obtain ⟨s, ss, rfl⟩ := List.exists_cons_of_ne_nil hne
      have := hlt s List.mem_cons_self
      rw [hd0] at this
      obtain ⟨r, hr, hq⟩ := forall₂_left h3 s List.mem_cons_self
      have hge := C28_nonneg rhombus rhombus⁻¹ r.l
      rw [← hq.2.2.1, hq.2.1] at hge
      linarith
    obtain ⟨s, hs1, hs2⟩ := hex
    obtain ⟨r, hr1, hq⟩ := forall₂_left h3 s hs1
    refine ⟨r, hr1, ?_, ?_⟩
    · rw [hq.2.2.1, setting_class hS _ _ hq.1, ← setting_class hS _ _ hs2, hd0]
    · obtain ⟨A, hA, B, hB, e1⟩ := hs2
      obtain ⟨A', hA', B', hB', e2⟩ := hq.1
      rcases mem_pm1 hA with rfl | rfl <;> rcases mem_pm1 hB with rfl | rfl <;>
        rcases mem_pm1 hA' with rfl | rfl <;> rcases mem_pm1 hB' with rfl | rfl <;>
        simp [e1, e2]
  obtain ⟨r, hr1, hr2, hr3⟩ := hin 1 (by simp) (by decide +kernel)
  obtain ⟨s, hs1, hs2, hs3⟩ := hin !![0, 1; 1, 0] (by decide +kernel) (by decide +kernel)
  have hmem := rhombus_sym
  rcases hr3 with hr3 | hr3 <;> rcases hs3 with hs3 | hs3
  · exact ⟨r, hr1, s, hs1, !![0, 1; 1, 0], by rw [hr3, hs3]; decide +kernel, hr2, hs2,
      by rw [hr3, hs3]; decide +kernel, hmem _ (by simp)⟩
  · exact ⟨r, hr1, s, hs1, !![0, -1; -1, 0], by rw [hr3, hs3]; decide +kernel, hr2, hs2,
      by rw [hr3, hs3]; decide +kernel, hmem _ (by simp)⟩
  · exact ⟨r, hr1, s, hs1, !![0, -1; -1, 0], by rw [hr3, hs3]; decide +kernel, hr2, hs2,
      by rw [hr3, hs3]; decide +kernel, hmem _ (by simp)⟩
  · exact ⟨r, hr1, s, hs1, !![0, 1; 1, 0], by rw [hr3, hs3]; decide +kernel, hr2, hs2,
      by rw [hr3, hs3]; decide +kernel, hmem _ (by simp)⟩

/-- **C77** fails: correspondences that a symmetry of the lattices carries into each other are returned as
different solutions.  For the lattice of two unit vectors with the angle `arccos (3/5)` onto itself, default
arguments except for `dim=2`, there is a run that returns two solutions `r`, `s` of distance 0 with
`s.l = r.l M` for a symmetry `M` of the lattice (the reflection that exchanges the two vectors). -/
theorem C77_same_solution_twice_fails (t : Tol) (ht : t = .code ∨ t = .exact) (py : Py) :
    ∃ o : Outside 2, Sound o ∧ (∀ s ∈ o.shifts, ∀ i j, |s i j| ≤ 1) ∧
      ∃ (rs : List (Report 2)) (trace : List (List ℤ)),
        latCor t py { dim := some 2 } o 5 rhombusParam 5 rhombusParam = .ok (some rs, trace) ∧
        ∃ r ∈ rs, ∃ s ∈ rs, ∃ M, r.l ≠ s.l ∧ r.d = 0 ∧ s.d = 0 ∧ s.l = r.l * M ∧ IsLatticeSym rhombus M := by
  obtain ⟨o, ho, hs, rs, trace, h1, -, h2⟩ := rhombus_run t ht py
  exact ⟨o, ho, hs, rs, trace, h1, h2⟩

end Verif.Props
