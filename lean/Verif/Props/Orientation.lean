import Verif.Model.LatOpt
import Verif.Props.LLLSimilar
import Verif.Props.Complete
import Verif.Props.Frame
import Verif.Props.Dist
import Verif.Props.SetLaue

/-!
# C94: the results do not depend on how the two crystals are turned in space

`R * E` is the base `E` with all its vectors turned (or reflected) by the orthogonal matrix `R`.
-/

namespace Verif.Props

open Matrix Verif.Spec Verif.Model Verif.Lemmas

section Turned

variable {N : ℕ} {R R1 R2 : Matrix (Fin N) (Fin N) ℝ}

theorem turned_inv (hR : IsOrtho R) (E : Matrix (Fin N) (Fin N) ℝ) : (R * E)⁻¹ = E⁻¹ * Rᵀ := by
  rw [Matrix.mul_inv_rev, Matrix.inv_eq_left_inv hR]

theorem turned_ratio (hR : IsOrtho R) (E X : Matrix (Fin N) (Fin N) ℝ) : (R * E)⁻¹ * (R * X) = E⁻¹ * X := by
  rw [turned_inv hR, Matrix.mul_assoc, ← Matrix.mul_assoc Rᵀ, show Rᵀ * R = 1 from hR, Matrix.one_mul]

theorem turned_det (hR : IsOrtho R) (E : Matrix (Fin N) (Fin N) ℝ) : (R * E).det = 0 ↔ E.det = 0 := by
  have h : R.det * R.det = 1 := by
    have := congrArg Matrix.det hR
    rwa [Matrix.det_mul, Matrix.det_transpose, Matrix.det_one] at this
  rw [Matrix.det_mul, mul_eq_zero]
  exact ⟨fun h' => h'.resolve_left (fun h0 => by rw [h0, mul_zero] at h; exact zero_ne_one h), .inr⟩

theorem turned_gram (hR : IsOrtho R) (E : Matrix (Fin N) (Fin N) ℝ) : (R * E)ᵀ * (R * E) = Eᵀ * E := by
  rw [Matrix.transpose_mul, Matrix.mul_assoc, ← Matrix.mul_assoc Rᵀ, show Rᵀ * R = 1 from hR, Matrix.one_mul]

theorem turned_similar (hR : IsOrtho R) : IsSimilarity R 1 := ⟨one_pos, by rw [one_smul]; exact hR⟩

theorem turned_Cinv (h2 : IsOrtho R2) (L : Matrix (Fin N) (Fin N) ℤ) (E1 E2 : Matrix (Fin N) (Fin N) ℝ) :
    Cinv L (R1 * E1) (R2 * E2)⁻¹ = R1 * Cinv L E1 E2⁻¹ * R1ᵀ := by
  have h2' : IsOrtho R2ᵀ := by rw [IsOrtho, Matrix.transpose_transpose]; exact mul_eq_one_comm.mp h2
  refine Cinv_of_Finv (Q2 := R2ᵀ) h2' ?_
  simp only [Finv, turned_inv h2, Matrix.mul_assoc]

/-! ### The distances -/

/-- C94, the Ericksen distance: it is the same however the two crystals are turned. -/
theorem C94_eric_dist (h1 : IsOrtho R1) (h2 : IsOrtho R2) (L : Matrix (Fin N) (Fin N) ℤ)
    (E1 E2 : Matrix (Fin N) (Fin N) ℝ) : ericDist L (R1 * E1) (R2 * E2) = ericDist L E1 E2 := by
  simp only [ericDist, turned_gram h1, turned_gram h2]

/-- C94, the strain distance, for all pairs of eigenvalue routines that keep their contract. -/
theorem C94_strain_dist {eig eig' : Matrix (Fin N) (Fin N) ℝ → Fin N → ℝ}
    (heig : ∀ A : Matrix (Fin N) (Fin N) ℝ, Aᵀ = A → IsEigenvalues A (eig A))
    (heig' : ∀ A : Matrix (Fin N) (Fin N) ℝ, Aᵀ = A → IsEigenvalues A (eig' A))
    (h1 : IsOrtho R1) (h2 : IsOrtho R2) (L : Matrix (Fin N) (Fin N) ℤ)
    (E1 E2 : Matrix (Fin N) (Fin N) ℝ) :
    strainDist eig' L (R1 * E1) (R2 * E2)⁻¹ = strainDist eig L E1 E2⁻¹ := by
  have hch : (Cinv L (R1 * E1) (R2 * E2)⁻¹).charpoly = (Cinv L E1 E2⁻¹).charpoly := by
    rw [turned_Cinv h2, charpoly_conj h1]
  have ha := heig' _ (Cinv_symm L (R1 * E1) (R2 * E2)⁻¹)
  have hb := heig _ (Cinv_symm L E1 E2⁻¹)
  unfold strainDist
  simp only
  rw [sum_eigenvalues_congr ha hb hch (fun x => x), sum_eigenvalues_congr ha hb hch Real.sqrt]

/-- C94, the Cauchy distance. -/
theorem C94_cauchy_dist (h1 : IsOrtho R1) (h2 : IsOrtho R2) (L : Matrix (Fin N) (Fin N) ℤ)
    (E1 E2 : Matrix (Fin N) (Fin N) ℝ) :
    cauchyDist L (R1 * E1) (R2 * E2)⁻¹ = cauchyDist L E1 E2⁻¹ := by
  have key : ∀ A : Matrix (Fin N) (Fin N) ℝ, (∑ i, ∑ j, A i j * A i j) = (A * Aᵀ).trace := by
    intro A
    simp [Matrix.trace, Matrix.mul_apply]
  have h1' : R1 * R1ᵀ = 1 := mul_eq_one_comm.mp h1
  have e : Cinv L (R1 * E1) (R2 * E2)⁻¹ - 1 = R1 * (Cinv L E1 E2⁻¹ - 1) * R1ᵀ := by
    rw [turned_Cinv h2, Matrix.mul_sub, Matrix.sub_mul, Matrix.mul_one, h1']
  unfold cauchyDist
  rw [key, key, e, Matrix.transpose_mul, Matrix.transpose_mul, Matrix.transpose_transpose]
  rw [show R1 * (Cinv L E1 E2⁻¹ - 1) * R1ᵀ * (R1 * ((Cinv L E1 E2⁻¹ - 1)ᵀ * R1ᵀ))
      = R1 * ((Cinv L E1 E2⁻¹ - 1) * (Cinv L E1 E2⁻¹ - 1)ᵀ * R1ᵀ) by
    simp only [Matrix.mul_assoc]
    rw [← Matrix.mul_assoc R1ᵀ R1, show R1ᵀ * R1 = 1 from h1, Matrix.one_mul]]
  rw [Matrix.trace_mul_comm, Matrix.mul_assoc, show R1ᵀ * R1 = 1 from h1, Matrix.mul_one]

/-- C94, the quartic polynomial whose minimum gives the search radius of `lat_cor`. -/
theorem C94_quartic (h1 : IsOrtho R1) (h2 : IsOrtho R2) (E1 E2 : Matrix (Fin N) (Fin N) ℝ) :
    quartD (R1 * E1) (R2 * E2)⁻¹ = quartD E1 E2⁻¹ := by
  have key : ∀ A B : Matrix (Fin N) (Fin N) ℝ, ∀ i j k l : Fin N × Fin N,
      quartD A B i j k l = (Aᵀ * A) i.1 k.1 * (Aᵀ * A) j.1 l.1 * (B * Bᵀ) i.2 j.2 * (B * Bᵀ) k.2 l.2 := by
    intro A B i j k l
    have hc : ∀ aa b c : Fin N × Fin N, quartC2 A B aa b c = A aa.1 b.1 * A aa.2 c.1 * (B * Bᵀ) b.2 c.2 := by
      intro aa b c
      simp only [quartC2, quartC1, Matrix.mul_apply, Matrix.transpose_apply, Finset.mul_sum]
      exact Finset.sum_congr rfl fun d _ => by ring
    have e1 : (Aᵀ * A) i.1 k.1 = ∑ a, A a i.1 * A a k.1 := by simp [Matrix.mul_apply]
    have e2 : (Aᵀ * A) j.1 l.1 = ∑ a, A a j.1 * A a l.1 := by simp [Matrix.mul_apply]
    rw [e1, e2, Finset.sum_mul_sum, Finset.sum_mul, Finset.sum_mul]
    simp only [quartD, hc, Fintype.sum_prod_type]
    refine Finset.sum_congr rfl fun a _ => ?_
    rw [Finset.sum_mul, Finset.sum_mul]
    exact Finset.sum_congr rfl fun a' _ => by ring
  funext i j k l
  have h2' : (R2 * E2)⁻¹ * ((R2 * E2)⁻¹)ᵀ = E2⁻¹ * (E2⁻¹)ᵀ := by
    rw [turned_inv h2, Matrix.transpose_mul, Matrix.transpose_transpose, Matrix.mul_assoc, ← Matrix.mul_assoc R2ᵀ,
      show R2ᵀ * R2 = 1 from h2, Matrix.one_mul]
  rw [key, key, turned_gram h1, h2']

/-! ### Comparisons of lattices -/

/-- C94, `==`: two lattices turned together compare as before, with every tolerance. -/
theorem C94_equal (t : Tol) (hR : IsOrtho R) (E E' : Matrix (Fin N) (Fin N) ℝ) :
    Lat.eq t ⟨N, R * E⟩ ⟨N, R * E'⟩ = Lat.eq t ⟨N, E⟩ ⟨N, E'⟩ := by
  simp only [Lat.eq, dif_pos, Lat.base]
  change eqTest t (R * E) (R * E') = eqTest t E E'
  unfold eqTest
  rw [turned_ratio hR]

/-! ### The symmetry groups -/

theorem turned_rotation (hR : IsOrtho R) {E : Matrix (Fin N) (Fin N) ℝ} (hE : E.det ≠ 0)
    (Q : Matrix (Fin N) (Fin N) ℝ) : InPointGroup (R * E) (R * Q * Rᵀ) ↔ InPointGroup E Q := by
  have hR' : R * Rᵀ = 1 := mul_eq_one_comm.mp hR
  have hE' : (R * E).det ≠ 0 := fun h => hE ((turned_det hR E).mp h)
  have e : R * Q * Rᵀ * (R * E) = R * (Q * E) := by
    simp only [Matrix.mul_assoc]
    rw [← Matrix.mul_assoc Rᵀ R, show Rᵀ * R = 1 from hR, Matrix.one_mul]
  have e2 : R * Q * Rᵀ * (R * Q * Rᵀ)ᵀ = R * (Q * Qᵀ) * Rᵀ := by
    rw [Matrix.transpose_mul, Matrix.transpose_mul, Matrix.transpose_transpose]
    simp only [Matrix.mul_assoc]
    rw [← Matrix.mul_assoc Rᵀ R, show Rᵀ * R = 1 from hR, Matrix.one_mul]
  rw [inPointGroup_iff hE, inPointGroup_iff hE', e, turned_ratio hR, e2]
  refine and_congr_left fun _ => ⟨fun h => ?_, fun h => by rw [h, Matrix.mul_one, hR']⟩
  have := congrArg (fun X => Rᵀ * X * R) h
  simp only [Matrix.mul_one] at this
  rw [show Rᵀ * R = 1 from hR] at this
  rw [← this]
  symm
  calc Rᵀ * (R * (Q * Qᵀ) * Rᵀ) * R = (Rᵀ * R) * (Q * Qᵀ) * (Rᵀ * R) := by simp only [Matrix.mul_assoc]
    _ = Q * Qᵀ := by rw [show Rᵀ * R = 1 from hR, Matrix.one_mul, Matrix.mul_one]

theorem turned_back (hR : IsOrtho R) (Q : Matrix (Fin N) (Fin N) ℝ) : R * (Rᵀ * Q * R) * Rᵀ = Q := by
  have hR' : R * Rᵀ = 1 := mul_eq_one_comm.mp hR
  calc R * (Rᵀ * Q * R) * Rᵀ = (R * Rᵀ) * Q * (R * Rᵀ) := by simp only [Matrix.mul_assoc]
    _ = Q := by rw [hR', Matrix.one_mul, Matrix.mul_one]

theorem turned_det_eq (hR : IsOrtho R) (Q : Matrix (Fin N) (Fin N) ℝ) : (R * Q * Rᵀ).det = Q.det := by
  have h : R.det * R.det = 1 := by
    have := congrArg Matrix.det hR
    rwa [Matrix.det_mul, Matrix.det_transpose, Matrix.det_one] at this
  rw [Matrix.det_mul, Matrix.det_mul, Matrix.det_transpose]
  linear_combination Q.det * h

theorem turned_conj (hR : IsOrtho R) (E Q : Matrix (Fin N) (Fin N) ℝ) :
    Lat.conj ⟨N, R * E⟩ (R * Q * Rᵀ) = Lat.conj ⟨N, E⟩ Q := by
  have e : R * Q * Rᵀ * (R * E) = R * (Q * E) := by
    simp only [Matrix.mul_assoc]
    rw [← Matrix.mul_assoc Rᵀ R, show Rᵀ * R = 1 from hR, Matrix.one_mul]
  simp only [Lat.conj, e, turned_ratio hR]

/-- Two results are lists with the same members. -/
def SameMembers {α : Type} (a b : Except Err (List α)) : Prop :=
  ∃ l l', a = .ok l ∧ b = .ok l' ∧ ∀ M, M ∈ l ↔ M ∈ l'

theorem sameMembers_of_turn {E : Matrix (Fin N) (Fin N) ℝ} (hR : IsOrtho R)
    {g g' : List (Matrix (Fin N) (Fin N) ℝ)} (h : ∀ Q, R * Q * Rᵀ ∈ g' ↔ Q ∈ g) (M : Matrix (Fin N) (Fin N) ℤ) :
    M ∈ g.map (Lat.conj ⟨N, E⟩) ↔ M ∈ g'.map (Lat.conj ⟨N, R * E⟩) := by
  simp only [List.mem_map]
  constructor
  · rintro ⟨Q, hQ, rfl⟩
    exact ⟨R * Q * Rᵀ, (h Q).mpr hQ, turned_conj hR E Q⟩
  · rintro ⟨Q, hQ, rfl⟩
    refine ⟨Rᵀ * Q * R, (h _).mp (by rwa [turned_back hR]), ?_⟩
    rw [← turned_conj hR E, turned_back hR]

/-- C94, `special_lattice_group`: if the tables of the program contain all rotations of the lattice before and after
turning, the integer matrices are the same. -/
theorem C94_special_lattice_group_partial (t : Tol) (hR : IsOrtho R) {E : Matrix (Fin N) (Fin N) ℝ} (hE : E.det ≠ 0)
    {g g' : List (Matrix (Fin N) (Fin N) ℝ)} (hg : Lat.laueGroup t ⟨N, E⟩ = .ok g) (hf : IsFullLaueGroup E g)
    (hg' : Lat.laueGroup t ⟨N, R * E⟩ = .ok g') (hf' : IsFullLaueGroup (R * E) g') :
    SameMembers (Lat.specialLatticeGroup t ⟨N, E⟩) (Lat.specialLatticeGroup t ⟨N, R * E⟩) := by
  refine ⟨g.map (Lat.conj ⟨N, E⟩), g'.map (Lat.conj ⟨N, R * E⟩), by simp only [Lat.specialLatticeGroup, hg],
    by simp only [Lat.specialLatticeGroup, hg'], sameMembers_of_turn hR fun Q => ?_⟩
  rw [hf.2, hf'.2, IsLatticeRotation, IsLatticeRotation, turned_rotation hR hE, turned_det_eq hR]

/-- C94, `lattice_group`: the same with the reflections. -/
theorem C94_lattice_group_partial (t : Tol) (hR : IsOrtho R) {E : Matrix (Fin N) (Fin N) ℝ} (hE : E.det ≠ 0)
    {g g' : List (Matrix (Fin N) (Fin N) ℝ)} (hg : Lat.pointGroup t ⟨N, E⟩ = .ok g) (hf : IsFullPointGroup E g)
    (hg' : Lat.pointGroup t ⟨N, R * E⟩ = .ok g') (hf' : IsFullPointGroup (R * E) g') :
    SameMembers (Lat.latticeGroup t ⟨N, E⟩) (Lat.latticeGroup t ⟨N, R * E⟩) := by
  refine ⟨g.map (Lat.conj ⟨N, E⟩), g'.map (Lat.conj ⟨N, R * E⟩), by simp only [Lat.latticeGroup, hg],
    by simp only [Lat.latticeGroup, hg'], sameMembers_of_turn hR fun Q => ?_⟩
  rw [hf.2, hf'.2, turned_rotation hR hE]

end Turned

/-- C94, plane lattices: turning a plane lattice never changes its `special_lattice_group`. -/
theorem C94_plane (t : Tol) {R E : Matrix (Fin 2) (Fin 2) ℝ} (hR : IsOrtho R) (hE : E.det ≠ 0)
    (hr : Reliable t E candidates2) (hr' : Reliable t (R * E) candidates2) :
    SameMembers (Lat.specialLatticeGroup t ⟨2, E⟩) (Lat.specialLatticeGroup t ⟨2, R * E⟩) := by
  have hE' : (R * E).det ≠ 0 := fun h => hE ((turned_det hR E).mp h)
  obtain ⟨g, hg, -, hm⟩ := C73_plane_lattice_group t E hE hr
  obtain ⟨g', hg', -, hm'⟩ := C73_plane_lattice_group t (R * E) hE' hr'
  exact ⟨g, g', hg, hg', fun M => by rw [hm, hm', turned_gram hR]⟩

-- an oblique lattice turned by the angle of the 3-4-5 triangle
example : SameMembers (Lat.specialLatticeGroup .exact ⟨2, !![1, 1 / 3; 0, 2]⟩)
    (Lat.specialLatticeGroup .exact ⟨2, !![3 / 5, 4 / 5; -4 / 5, 3 / 5] * !![1, 1 / 3; 0, 2]⟩) := by
  refine C94_plane .exact ?_ (by simp [Matrix.det_fin_two]) (.inl rfl) (.inl rfl)
  ext i j
  fin_cases i <;> fin_cases j <;> simp [Matrix.mul_apply, Fin.sum_univ_two] <;> norm_num

theorem cubic_transpose : ∀ P ∈ cubicLaue, Pᵀ * P = 1 ∧ Pᵀ ∈ cubicLaue := by
  unfold cubicLaue
  decide +kernel

theorem cubic_turn {P M : Z3} (hP : P ∈ cubicLaue) : P * M * Pᵀ ∈ cubicLaue ↔ M ∈ cubicLaue := by
  obtain ⟨h1, h2⟩ := cubic_transpose P hP
  refine ⟨fun h => ?_, fun h => cubic_group.mul_mem _ (cubic_group.mul_mem _ hP _ h) _ h2⟩
  have := cubic_group.mul_mem _ (cubic_group.mul_mem _ h2 _ h) _ hP
  rwa [show Pᵀ * (P * M * Pᵀ) * P = (Pᵀ * P) * M * (Pᵀ * P) by simp only [Matrix.mul_assoc], h1, Matrix.one_mul,
    Matrix.mul_one] at this

theorem cubic_isOrtho {P : Z3} (hP : P ∈ cubicLaue) : IsOrtho (toR P) := by
  rw [IsOrtho, ← toR_transpose, ← toR_mul, (cubic_transpose P hP).1, toR_one]

theorem cubic_inO3 (t : Tol) {M : Z3} (hM : M ∈ cubicLaue) : inO3 t true (toR M) = true := by
  have h : toR M * (toR M)ᵀ = 1 := mul_eq_one_comm.mp (cubic_isOrtho hM)
  simp [inO3, h, abs_det_of_ortho h]

theorem cubic_passes (t : Tol) {P : Z3} (hP : P ∈ cubicLaue) (E : Matrix (Fin 3) (Fin 3) ℝ) {M : Z3}
    (hM : M ∈ cubicLaue) :
    passes t (toR P * E) (.int (P * M * Pᵀ)) = passes t E (.int M) := by
  have hR := cubic_isOrtho hP
  have e : toR (P * M * Pᵀ) * (toR P * E) = toR P * (toR M * E) := by
    rw [toR_mul, toR_mul, toR_transpose]
    simp only [Matrix.mul_assoc]
    rw [← Matrix.mul_assoc (toR P)ᵀ (toR P), show (toR P)ᵀ * toR P = 1 from hR, Matrix.one_mul]
  simp only [passes, cubic_inO3 t hM, cubic_inO3 t ((cubic_turn hP).mpr hM), Bool.true_and, e]
  unfold eqTest
  rw [turned_ratio hR]

/-- The elements of the table of cubic rotations that the lattice accepts. -/
noncomputable def cubicHits (t : Tol) (E : Matrix (Fin 3) (Fin 3) ℝ) : List Z3 :=
  cubicLaue.filter fun M => passes t E (.int M)

theorem cubicHits_filter (t : Tol) {E : Matrix (Fin 3) (Fin 3) ℝ} (hE : E.det ≠ 0) :
    Lat.filter t ⟨3, E⟩ (cubicLaue.map .int) = .ok ((cubicHits t E).map toR) := by
  rw [filter_ok t hE, List.filter_map, map_int_val]
  rfl

theorem cubicHits_turn (t : Tol) {P : Z3} (hP : P ∈ cubicLaue) (E : Matrix (Fin 3) (Fin 3) ℝ) (M : Z3) :
    P * M * Pᵀ ∈ cubicHits t (toR P * E) ↔ M ∈ cubicHits t E := by
  simp only [cubicHits, List.mem_filter, cubic_turn hP]
  exact and_congr_right fun h => by rw [cubic_passes t hP E h]

theorem cubicHits_length (t : Tol) {P : Z3} (hP : P ∈ cubicLaue) (E : Matrix (Fin 3) (Fin 3) ℝ) :
    (cubicHits t (toR P * E)).length = (cubicHits t E).length := by
  obtain ⟨h1, h2⟩ := cubic_transpose P hP
  have hinj : Function.Injective fun M : Z3 => P * M * Pᵀ := by
    intro A B h
    have := congrArg (fun X => Pᵀ * X * P) h
    simp only [Matrix.mul_assoc, h1, Matrix.mul_one] at this
    simpa only [← Matrix.mul_assoc, h1, Matrix.one_mul] using this
  have hnd : (cubicHits t E).Nodup := cubic_nodup.filter _
  have hnd' : (cubicHits t (toR P * E)).Nodup := cubic_nodup.filter _
  have hp : ((cubicHits t E).map fun M : Z3 => P * M * Pᵀ).Perm (cubicHits t (toR P * E)) := by
    refine (List.perm_ext_iff_of_nodup ((List.nodup_map_iff hinj).mpr hnd) hnd').mpr fun A => ?_
    have hA : P * (Pᵀ * A * P) * Pᵀ = A := by
      have h3 : P * Pᵀ = 1 := mul_eq_one_comm.mp h1
      rw [show P * (Pᵀ * A * P) * Pᵀ = (P * Pᵀ) * A * (P * Pᵀ) by simp only [Matrix.mul_assoc], h3, Matrix.one_mul,
        Matrix.mul_one]
    constructor
    · intro h
      obtain ⟨M, hM, rfl⟩ := List.mem_map.mp h
      exact (cubicHits_turn t hP E M).mpr hM
    · intro h
      rw [← hA] at h
      exact List.mem_map.mpr ⟨_, (cubicHits_turn t hP E _).mp h, hA⟩
  rw [← hp.length_eq, List.length_map]

/-- C94, the choice of the axes: turning a lattice by one of the rotations of the cube (so that, for instance, the
tetragonal axis lies along `x` and not along `z`) does not change `special_lattice_group`, with every tolerance,
unless the lattice keeps exactly four elements of the table of the cube (then the program tries the hexagonal
table, which prefers the `z` axis). -/
theorem C94_axes (t : Tol) {P : Z3} (hP : P ∈ cubicLaue) {E : Matrix (Fin 3) (Fin 3) ℝ} (hE : E.det ≠ 0)
    (h4 : ∀ g, Lat.filter t ⟨3, E⟩ (cubicLaue.map .int) = .ok g → g.length ≠ 4) :
    SameMembers (Lat.specialLatticeGroup t ⟨3, E⟩) (Lat.specialLatticeGroup t ⟨3, toR P * E⟩) := by
  have hR := cubic_isOrtho hP
  have hE' : (toR P * E).det ≠ 0 := fun h => hE ((turned_det hR E).mp h)
  have hl : ((cubicHits t E).map toR).length ≠ 4 := h4 _ (cubicHits_filter t hE)
  have hl' : ((cubicHits t (toR P * E)).map toR).length ≠ 4 := by
    rw [List.length_map] at hl ⊢
    rwa [cubicHits_length t hP]
  have hg : Lat.laueGroup t ⟨3, E⟩ = .ok ((cubicHits t E).map toR) := by
    rw [laueGroup_three, Lat.select, cubicHits_filter t hE]
    exact if_neg hl
  have hg' : Lat.laueGroup t ⟨3, toR P * E⟩ = .ok ((cubicHits t (toR P * E)).map toR) := by
    rw [laueGroup_three, Lat.select, cubicHits_filter t hE']
    exact if_neg hl'
  refine ⟨_, _, by simp only [Lat.specialLatticeGroup, hg]; rfl, by simp only [Lat.specialLatticeGroup, hg']; rfl,
    sameMembers_of_turn (N := 3) hR fun Q => ?_⟩
  simp only [List.mem_map]
  constructor
  · rintro ⟨M, hM, h⟩
    have hM2 : P * (Pᵀ * M * P) * Pᵀ = M := by
      have h3 : P * Pᵀ = 1 := mul_eq_one_comm.mp (cubic_transpose P hP).1
      rw [show P * (Pᵀ * M * P) * Pᵀ = (P * Pᵀ) * M * (P * Pᵀ) by simp only [Matrix.mul_assoc], h3, Matrix.one_mul,
        Matrix.mul_one]
    refine ⟨Pᵀ * M * P, (cubicHits_turn t hP E _).mp (by rwa [hM2]), ?_⟩
    rw [toR_mul, toR_mul, h, toR_transpose]
    have := show (toR P)ᵀ * toR P = 1 from hR
    calc (toR P)ᵀ * (toR P * Q * (toR P)ᵀ) * toR P = ((toR P)ᵀ * toR P) * Q * ((toR P)ᵀ * toR P) := by
          simp only [Matrix.mul_assoc]
      _ = Q := by rw [this, Matrix.one_mul, Matrix.mul_one]
  · rintro ⟨M, hM, rfl⟩
    exact ⟨P * M * Pᵀ, (cubicHits_turn t hP E M).mpr hM, by rw [toR_mul, toR_mul, toR_transpose]⟩

/-! ### The optimisation in one sublattice -/

theorem eqlatcor_members {n : ℕ} {A A' B B' : List (Matrix (Fin n) (Fin n) ℤ)} (hA : ∀ M, M ∈ A ↔ M ∈ A')
    (hB : ∀ M, M ∈ B ↔ M ∈ B') : eqlatcor A B = eqlatcor A' B' := by
  funext L
  ext X
  simp only [eqlatcor, List.mem_toFinset, List.mem_flatMap, List.mem_map, hA, hB]

theorem optDist_turned {R1 R2 : Matrix (Fin 3) (Fin 3) ℝ} (h1 : IsOrtho R1) (h2 : IsOrtho R2)
    {eig eig' : Matrix (Fin 3) (Fin 3) ℝ → Fin 3 → ℝ}
    (heig : ∀ A : Matrix (Fin 3) (Fin 3) ℝ, Aᵀ = A → IsEigenvalues A (eig A))
    (heig' : ∀ A : Matrix (Fin 3) (Fin 3) ℝ, Aᵀ = A → IsEigenvalues A (eig' A))
    (E1 E2 : Matrix (Fin 3) (Fin 3) ℝ) (name : String) :
    optDist eig' (R1 * E1) (R2 * E2) name = optDist eig E1 E2 name := by
  simp only [optDist, C94_eric_dist h1 h2, C94_strain_dist heig heig' h1 h2, C94_cauchy_dist h1 h2, turned_det h2]

/-- C94, `lat_opt`: the correspondences and the distances it returns do not depend on how the two crystals are
turned, provided the program finds the same integer symmetries in both positions (see `C94_axes` and
`C94_special_lattice_group_partial`; for the second crystal they may also be given).  Missing: the program does not
always find the same symmetries (`C94_groups_fails`). -/
theorem C94_lat_opt_partial (t : Tol) {R1 R2 : Matrix (Fin 3) (Fin 3) ℝ} (h1 : IsOrtho R1) (h2 : IsOrtho R2)
    {eig eig' : Matrix (Fin 3) (Fin 3) ℝ → Fin 3 → ℝ}
    (heig : ∀ A : Matrix (Fin 3) (Fin 3) ℝ, Aᵀ = A → IsEigenvalues A (eig A))
    (heig' : ∀ A : Matrix (Fin 3) (Fin 3) ℝ, Aᵀ = A → IsEigenvalues A (eig' A)) (F : ℕ)
    (E1 E2 : Matrix (Fin 3) (Fin 3) ℝ) (kw : OptKw)
    (hg1 : SameMembers (Lat.specialLatticeGroup t ⟨3, E1⟩) (Lat.specialLatticeGroup t ⟨3, R1 * E1⟩))
    (hg2 : (∃ g, kw.solg2 = some g) ∨
      SameMembers (Lat.specialLatticeGroup t ⟨3, E2⟩) (Lat.specialLatticeGroup t ⟨3, R2 * E2⟩)) :
    latOpt t eig' F (R1 * E1) (R2 * E2) kw = latOpt t eig F E1 E2 kw := by
  by_cases h : E1.det = 0
  · have h' := (turned_det h1 E1).mpr h
    simp only [latOpt, h, h', if_true]
  have h' : ¬ (R1 * E1).det = 0 := fun hh => h ((turned_det h1 E1).mp hh)
  have hl := C89_lll_similar h (turned_similar h1)
  obtain ⟨g, g', e, e', hm⟩ := hg1
  simp only [latOpt, h, h', if_false, hl, optDist_turned h1 h2 heig heig', Lat.getspeciallatticegroup, e, e',
    turned_det h2]
  cases hL : lll E1 with
  | pair B b => rfl
  | base B =>
    simp only [LLLResult.map, turned_ratio h1]
    cases hk : kw.solg2 with
    | some s =>
      cases optDist eig E1 E2 (kw.dist.getD "Cauchy") with
      | error e => rfl
      | ok d =>
        cases d with
        | none => rfl
        | some d => simp only [eqlatcor_members hm (fun M => Iff.rfl)]
    | none =>
      obtain ⟨s, s', e2, e2', hm2⟩ := hg2.resolve_left (fun ⟨x, hx⟩ => by rw [hk] at hx; cases hx)
      cases optDist eig E1 E2 (kw.dist.getD "Cauchy") with
      | error e => rfl
      | ok d =>
        by_cases hd : E2.det = 0
        · simp only [hd, if_true]
        · simp only [hd, if_false, e2, e2']
          cases d with
          | none => rfl
          | some d => simp only [eqlatcor_members hm hm2]

/-! ### Examples, and where the groups differ -/

/-- A tetragonal cell, twice as high as wide. -/
noncomputable def tallCell : Matrix (Fin 3) (Fin 3) ℝ := Matrix.diagonal ![1, 1, 2]

theorem tallCell_det : tallCell.det ≠ 0 := by
  simp [tallCell, Matrix.det_diagonal, Fin.prod_univ_three]

theorem tallCell_inv : tallCell⁻¹ = Matrix.diagonal ![1, 1, 1 / 2] := by
  apply Matrix.inv_eq_left_inv
  rw [tallCell, Matrix.diagonal_mul_diagonal, ← Matrix.diagonal_one]
  congr 1
  ext i
  fin_cases i <;> simp

theorem tallCell_hit {M : Z3} (h : M * Mᵀ = 1) (hz : M 0 2 = 0 ∧ M 1 2 = 0 ∧ M 2 0 = 0 ∧ M 2 1 = 0) :
    passes .exact tallCell (.int M) = true := by
  refine (passes_exact tallCell_det _).mpr ((inPointGroup_iff tallCell_det).mpr ⟨?_, ?_⟩)
  · change toR M * (toR M)ᵀ = 1
    rw [← toR_transpose, ← toR_mul, h, toR_one]
  · change IsIntegral (tallCell⁻¹ * (toR M * tallCell))
    intro i j
    rw [tallCell_inv, tallCell, Matrix.diagonal_mul, Matrix.mul_diagonal]
    refine ⟨M i j, ?_⟩
    obtain ⟨h1, h2, h3, h4⟩ := hz
    fin_cases i <;> fin_cases j <;> simp [toR, h1, h2, h3, h4]
    ring

theorem tallCell_count : ∀ g, Lat.filter .exact ⟨3, tallCell⟩ (cubicLaue.map .int) = .ok g → g.length ≠ 4 := by
  intro g hg
  rw [cubicHits_filter _ tallCell_det] at hg
  injection hg with hg
  subst hg
  rw [List.length_map]
  have hsub : [!![1, 0, 0; 0, 1, 0; 0, 0, 1], !![0, -1, 0; 1, 0, 0; 0, 0, 1], !![-1, 0, 0; 0, -1, 0; 0, 0, 1],
      !![0, 1, 0; -1, 0, 0; 0, 0, 1], !![1, 0, 0; 0, -1, 0; 0, 0, -1]] ⊆ cubicHits .exact tallCell := by
    intro M hM
    refine List.mem_filter.mpr ⟨?_, ?_⟩
    · revert M
      unfold cubicLaue
      decide +kernel
    · have : ∀ M ∈ [(!![1, 0, 0; 0, 1, 0; 0, 0, 1] : Z3), !![0, -1, 0; 1, 0, 0; 0, 0, 1],
          !![-1, 0, 0; 0, -1, 0; 0, 0, 1], !![0, 1, 0; -1, 0, 0; 0, 0, 1], !![1, 0, 0; 0, -1, 0; 0, 0, -1]],
          M * Mᵀ = 1 ∧ (M 0 2 = 0 ∧ M 1 2 = 0 ∧ M 2 0 = 0 ∧ M 2 1 = 0) := by decide +kernel
      exact tallCell_hit (this M hM).1 (this M hM).2
  have hle := (List.subperm_of_subset (by decide +kernel) hsub).length_le
  simp only [List.length_cons, List.length_nil] at hle
  omega

/-- The rotation of the cube that carries `z` to `x`, `x` to `y` and `y` to `z`. -/
def cycle3 : Z3 := !![0, 0, 1; 1, 0, 0; 0, 1, 0]

theorem cycle3_cubic : cycle3 ∈ cubicLaue := by
  unfold cubicLaue
  decide +kernel

-- the tetragonal cell with its long axis along `x`
example : SameMembers (Lat.specialLatticeGroup .exact ⟨3, tallCell⟩)
    (Lat.specialLatticeGroup .exact ⟨3, toR cycle3 * tallCell⟩) :=
  C94_axes .exact cycle3_cubic tallCell_det tallCell_count

-- the same for `lat_opt`, with the second crystal turned by an arbitrary angle about `z`
example {eig : Matrix (Fin 3) (Fin 3) ℝ → Fin 3 → ℝ}
    (heig : ∀ A : Matrix (Fin 3) (Fin 3) ℝ, Aᵀ = A → IsEigenvalues A (eig A)) (F : ℕ) :
    latOpt .exact eig F (toR cycle3 * tallCell) (turn345 * 1) ⟨some 2, none, none, some "strain", some [1]⟩
      = latOpt .exact eig F tallCell 1 ⟨some 2, none, none, some "strain", some [1]⟩ :=
  C94_lat_opt_partial .exact (cubic_isOrtho cycle3_cubic) turn345_ortho heig heig F _ _ _
    (C94_axes .exact cycle3_cubic tallCell_det tallCell_count) (.inl ⟨_, rfl⟩)

/-- The quarter turn about `x`. -/
def quarterX : Z3 := !![1, 0, 0; 0, 0, -1; 0, 1, 0]

/-- C94 fails for the groups: the simple cubic lattice has the quarter turn about its first base vector as a symmetry,
but `special_lattice_group` does not list it once the lattice is turned by the angle of the 3-4-5 triangle about
its third axis.  (The tables contain only rotations about the axes of the frame.) -/
theorem C94_groups_fails (t : Tol) (ht : t = .code ∨ t = .exact) :
    IsOrtho turn345 ∧ ∃ g g', Lat.specialLatticeGroup t ⟨3, 1⟩ = .ok g ∧
      Lat.specialLatticeGroup t ⟨3, turn345 * 1⟩ = .ok g' ∧ quarterX ∈ g ∧ quarterX ∉ g' := by
  refine ⟨turn345_ortho, ?_⟩
  have htol : TolOK t := by rcases ht with rfl | rfl; exacts [tolOK_code, tolOK_exact]
  have hE1 : (1 : Matrix (Fin 3) (Fin 3) ℝ).det ≠ 0 := by simp
  have hE : (turn345 * 1).det ≠ 0 := fun h => hE1 ((turned_det turn345_ortho 1).mp h)
  have hall : cubicHits t 1 = cubicLaue := List.filter_eq_self.mpr fun M hM =>
    passes_of_sym htol hE1 _ (inPointGroup_unit (cubic_ortho M hM))
  have hg : Lat.laueGroup t ⟨3, 1⟩ = .ok (cubicLaue.map toR) := by
    rw [laueGroup_three, Lat.select, cubicHits_filter t hE1, hall]
    refine if_neg ?_
    rw [List.length_map]
    unfold cubicLaue
    decide
  obtain ⟨T, hT, hg'⟩ := select_ok t hE (cubicLaue.map .int) hexLaue 4
  rw [← laueGroup_three] at hg'
  refine ⟨_, _, by simp only [Lat.specialLatticeGroup, hg]; rfl, by simp only [Lat.specialLatticeGroup, hg']; rfl,
    ?_, ?_⟩
  · refine List.mem_map.mpr ⟨toR quarterX, List.mem_map.mpr ⟨quarterX, by unfold cubicLaue; decide +kernel, rfl⟩, ?_⟩
    simp only [Lat.conj, inv_one, Matrix.one_mul, Matrix.mul_one, rintMat_toR]
  · intro hmem
    obtain ⟨Q, hQ, hc⟩ := List.mem_map.mp hmem
    obtain ⟨Q, hQf, rfl⟩ := List.mem_map.mp hQ
    obtain ⟨hQT, hp⟩ := List.mem_filter.mp hQf
    have hE2 : ∀ X : Matrix (Fin 3) (Fin 3) ℝ, (turn345 * 1)⁻¹ * (X * (turn345 * 1)) = turn345ᵀ * X * turn345 := by
      intro X
      rw [turned_inv turn345_ortho, inv_one, Matrix.one_mul, Matrix.mul_one, Matrix.mul_assoc]
    have h22 : ∀ X : Matrix (Fin 3) (Fin 3) ℝ, (turn345ᵀ * X * turn345) 2 2 = X 2 2 := by
      intro X
      simp [turn345, Matrix.mul_apply, Fin.sum_univ_three]
    have h00 : ∀ X : Matrix (Fin 3) (Fin 3) ℝ, (turn345ᵀ * X * turn345) 0 0
        = (9 * X 0 0 - 12 * (X 0 1 + X 1 0) + 16 * X 1 1) / 25 := by
      intro X
      simp [turn345, Matrix.mul_apply, Fin.sum_univ_three]
      ring
    have hc22 : roundEven (Q.val 2 2) = 0 := by
      have : roundEven (((turn345 * 1)⁻¹ * (Q.val * (turn345 * 1)) : Matrix (Fin 3) (Fin 3) ℝ) 2 2) = 0 :=
        congrFun (congrFun hc 2) 2
      rwa [hE2, h22] at this
    have hc00 : roundEven ((turn345ᵀ * Q.val * turn345) 0 0) = 1 := by
      have : roundEven (((turn345 * 1)⁻¹ * (Q.val * (turn345 * 1)) : Matrix (Fin 3) (Fin 3) ℝ) 0 0) = 1 :=
        congrFun (congrFun hc 0) 0
      rwa [hE2] at this
    rcases hT with rfl | rfl
    · obtain ⟨M, hM, rfl⟩ := List.mem_map.mp hQT
      have hz : M 2 2 = 0 := by
        have e : (NMat.int M).val 2 2 = (M 2 2 : ℝ) := rfl
        rwa [e, roundEven_intCast] at hc22
      have hv : ∀ M ∈ cubicLaue, M 2 2 = 0 →
          9 * M 0 0 - 12 * (M 0 1 + M 1 0) + 16 * M 1 1 ≤ 12 ∨
          9 * M 0 0 - 12 * (M 0 1 + M 1 0) + 16 * M 1 1 = 16 := by
        unfold cubicLaue
        decide +kernel
      have e : (turn345ᵀ * (NMat.int M).val * turn345) 0 0
          = ((9 * M 0 0 - 12 * (M 0 1 + M 1 0) + 16 * M 1 1 : ℤ) : ℝ) / 25 := by
        rw [h00]
        simp [NMat.val]
      rcases hv M hM hz with h | h
      · have hn := roundEven_near ((turn345ᵀ * (NMat.int M).val * turn345) 0 0)
        rw [hc00, e] at hn
        have h' : ((9 * M 0 0 - 12 * (M 0 1 + M 1 0) + 16 * M 1 1 : ℤ) : ℝ) ≤ 12 := by exact_mod_cast h
        have := (abs_le.mp hn).1
        push_cast at this h'
        linarith
      · have hf : FarInt (((turn345 * 1)⁻¹ * ((NMat.int M).val * (turn345 * 1)) : Matrix (Fin 3) (Fin 3) ℝ) 0 0) := by
          rw [hE2, e, h]
          exact ⟨0, by norm_num, by norm_num, by norm_num⟩
        rw [passes_far ht hf] at hp
        cases hp
    · have hh : ∀ Q ∈ hexLaue, Q.val 2 2 = 1 ∨ Q.val 2 2 = -1 := by
        simp [hexLaue, NMat.val]
      rcases hh Q hQT with h | h
      · rw [h, show (1 : ℝ) = ((1 : ℤ) : ℝ) by norm_num, roundEven_intCast] at hc22
        omega
      · rw [h, show (-1 : ℝ) = ((-1 : ℤ) : ℝ) by norm_num, roundEven_intCast] at hc22
        omega

end Verif.Props
