import Verif.Spec.Trigonal
import Verif.Props.FaceTwins

/-!
# Cubic to trigonal transformations

C109: four variants, each two of them compound twins with a cube face and a face diagonal plane.  The planes of the
compound twins of C108.
-/

namespace Verif.Props

open Matrix Verif.Model Verif.Spec Verif.Lemmas

local notation "Mat3" => Matrix (Fin 3) (Fin 3) ℝ

variable {g a e d : ℝ} {t : Tol} {i j k : Fin 3} {s s' : Fin 3 → ℝ}

/-! ### the planes of compound twins -/

/-- `p` is twinnable and compound; `twinparam()` returns, up to rounding, two twins, one with the plane of normal `u` and one
with the plane of normal `v`, and every solution of the twinning equation is one of these, up to the sign of shear and
normal. -/
def PlaneTwins (eig : Mat3 → EigRes) (t : Tol) (rnd : ℝ → ℝ) (p : TwinPair) (U V : Mat3) (u v : V3) : Prop :=
  p.isTwinnable = true ∧ p.isCompound = .ok true ∧ p.isTypeI = .ok false ∧
    ∃ Q₁ a₁ n₁ Q₂ a₂ n₂ R₁ R₂, p.twinParam eig t rnd false = .ok (some
        (some (R₁, (fun l => rnd (a₁ l)), fun l => rnd (n₁ l)),
         some (R₂, (fun l => rnd (a₂ l)), fun l => rnd (n₂ l)))) ∧
      R₁ * V - U = vecMulVec (fun l => rnd (a₁ l)) (fun l => rnd (n₁ l)) ∧
      R₂ * V - U = vecMulVec (fun l => rnd (a₂ l)) (fun l => rnd (n₂ l)) ∧
      SolvesTwin U V Q₁ a₁ n₁ ∧ SolvesTwin U V Q₂ a₂ n₂ ∧
      ((SameLine n₁ u ∧ SameLine n₂ v) ∨ (SameLine n₁ v ∧ SameLine n₂ u)) ∧
      ∀ Q a n, SolvesTwin U V Q a n → (Q = Q₁ ∧ SameUpToSign a₁ n₁ a n) ∨ (Q = Q₂ ∧ SameUpToSign a₂ n₂ a n)

theorem line_of_same {a n a' n' : V3} (h : SameUpToSign a n a' n') : SameLine n n' := by
  rcases h with ⟨-, h⟩ | ⟨-, h⟩
  · exact .inl h.symm
  · exact .inr (by rw [h, neg_neg])

theorem line_dot {n u v : V3} (h : SameLine n u) (h' : SameLine n v) (hu : u ⬝ᵥ u = 1) : u ⬝ᵥ v ≠ 0 := by
  rcases h with rfl | rfl <;> rcases h' with h' | h'
  · rw [← h', hu]; norm_num
  · rw [← neg_eq_iff_eq_neg] at h'
    rw [← h', dotProduct_neg, hu]; norm_num
  · rw [← h', dotProduct_neg, hu]; norm_num
  · rw [← neg_inj.1 h', hu]; norm_num

theorem compound_planes {eig : Mat3 → EigRes} {rnd : ℝ → ℝ} {p : TwinPair} {U V : Mat3} {u v : V3} (hU : IsSPD U)
    (h : CompoundTwins eig t rnd p U V) (hu : IsTwinAxis U V u) (hv : IsTwinAxis U V v) (huv : u ⬝ᵥ v = 0) :
    PlaneTwins eig t rnd p U V u v := by
  obtain ⟨h1, h2, h3, Q₁, a₁, n₁, Q₂, a₂, n₂, R₁, R₂, h4, h5, h6, h7, h8, -, h9⟩ := h
  refine ⟨h1, h2, h3, Q₁, a₁, n₁, Q₂, a₂, n₂, R₁, R₂, h4, h5, h6, h7, h8, ?_, h9⟩
  obtain ⟨Q, hQ⟩ := axis_solves hU hu
  obtain ⟨Q', hQ'⟩ := axis_solves hU hv
  rcases h9 _ _ _ hQ with ⟨-, c1⟩ | ⟨-, c1⟩ <;> rcases h9 _ _ _ hQ' with ⟨-, c2⟩ | ⟨-, c2⟩
  · exact absurd huv (line_dot (line_of_same c1) (line_of_same c2) hu.1)
  · exact .inl ⟨line_of_same c1, line_of_same c2⟩
  · exact .inr ⟨line_of_same c2, line_of_same c1⟩
  · exact absurd huv (line_dot (line_of_same c1) (line_of_same c2) hu.1)

theorem fs_own_edge (i m : Fin 3) (hs : Signs s) (hs' : Signs s') (h : ∀ l, l ≠ m → s' m * s' l = -(s m * s l)) :
    IsTwinAxis (faceStretch g a e d i s) (faceStretch g a e d i s') (Pi.single m 1) := by
  refine ⟨by simp, ?_⟩
  rw [edgeTurn_eq]
  have h1 : ∀ l n, ((edgeTurn m l n : ℤ) : ℝ) = if n = id l then (if l = m then 1 else -1 : ℝ) else 0 := fun l n => by
    simp only [edgeTurn, Matrix.of_apply, id]
    by_cases hln : l = n
    · subst hln
      by_cases hl : l = m <;> simp [hl]
    · simp [hln, Ne.symm hln]
  rw [fs_turn (i := i) h1 (fun _ _ h => h) rfl]
  apply fs_same
  refine ⟨rfl, fun l n => ?_⟩
  have qm := signs_sq hs m
  have qm' := signs_sq hs' m
  set σ : Fin 3 → ℝ := fun l => (if l = m then 1 else -1) * s (id l) with hσ
  have key : ∀ l, σ m * σ l = s' m * s' l := fun l => by
    by_cases hl : l = m
    · subst hl; simp [hσ, qm, qm']
    · rw [h l hl]; simp [hσ, hl]
  have hm2 : σ m * σ m = 1 := by rw [key, qm']
  show σ l * σ n = s' l * s' n
  have k2 : σ l * σ n = (σ m * σ l) * (σ m * σ n) := by linear_combination (-(σ l * σ n)) * hm2
  rw [k2, key, key]
  linear_combination (s' l * s' n) * qm'

theorem fs_own_diagonal (ha : Axes i j k) (hs : Signs s) (hs' : Signs s') (h1 : s' i * s' j = -(s i * s j))
    (h2 : s' i * s' k = -(s i * s k)) :
    IsTwinAxis (faceStretch g a e d i s) (faceStretch g a e d i s') (diagonalNormal j k (s j * s k)) := by
  have qi := signs_sq hs i
  have qj := signs_sq hs j
  have qk := signs_sq hs k
  have qi' := signs_sq hs' i
  obtain ⟨z, hz, hzz⟩ : ∃ z : ℤ, (z : ℝ) = s j * s k ∧ z * z = 1 := by
    rcases signs_mul hs (fun _ => hs k) j with h | h
    · exact ⟨1, by simp only at h; rw [h]; norm_num, rfl⟩
    · exact ⟨-1, by simp only at h; rw [h]; norm_num, rfl⟩
  rw [← hz]
  refine ⟨diagonalNormal_unit ha.jk (by exact_mod_cast hzz), ?_⟩
  rw [faceTurn_eq ha.jk hzz]
  have e1 : ∀ l m, ((faceTurn j k z l m : ℤ) : ℝ) = if m = Equiv.swap j k l then (if l = i then -1 else s j * s k : ℝ) else 0 := by
    intro l m
    obtain ⟨n1, n2, n3⟩ := ha
    rcases Axes.all ⟨n1, n2, n3⟩ l with rfl | rfl | rfl <;> rcases Axes.all ⟨n1, n2, n3⟩ m with rfl | rfl | rfl <;>
      simp [faceTurn, n1, n2, n3, n1.symm, n2.symm, n3.symm, hz, Equiv.swap_apply_of_ne_of_ne]
  rw [fs_turn (i := i) e1 (fun _ _ h => (Equiv.swap j k).injective h) (Equiv.swap_apply_of_ne_of_ne ha.ij ha.ik)]
  apply fs_same
  refine ⟨rfl, fun l m => ?_⟩
  set σ : Fin 3 → ℝ := fun l => (if l = i then -1 else s j * s k) * s (Equiv.swap j k l) with hσ
  have σi : σ i = -s i := by simp [hσ, Equiv.swap_apply_of_ne_of_ne ha.ij ha.ik]
  have σj : σ j = s j := by
    simp only [hσ, ha.ij.symm, if_false, Equiv.swap_apply_left]; linear_combination (s j) * qk
  have σk : σ k = s k := by
    simp only [hσ, ha.ik.symm, if_false, Equiv.swap_apply_right]; linear_combination (s k) * qj
  have key : ∀ l, σ i * σ l = s' i * s' l := fun l => by
    rcases ha.all l with rfl | rfl | rfl
    · rw [σi, qi']; linear_combination qi
    · rw [σi, σj, h1]; ring
    · rw [σi, σk, h2]; ring
  have hi2 : σ i * σ i = 1 := by rw [key, qi']
  have k2 : σ l * σ m = (σ i * σ l) * (σ i * σ m) := by linear_combination (-(σ l * σ m)) * hi2
  show σ l * σ m = s' l * s' m
  rw [k2, key, key]
  linear_combination (s' l * s' m) * qi'

theorem edge_diagonal_orth (ha : Axes i j k) (σ : ℝ) : (Pi.single i 1 : V3) ⬝ᵥ diagonalNormal j k σ = 0 := by
  rw [single_one_dotProduct, diagonalNormal, if_neg ha.ij, if_neg ha.ik, zero_div]

/-- **C108**, the planes of the compound pairs: the cube face of `i` and a face diagonal plane that contains this axis. -/
theorem C108_planes (eig : Mat3 → EigRes) (heig : ∀ A, Aᵀ = A → EigOK (eig A).vals (eig A).vecs A)
    (ht : t = .code ∨ t = .exact) (rnd : ℝ → ℝ) (h : ClearlyFaceDiagonal g a e d)
    (hij : i ≠ j) (hik : i ≠ k) (hjk : j ≠ k) (hs : Signs s) (hs' : Signs s')
    (h1 : s' i * s' j = -(s i * s j)) (h2 : s' i * s' k = -(s i * s k)) (skip : Bool) :
    ∃ P, TwinPair.new eig (faceStretch g a e d i s) (faceStretch g a e d i s') skip = .ok P ∧
      PlaneTwins eig t rnd P (faceStretch g a e d i s) (faceStretch g a e d i s') (Pi.single i 1)
        (diagonalNormal j k (s j * s k)) := by
  have ha : Axes i j k := ⟨hij, hik, hjk⟩
  obtain ⟨P, g1, g2⟩ := C108_compound eig heig ht rnd h hij hik hjk hs hs' h1 h2 skip
  refine ⟨P, g1, compound_planes (small_spd (fs_small h hs)) g2 (fs_own_edge i i hs hs' fun l hl => ?_)
    (fs_own_diagonal ha hs hs' h1 h2) (edge_diagonal_orth ha _)⟩
  rcases ha.all l with rfl | rfl | rfl
  · exact absurd rfl hl
  · exact h1
  · exact h2

/-! ### trigonal stretches -/

theorem trigonal_fs (hs : Signs s) (i : Fin 3) : trigonalStretch a e s = faceStretch a a e e i s := by
  ext l m
  by_cases h : l = m
  · subst h; simp [trigonalStretch, faceStretch, signs_sq hs]
  · simp [trigonalStretch, faceStretch, h]

theorem trig_small (h : ClearlyTrigonal a e) (hs : Signs s) : SmallStretch (trigonalStretch a e s) := by
  rw [trigonal_fs hs 0]
  refine ⟨fs_transpose, fun l => ?_⟩
  rw [← trigonal_fs hs 0, trigonal_fs hs l]
  obtain ⟨j, k, ha⟩ := other_axes l
  obtain ⟨e1, e2, e3, -⟩ := fs_at ha hs a a e e
  have h1 := h.row
  rw [ha.sum]
  simp only [Matrix.sub_apply, e1, e2, e3, Matrix.one_apply_eq, Matrix.one_apply_ne ha.ij, Matrix.one_apply_ne ha.ik, sub_zero,
    abs_mul, signs_abs hs, one_mul]
  linarith

theorem trig_gap (h : ClearlyTrigonal a e) (hs : Signs s) (hs' : Signs s') :
    (∀ l m, s l * s m = s' l * s' m) ∨ ∃ l m, 1 / 100 ≤ |trigonalStretch a e s l m - trigonalStretch a e s' l m| := by
  by_cases hl : ∃ l m, s l * s m ≠ s' l * s' m
  · obtain ⟨l, m, hn⟩ := hl
    refine .inr ⟨l, m, ?_⟩
    have hlm : l ≠ m := by
      rintro rfl
      rw [signs_sq hs, signs_sq hs'] at hn
      exact hn rfl
    have hop := sign_opposite (signs_mul hs (fun _ => hs m) l) (signs_mul hs' (fun _ => hs' m) l) hn
    simp only at hop
    have h1 := h.shear
    simp only [trigonalStretch, Matrix.of_apply, if_neg hlm]
    rw [hop, show -(s' l * s' m) * e - s' l * s' m * e = -2 * (s' l * s' m * e) by ring, abs_mul, abs_mul, abs_mul,
      signs_abs hs', signs_abs hs']
    norm_num
    linarith
  · push Not at hl
    exact .inl hl

theorem trig_same (h : ∀ l m, s l * s m = s' l * s' m) : trigonalStretch a e s = trigonalStretch a e s' := by
  ext l m
  simp only [trigonalStretch, Matrix.of_apply, h]

theorem trig_clear (h : ClearlyTrigonal a e) (hs : Signs s) : ClearSymmetry (trigonalStretch a e s) := by
  intro R hR
  rw [realOf_eq]
  obtain ⟨i', s', hs', he⟩ := fs_orbit (cube_iff.1 hR) 0 hs
  have : toR R * trigonalStretch a e s * (toR R)ᵀ = trigonalStretch a e s' := by
    rw [trigonal_fs hs 0, he, ← trigonal_fs hs' i']
  rw [this]
  rcases trig_gap h hs' hs with h1 | ⟨l, m, h1⟩
  · exact .inl (trig_same h1)
  · exact .inr ⟨l, m, le_trans (by norm_num) h1⟩

/-- the signs that a pair of truth values stands for -/
noncomputable def trigSigns (x : Bool × Bool) : Fin 3 → ℝ := faceSigns (0, x)

theorem trig_index (hs : Signs s) : ∃ x : Bool × Bool, ∀ a e, trigonalStretch a e s = trigonalStretch a e (trigSigns x) := by
  obtain ⟨x, h0, hx⟩ := face_index 0 hs
  refine ⟨x.2, fun a e => ?_⟩
  have h1 : trigSigns x.2 = faceSigns x := rfl
  rw [h1, trigonal_fs hs 0, hx, trigonal_fs (faceSigns_ok x) x.1]

theorem trig_injective (h : ClearlyTrigonal a e) : Function.Injective fun x : Bool × Bool => trigonalStretch a e (trigSigns x) := by
  rintro ⟨b, c⟩ ⟨b', c'⟩ hxy
  rcases trig_gap h (faceSigns_ok (0, b, c)) (faceSigns_ok (0, b', c')) with h2 | ⟨l, m, h1⟩
  · have e1 : (1 : ℝ) * (signZ b : ℝ) = 1 * (signZ b' : ℝ) := h2 0 1
    have e2 : (1 : ℝ) * (signZ c : ℝ) = 1 * (signZ c' : ℝ) := h2 0 2
    cases b <;> cases b' <;> cases c <;> cases c' <;> first | rfl | (exfalso; norm_num [signZ] at e1; done) |
      (exfalso; norm_num [signZ] at e2; done)
  · simp only [trigSigns] at hxy
    rw [hxy, sub_self, abs_zero] at h1
    norm_num at h1

theorem trig_variants (ht : t = .code ∨ t = .exact) (h : ClearlyTrigonal a e) (hs : Signs s) :
    ∃ vs, Mart.getVariants t ⟨some (trigonalStretch a e s), cubicR⟩ = .ok vs ∧ vs.length = 4 ∧ vs.Nodup ∧
      vs.head? = some (trigonalStretch a e s) ∧
      (∀ V, V ∈ vs ↔ ∃ s', Signs s' ∧ V = trigonalStretch a e s') ∧
      ∀ V, V ∈ vs ↔ ∃ x : Bool × Bool, V = trigonalStretch a e (trigSigns x) := by
  obtain ⟨lg, vs, idx, -, -, h1, -, h2, h3, -⟩ := C107_variants (trig_small h hs) (clear_for ht (trig_clear h hs))
  have m1 : ∀ V, V ∈ vs ↔ ∃ s', Signs s' ∧ V = trigonalStretch a e s' := fun V => by
    rw [h3]
    constructor
    · rintro ⟨R, hR, rfl⟩
      obtain ⟨i', s', g1, g2⟩ := fs_orbit (cube_iff.1 hR) 0 hs
      refine ⟨s', g1, ?_⟩
      rw [realOf_eq, trigonal_fs hs 0, g2, ← trigonal_fs g1 i']
    · rintro ⟨s', g1, rfl⟩
      obtain ⟨R, hR, g2⟩ := fs_transitive 0 0 hs g1
      refine ⟨R, cube_iff.2 hR, ?_⟩
      rw [realOf_eq, trigonal_fs hs 0, g2, ← trigonal_fs g1 0]
  have m2 : ∀ V, V ∈ vs ↔ ∃ x : Bool × Bool, V = trigonalStretch a e (trigSigns x) := fun V => by
    rw [m1]
    constructor
    · rintro ⟨s', g1, rfl⟩
      obtain ⟨x, g2⟩ := trig_index g1
      exact ⟨x, g2 _ _⟩
    · rintro ⟨x, rfl⟩
      exact ⟨trigSigns x, faceSigns_ok (0, x), rfl⟩
  refine ⟨vs, h1, ?_, h2.nodup, h2.first, m1, m2⟩
  classical
  rw [← List.toFinset_card_of_nodup h2.nodup]
  have : vs.toFinset = Finset.univ.image fun x : Bool × Bool => trigonalStretch a e (trigSigns x) := by
    ext V
    rw [List.mem_toFinset, m2, Finset.mem_image]
    exact ⟨fun ⟨x, hx⟩ => ⟨x, Finset.mem_univ _, hx.symm⟩, fun ⟨x, _, hx⟩ => ⟨x, hx.symm⟩⟩
  rw [this, Finset.card_image_of_injective _ (trig_injective h)]
  rfl

/-- **C109**, variants: one for each of the four space diagonals, the given one first. -/
theorem C109_variants (ht : t = .code ∨ t = .exact) (h : ClearlyTrigonal a e) (hs : Signs s) :
    ∃ vs, Mart.getVariants t ⟨some (trigonalStretch a e s), cubicR⟩ = .ok vs ∧ vs.length = 4 ∧ vs.Nodup ∧
      vs.head? = some (trigonalStretch a e s) ∧ ∀ V, V ∈ vs ↔ ∃ s', Signs s' ∧ V = trigonalStretch a e s' := by
  obtain ⟨vs, h1, h2, h3, h4, h5, -⟩ := trig_variants ht h hs
  exact ⟨vs, h1, h2, h3, h4, h5⟩

/-- two different space diagonals differ in the sign of one axis -/
theorem odd_axis (hs : Signs s) (hs' : Signs s') (hne : ¬ ∀ l m, s l * s m = s' l * s' m) :
    ∃ i, ∀ l, l ≠ i → s' i * s' l = -(s i * s l) := by
  have hpm : ∀ l m, s' l * s' m = s l * s m ∨ s' l * s' m = -(s l * s m) := fun l m => by
    by_cases h : s' l * s' m = s l * s m
    · exact .inl h
    · exact .inr (sign_opposite (signs_mul hs' (fun _ => hs' m) l) (signs_mul hs (fun _ => hs m) l) h)
  have prod : ∀ l m n, s' l * s' m = (s' n * s' l) * (s' n * s' m) := fun l m n => by
    linear_combination (-(s' l * s' m)) * signs_sq hs' n
  have prod' : ∀ l m n, s l * s m = (s n * s l) * (s n * s m) := fun l m n => by
    linear_combination (-(s l * s m)) * signs_sq hs n
  obtain ⟨j, k, ha⟩ := other_axes 0
  have fin : ∀ {i j k : Fin 3}, Axes i j k → s' i * s' j = -(s i * s j) → s' i * s' k = -(s i * s k) →
      ∃ i, ∀ l, l ≠ i → s' i * s' l = -(s i * s l) := fun {i j k} ha h1 h2 => ⟨i, fun l hl => by
    rcases ha.all l with rfl | rfl | rfl
    · exact absurd rfl hl
    · exact h1
    · exact h2⟩
  rcases hpm 0 j with h1 | h1 <;> rcases hpm 0 k with h2 | h2
  · exfalso
    apply hne
    have key : ∀ l, s' 0 * s' l = s 0 * s l := fun l => by
      rcases ha.all l with rfl | rfl | rfl
      · rw [signs_sq hs, signs_sq hs']
      · exact h1
      · exact h2
    intro l m
    rw [prod l m 0, prod' l m 0, key, key]
  · refine fin (i := k) (j := 0) (k := j) ⟨ha.ik.symm, ha.jk.symm, ha.ij⟩ (by rw [mul_comm, h2]; ring) ?_
    rw [prod k j 0, prod' k j 0, h1, h2]; ring
  · refine fin (i := j) (j := 0) (k := k) ⟨ha.ij.symm, ha.jk, ha.ik⟩ (by rw [mul_comm, h1]; ring) ?_
    rw [prod j k 0, prod' j k 0, h1, h2]; ring
  · exact fin ha h1 h2

/-- **C109**, two variants are compound twins: the three-fold axes differ in the sign at one cube axis `i`, and the planes
are the cube face of `i` and a face diagonal plane that contains this axis. -/
theorem C109_twins (eig : Mat3 → EigRes) (heig : ∀ A, Aᵀ = A → EigOK (eig A).vals (eig A).vecs A)
    (ht : t = .code ∨ t = .exact) (rnd : ℝ → ℝ) (h : ClearlyTrigonal a e) (hij : i ≠ j) (hik : i ≠ k) (hjk : j ≠ k)
    (hs : Signs s) (hs' : Signs s') (h1 : s' i * s' j = -(s i * s j)) (h2 : s' i * s' k = -(s i * s k)) (skip : Bool) :
    ∃ P, TwinPair.new eig (trigonalStretch a e s) (trigonalStretch a e s') skip = .ok P ∧
      PlaneTwins eig t rnd P (trigonalStretch a e s) (trigonalStretch a e s') (Pi.single i 1)
        (diagonalNormal j k (s j * s k)) := by
  have ha : Axes i j k := ⟨hij, hik, hjk⟩
  have qi := signs_sq hs i
  have qj := signs_sq hs j
  have qk := signs_sq hs k
  have qi' := signs_sq hs' i
  have h3 : s' j * s' k = s j * s k := by
    have : s' j * s' k = (s' i * s' j) * (s' i * s' k) := by linear_combination (-(s' j * s' k)) * qi'
    rw [this, h1, h2]
    linear_combination (s j * s k) * qi
  obtain ⟨vs, g1, -, -, -, g5, -⟩ := trig_variants ht h hs
  have sU := small_spd (trig_small h hs)
  have sV := small_spd (trig_small h hs')
  have hax1 : IsTwinAxis (trigonalStretch a e s) (trigonalStretch a e s') (Pi.single i 1) := by
    rw [trigonal_fs hs i, trigonal_fs hs' i]
    refine fs_own_edge i i hs hs' fun l hl => ?_
    rcases ha.all l with rfl | rfl | rfl
    · exact absurd rfl hl
    · exact h1
    · exact h2
  have hax2 : IsTwinAxis (trigonalStretch a e s) (trigonalStretch a e s') (diagonalNormal j k (s j * s k)) := by
    rw [trigonal_fs hs i, trigonal_fs hs' i]
    exact fs_own_diagonal ha hs hs' h1 h2
  have hd : ∃ l m, 1 / 10 ^ 12 ≤ |trigonalStretch a e s l m - trigonalStretch a e s' l m| := by
    rcases trig_gap h hs hs' with hc | ⟨l, m, hc⟩
    · have := hc i j
      rw [h1] at this
      have h0 : s i * s j = 0 := by linarith
      have : (s i * s j) * (s i * s j) = 1 := by linear_combination (s j * s j) * qi + qj
      rw [h0] at this
      norm_num at this
    · exact ⟨l, m, le_trans (by norm_num) hc⟩
  set u : V3 := fun l => if l = j then s j else if l = k then -s k else 0 with hu
  have ui : u i = 0 := by simp [hu, hij, hik]
  have uj : u j = s j := by simp [hu]
  have uk : u k = -s k := by simp [hu, hjk.symm]
  have hu0 : u ≠ 0 := by
    intro h0
    have := congrFun h0 j
    rw [uj, Pi.zero_apply] at this
    rw [this] at qj
    norm_num at qj
  have own : ∀ {w : Fin 3 → ℝ}, Signs w → w j * w k = s j * s k → (w i * w j = s i * s j ∧ w i * w k = s i * s k ∨
      w i * w j = -(s i * s j) ∧ w i * w k = -(s i * s k)) → trigonalStretch a e w *ᵥ u = (a - e) • u := by
    intro w hw w1 w2
    rw [trigonal_fs hw i]
    obtain ⟨r1, r2, r3⟩ := fs_vec ha hw a a e e u
    funext l
    rcases ha.all l with rfl | rfl | rfl
    · rw [r1, Pi.smul_apply, ui, uj, uk, smul_eq_mul]
      rcases w2 with ⟨w2, w3⟩ | ⟨w2, w3⟩ <;> rw [w2, w3]
      · linear_combination (s l * e) * qj - (s l * e) * qk
      · linear_combination (-(s l * e)) * qj + (s l * e) * qk
    · rw [r2, Pi.smul_apply, ui, uj, uk, smul_eq_mul, w1]
      linear_combination (-(s l * e)) * qk
    · rw [r3, Pi.smul_apply, ui, uj, uk, smul_eq_mul, w1]
      linear_combination (s l * e) * qj
  have hae : a - e ≠ 0 := by
    have r := h.row
    have r1 := neg_abs_le (a - 1)
    have r2 := le_abs_self e
    have r3 := abs_nonneg e
    linarith
  obtain ⟨P, g6, g7⟩ := compound_twins eig heig t rnd sU sV (axis_related hax1) hd hu0 hae (own hs rfl (.inl ⟨rfl, rfl⟩))
    (own hs' h3 (.inr ⟨h1, h2⟩)) g1 ((g5 _).2 ⟨s', hs', rfl⟩) skip
  exact ⟨P, g6, compound_planes sU g7 hax1 hax2 (edge_diagonal_orth ha _)⟩

/-- **C109**: the system of the four variants has six twin pairs, all of them compound and conventional. -/
theorem C109_system (eig : Mat3 → EigRes) (heig : ∀ A, Aᵀ = A → EigOK (eig A).vals (eig A).vecs A)
    (ht : t = .code ∨ t = .exact) (h : ClearlyTrigonal a e) (hs : Signs s) :
    SystemOf eig t ⟨some (trigonalStretch a e s), cubicR⟩ 6 6 0 := by
  obtain ⟨x, hx⟩ := trig_index hs
  rw [hx]
  refine system_of eig (fun x : Bool × Bool => trigonalStretch a e (trigSigns x)) (fun _ _ => true) (fun _ _ => true) ?_ ?_
    (fun _ _ => rfl) (fun _ _ => rfl) ?_ (by decide +kernel) (by decide +kernel) (by decide +kernel) x
  · intro x
    obtain ⟨vs, h1, h2, h3, -, -, h6⟩ := trig_variants ht h (faceSigns_ok (0, x))
    exact ⟨vs, h1, h2, h3, h6⟩
  · exact fun x => small_spd (trig_small h (faceSigns_ok (0, x)))
  · intro x y hxy
    have hs := faceSigns_ok (0, x)
    have hs' := faceSigns_ok (0, y)
    obtain ⟨i, hi⟩ := odd_axis hs hs' fun hc => hxy (trig_injective h (trig_same hc))
    obtain ⟨j, k, ha⟩ := other_axes i
    obtain ⟨P, h1, h2, h3, h4, -⟩ := C109_twins eig heig ht id h ha.ij ha.ik ha.jk hs hs' (hi j ha.ij.symm) (hi k ha.ik.symm) true
    exact ⟨P, h1, h2, fun _ => ⟨h3, h4⟩⟩

/-- **C109**, from the public API: setting such a stretch on a `Martensite` of cubic Laue group succeeds, the transformation is
reversible, and the twin system is the one above. -/
theorem C109_setU (eig : Mat3 → EigRes) (heig : ∀ A, Aᵀ = A → EigOK (eig A).vals (eig A).vecs A)
    (ht : t = .code ∨ t = .exact) (h : ClearlyTrigonal a e) (hs : Signs s) :
    ∃ m, Mart.setU ⟨none, cubicR⟩ [.arr (.mat 3 3 false (trigonalStretch a e s))] = .ok m ∧ m.isReversible t = .ok true ∧
      SystemOf eig t m 6 6 0 := by
  have hst := trig_small h hs
  obtain ⟨m, vs, h1, h2, h3, -⟩ := C107_setU hst (clear_for ht (trig_clear h hs))
  refine ⟨m, h1, h3, ?_⟩
  have := C109_system eig heig ht h hs
  have hm : m = ⟨some (trigonalStretch a e s), cubicR⟩ := by
    have hU : (trigonalStretch a e s).submatrix (Fin.cast (rfl : 3 = 3)) (Fin.cast (rfl : 3 = 3)) = trigonalStretch a e s := by
      ext l m; rfl
    have hp := small_spd hst
    simp only [Mart.setU, uOf, and_self, dite_true, hU] at h1
    rw [if_neg (not_not.2 hp.1.symm), if_neg (not_not.2 (spd_det_pos hp))] at h1
    cases h1
    rfl
  rw [hm]
  exact this

/-- The R-phase of Ni-Ti, with the angle of the rhombohedral cell about 89.3 degrees, meets the hypotheses, and so does each
pair of signs. -/
example : ClearlyTrigonal (1.0001 : ℝ) 0.0061 := by
  constructor <;> norm_num [abs_of_pos]

example : Signs ![1, 1, 1] ∧ Signs ![-1, 1, 1] ∧ (![(-1 : ℝ), 1, 1] 0 * ![(-1 : ℝ), 1, 1] 1 = -(![(1 : ℝ), 1, 1] 0 * ![(1 : ℝ), 1, 1] 1)) ∧
    (![(-1 : ℝ), 1, 1] 0 * ![(-1 : ℝ), 1, 1] 2 = -(![(1 : ℝ), 1, 1] 0 * ![(1 : ℝ), 1, 1] 2)) := by
  refine ⟨?_, ?_, by simp, by simp⟩ <;> intro l <;> fin_cases l <;> simp

end Verif.Props
