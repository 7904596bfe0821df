import Verif.Spec.ThreeEdges
import Verif.Props.Trigonal

/-!
# Cubic to orthorhombic transformations along the cube axes

C110: six variants; two that differ by the exchange of two axes are compound twins with the planes {110}, the others are
not twins.
-/

namespace Verif.Props

open Matrix Verif.Model Verif.Spec Verif.Lemmas

local notation "Mat3" => Matrix (Fin 3) (Fin 3) ℝ

variable {t : Tol} {i j k : Fin 3} {e : Fin 3 → ℝ}

theorem edges_small (h : ThreeEdges e) : SmallStretch (diagonal e) := by
  refine ⟨diagonal_transpose _, fun l => ?_⟩
  obtain ⟨j, k, ha⟩ := other_axes l
  rw [ha.sum]
  simp only [diagonal_apply_eq, diagonal_apply_ne _ ha.ij, diagonal_apply_ne _ ha.ik, Matrix.one_apply_eq,
    Matrix.one_apply_ne ha.ij, Matrix.one_apply_ne ha.ik, sub_zero, abs_zero, add_zero]
  exact h.near l

theorem edges_perm (h : ThreeEdges e) (σ : Equiv.Perm (Fin 3)) : ThreeEdges (e ∘ σ) :=
  ⟨fun i => h.near (σ i), fun _ _ hij => h.apart _ _ fun hc => hij (σ.injective hc)⟩

theorem edges_gap (h : ThreeEdges e) {σ : Equiv.Perm (Fin 3)} (hσ : σ ≠ 1) :
    ∃ l, 1 / 100 ≤ |diagonal (e ∘ σ) l l - diagonal e l l| := by
  have : ∃ l, σ l ≠ l := by
    by_contra hc
    push Not at hc
    exact hσ (Equiv.ext hc)
  obtain ⟨l, hl⟩ := this
  exact ⟨l, by rw [diagonal_apply_eq, diagonal_apply_eq]; exact h.apart _ _ hl⟩

theorem diagonal_turn {R : Matrix (Fin 3) (Fin 3) ℤ} {π : Fin 3 → Fin 3} {σ : Fin 3 → ℝ}
    (h : ∀ l m, (R l m : ℝ) = if m = π l then σ l else 0) (hπ : ∀ l m, π l = π m → l = m) (hσ : ∀ l, σ l * σ l = 1)
    (e : Fin 3 → ℝ) : toR R * diagonal e * (toR R)ᵀ = diagonal fun l => e (π l) := by
  ext l m
  rw [conj_signed h]
  by_cases hlm : l = m
  · subst hlm
    rw [diagonal_apply_eq, diagonal_apply_eq, hσ, one_mul]
  · rw [diagonal_apply_ne _ hlm, diagonal_apply_ne _ fun hc => hlm (hπ _ _ hc), mul_zero]

theorem diagonal_orbit {R : Matrix (Fin 3) (Fin 3) ℤ} (hR : R ∈ cubicLaue) (e : Fin 3 → ℝ) :
    ∃ σ : Equiv.Perm (Fin 3), toR R * diagonal e * (toR R)ᵀ = diagonal (e ∘ σ) := by
  obtain ⟨π, h1, h2⟩ := cubic_signed hR
  refine ⟨Equiv.ofBijective π (Finite.injective_iff_bijective.1 fun l m h => h1 l m h), ?_⟩
  refine diagonal_turn (σ := fun l => ((R l (π l) : ℤ) : ℝ)) (fun l m => ?_) h1 (fun l => ?_) e
  · by_cases hm : m = π l
    · rw [if_pos hm, hm]
    · rw [if_neg hm, (h2 l).2 m hm, Int.cast_zero]
  · rcases (h2 l).1 with h | h <;> rw [h] <;> norm_num

theorem cubic_permutes : ∀ σ : Equiv.Perm (Fin 3), ∃ R ∈ cubicLaue, ∃ b : Bool,
    R = signedAt σ ![signZ b, signZ b, signZ b] := by
  decide +kernel

theorem diagonal_reached (σ : Equiv.Perm (Fin 3)) (e : Fin 3 → ℝ) : ∃ R ∈ cubicLaue,
    toR R * diagonal e * (toR R)ᵀ = diagonal (e ∘ σ) := by
  obtain ⟨R, hR, b, h⟩ := cubic_permutes σ
  refine ⟨R, hR, diagonal_turn (π := σ) (σ := fun _ => ((signZ b : ℤ) : ℝ)) (fun l m => ?_)
    (fun l m h => σ.injective h) (fun l => ?_) e⟩
  · have h3 : (![signZ b, signZ b, signZ b] : Fin 3 → ℤ) l = signZ b := by fin_cases l <;> rfl
    rw [h, signedAt, Matrix.of_apply, h3]
    split <;> simp
  · cases b <;> norm_num [signZ]

theorem edges_clear (h : ThreeEdges e) : ClearSymmetry (diagonal e) := by
  intro R hR
  rw [realOf_eq]
  obtain ⟨σ, hσ⟩ := diagonal_orbit (cube_iff.1 hR) e
  rw [hσ]
  by_cases h1 : σ = 1
  · subst h1; exact .inl rfl
  · obtain ⟨l, hl⟩ := edges_gap h h1
    exact .inr ⟨l, l, le_trans (by norm_num) hl⟩

theorem edges_injective (h : ThreeEdges e) : Function.Injective fun σ : Equiv.Perm (Fin 3) => diagonal (e ∘ σ) := by
  intro σ τ hc
  ext l
  by_contra hl
  have h1 := h.apart (σ l) (τ l) fun hc => hl (congrArg _ hc)
  have h2 := congrFun (congrFun hc l) l
  simp only [diagonal_apply_eq, Function.comp_apply] at h2
  rw [h2, sub_self, abs_zero] at h1
  norm_num at h1

/-- **C110**, variants: one for each order of the three stretches, the given one first. -/
theorem C110_variants (ht : t = .code ∨ t = .exact) (h : ThreeEdges e) :
    ∃ vs, Mart.getVariants t ⟨some (diagonal e), cubicR⟩ = .ok vs ∧ vs.length = 6 ∧ vs.Nodup ∧
      vs.head? = some (diagonal e) ∧ ∀ V, V ∈ vs ↔ ∃ σ : Equiv.Perm (Fin 3), V = diagonal (e ∘ σ) := by
  obtain ⟨lg, vs, idx, -, -, h1, -, h2, h3, -⟩ := C107_variants (edges_small h) (clear_for ht (edges_clear h))
  have m1 : ∀ V, V ∈ vs ↔ ∃ σ : Equiv.Perm (Fin 3), V = diagonal (e ∘ σ) := fun V => by
    rw [h3]
    constructor
    · rintro ⟨R, hR, rfl⟩
      exact diagonal_orbit (cube_iff.1 hR) e
    · rintro ⟨σ, rfl⟩
      obtain ⟨R, hR, g⟩ := diagonal_reached σ e
      exact ⟨R, cube_iff.2 hR, g.symm⟩
  refine ⟨vs, h1, ?_, h2.nodup, h2.first, m1⟩
  classical
  rw [← List.toFinset_card_of_nodup h2.nodup]
  have : vs.toFinset = Finset.univ.image fun σ : Equiv.Perm (Fin 3) => diagonal (e ∘ σ) := by
    ext V
    rw [List.mem_toFinset, m1, Finset.mem_image]
    exact ⟨fun ⟨x, hx⟩ => ⟨x, Finset.mem_univ _, hx.symm⟩, fun ⟨x, _, hx⟩ => ⟨x, hx.symm⟩⟩
  rw [this, Finset.card_image_of_injective _ (edges_injective h)]
  rfl

/-! ### twins -/

theorem exchange_axis (hjk : j ≠ k) {z : ℤ} (hz : z = 1 ∨ z = -1) :
    IsTwinAxis (diagonal e) (diagonal (e ∘ Equiv.swap j k)) (diagonalNormal j k z) := by
  have hzz : z * z = 1 := by rcases hz with rfl | rfl <;> rfl
  obtain ⟨i, ha⟩ : ∃ i, Axes i j k := by
    obtain ⟨i, ha⟩ := axes_exist hjk
    exact ⟨i, ⟨ha.ik.symm, ha.jk.symm, hjk⟩⟩
  refine ⟨diagonalNormal_unit ha.jk (by exact_mod_cast hzz), ?_⟩
  rw [faceTurn_eq ha.jk hzz]
  have e1 : ∀ l m, ((faceTurn j k z l m : ℤ) : ℝ) = if m = Equiv.swap j k l then (if l = i then -1 else (z : ℝ)) else 0 := by
    intro l m
    obtain ⟨n1, n2, n3⟩ := ha
    rcases Axes.all ⟨n1, n2, n3⟩ l with rfl | rfl | rfl <;> rcases Axes.all ⟨n1, n2, n3⟩ m with rfl | rfl | rfl <;>
      simp [faceTurn, n1, n2, n3, n1.symm, n2.symm, n3.symm, Equiv.swap_apply_of_ne_of_ne]
  refine (diagonal_turn e1 (fun _ _ h => (Equiv.swap j k).injective h) (fun l => ?_) e)
  split
  · norm_num
  · exact_mod_cast hzz

theorem normals_orth (hjk : j ≠ k) : diagonalNormal j k ((1 : ℤ) : ℝ) ⬝ᵥ diagonalNormal j k ((-1 : ℤ) : ℝ) = 0 := by
  obtain ⟨i, ha⟩ := axes_exist hjk
  rw [dotProduct, ha.sum]
  simp [diagonalNormal, hjk.symm, ha.ik.symm, ha.jk.symm]
  ring

/-- **C110**, twins: two variants that differ by the exchange of the stretches at the axes `j` and `k` are compound twins with
the planes (110) and (1-10) of these axes. -/
theorem C110_twins (eig : Mat3 → EigRes) (heig : ∀ A, Aᵀ = A → EigOK (eig A).vals (eig A).vecs A)
    (ht : t = .code ∨ t = .exact) (rnd : ℝ → ℝ) (h : ThreeEdges e) (hjk : j ≠ k) (skip : Bool) :
    ∃ P, TwinPair.new eig (diagonal e) (diagonal (e ∘ Equiv.swap j k)) skip = .ok P ∧
      PlaneTwins eig t rnd P (diagonal e) (diagonal (e ∘ Equiv.swap j k)) (diagonalNormal j k 1)
        (diagonalNormal j k (-1)) := by
  obtain ⟨vs, g1, -, -, -, g5⟩ := C110_variants ht h
  have sU := small_spd (edges_small h)
  have sV := small_spd (edges_small (edges_perm h (Equiv.swap j k)))
  have ax1 := exchange_axis (e := e) hjk (z := 1) (.inl rfl)
  have ax2 := exchange_axis (e := e) hjk (z := -1) (.inr rfl)
  obtain ⟨i, ha⟩ := axes_exist hjk
  have hd : ∃ l m, 1 / 10 ^ 12 ≤ |diagonal e l m - diagonal (e ∘ Equiv.swap j k) l m| := by
    refine ⟨j, j, ?_⟩
    have := h.apart _ _ hjk
    rw [diagonal_apply_eq, diagonal_apply_eq, Function.comp_apply, Equiv.swap_apply_left]
    linarith
  have own : ∀ f : Fin 3 → ℝ, f i = e i → diagonal f *ᵥ (Pi.single i 1 : V3) = e i • (Pi.single i 1 : V3) := fun f hf => by
    rw [diagonal_mulVec_single, mul_one, hf]
    funext l
    by_cases hl : l = i
    · subst hl; simp
    · simp [hl]
  have hei : e i ≠ 0 := by
    have := (abs_le.1 (h.near i)).1
    linarith
  obtain ⟨P, g6, g7⟩ := compound_twins eig heig t rnd sU sV (axis_related ax1) hd
    (u := (Pi.single i 1 : V3)) (fun hc => by simpa using congrFun hc i) hei (own e rfl)
    (own _ (by rw [Function.comp_apply, Equiv.swap_apply_of_ne_of_ne ha.ik.symm ha.jk.symm])) g1 ((g5 _).2 ⟨_, rfl⟩) skip
  refine ⟨P, g6, ?_⟩
  have := compound_planes sU g7 ax1 ax2 (normals_orth hjk)
  simpa using this

theorem ratio_far {x y : ℝ} (hx : |x - 1| ≤ 13 / 100) (hy : |y - 1| ≤ 13 / 100) (hd : 1 / 100 ≤ |x - y|) :
    5 / 10 ^ 3 ≤ |x⁻¹ * y * (y * x⁻¹) - 1| := by
  obtain ⟨x1, x2⟩ := abs_le.1 hx
  obtain ⟨y1, y2⟩ := abs_le.1 hy
  have hx0 : 0 < x := by linarith
  have e1 : x⁻¹ * y * (y * x⁻¹) - 1 = (y - x) * (y + x) / (x * x) := by field_simp; ring
  rw [e1, abs_div, abs_mul, abs_of_pos (show 0 < y + x by linarith), abs_of_pos (mul_pos hx0 hx0), abs_sub_comm,
    le_div_iff₀ (mul_pos hx0 hx0)]
  have h1 : x * x ≤ 13 / 10 := by nlinarith
  nlinarith

theorem mid_of_diagonal {f : Fin 3 → ℝ} {l : ℝ} {x : V3} (hx : x ⬝ᵥ x = 1) (h : diagonal f *ᵥ x = l • x) : ∃ i, l = f i := by
  by_contra hc
  push Not at hc
  have : x = 0 := by
    funext i
    have h1 := congrFun h i
    rw [mulVec_diagonal, Pi.smul_apply, smul_eq_mul] at h1
    have h2 : (l - f i) * x i = 0 := by linear_combination -h1
    exact (mul_eq_zero.1 h2).resolve_left (sub_ne_zero.2 (hc i))
  rw [this, dotProduct_zero] at hx
  norm_num at hx

theorem relMetric_edges {e f : Fin 3 → ℝ} (he : ∀ i, e i ≠ 0) :
    relMetric (diagonal e) (diagonal f) = diagonal fun i => (e i)⁻¹ * f i * (f i * (e i)⁻¹) := by
  have h1 : (diagonal e)⁻¹ = diagonal fun i => (e i)⁻¹ := by
    refine inv_eq_right_inv ?_
    rw [diagonal_mul_diagonal, ← diagonal_one]
    congr 1
    funext i
    exact mul_inv_cancel₀ (he i)
  rw [relMetric, h1, diagonal_mul_diagonal, diagonal_mul_diagonal, diagonal_mul_diagonal]

/-- **C110**: two variants without a common stretch along a cube axis are not twins. -/
theorem C110_not_twinnable (eig : Mat3 → EigRes) (heig : ∀ A, Aᵀ = A → EigOK (eig A).vals (eig A).vecs A)
    (h : ThreeEdges e) {σ : Equiv.Perm (Fin 3)} (hσ : ∀ i, σ i ≠ i) (skip : Bool) :
    ¬ RankOneConnected (diagonal e) (diagonal (e ∘ σ)) ∧
    ∃ P, TwinPair.new eig (diagonal e) (diagonal (e ∘ σ)) skip = .ok P ∧ P.isTwinnable = false := by
  have sU := small_spd (edges_small h)
  have sV := small_spd (edges_small (edges_perm h σ))
  have far : ∀ (l : ℝ) (x : V3), x ⬝ᵥ x = 1 → relMetric (diagonal e) (diagonal (e ∘ σ)) *ᵥ x = l • x → 5 / 10 ^ 3 ≤ |l - 1| := by
    intro l x hx hl
    rw [relMetric_edges fun i => by have := (abs_le.1 (h.near i)).1; intro hc; rw [hc] at this; norm_num at this] at hl
    obtain ⟨i, rfl⟩ := mid_of_diagonal hx hl
    exact ratio_far (h.near i) (h.near (σ i)) (h.apart _ _ (hσ i).symm)
  obtain ⟨he, -⟩ := sortEig_spec (heig _ (relMetric_symm sU.1 sV.1))
  have hfar := far _ _ (he.unit 1) (he.eigenvector 1)
  constructor
  · obtain ⟨P, g1, -, -, -, g2⟩ := C54_criterion eig heig _ _ sU sV false
    rw [← g2]
    rw [new_ok eig sU sV] at g1
    cases g1
    intro hc
    have hc : (sortEig eig (relMetric (diagonal e) (diagonal (e ∘ σ)))).vals 1 = 1 := hc
    rw [hc] at hfar
    norm_num at hfar
  · refine ⟨_, new_ok eig sU sV skip, ?_⟩
    rw [Bool.eq_false_iff]
    intro hc
    obtain ⟨-, hl⟩ := (isTwinnable_iff _).1 hc
    exact absurd hfar (not_le.2 hl)

theorem perm_three : ∀ σ : Equiv.Perm (Fin 3), σ ≠ 1 →
    (Equiv.Perm.sign σ = -1 ∧ ∃ j k, j ≠ k ∧ σ = Equiv.swap j k) ∨ (Equiv.Perm.sign σ = 1 ∧ ∀ i, σ i ≠ i) := by
  decide +kernel

/-- **C110**: the system of the six variants has nine twin pairs, all of them compound and conventional. -/
theorem C110_system (eig : Mat3 → EigRes) (heig : ∀ A, Aᵀ = A → EigOK (eig A).vals (eig A).vecs A)
    (ht : t = .code ∨ t = .exact) (h : ThreeEdges e) : SystemOf eig t ⟨some (diagonal e), cubicR⟩ 9 9 0 := by
  refine system_of (I := Equiv.Perm (Fin 3)) eig (fun σ => diagonal (e ∘ σ))
    (fun σ τ => Equiv.Perm.sign σ != Equiv.Perm.sign τ) (fun _ _ => true) ?_ ?_
    (fun σ τ => bne_comm) (fun _ _ => rfl) ?_ (by decide +kernel) (by decide +kernel) (by decide +kernel) 1
  · intro σ
    obtain ⟨vs, h1, h2, h3, -, h5⟩ := C110_variants ht (edges_perm h σ)
    refine ⟨vs, h1, h2, h3, fun V => ?_⟩
    rw [h5]
    constructor
    · rintro ⟨τ, rfl⟩
      exact ⟨σ * τ, rfl⟩
    · rintro ⟨τ, rfl⟩
      refine ⟨σ⁻¹ * τ, ?_⟩
      congr 1
      funext l
      simp
  · exact fun σ => small_spd (edges_small (edges_perm h σ))
  · intro σ τ hne
    have hq : e ∘ τ = (e ∘ σ) ∘ (σ⁻¹ * τ : Equiv.Perm (Fin 3)) := by
      funext l
      simp
    have hq1 : σ⁻¹ * τ ≠ 1 := fun hc => hne (by rw [inv_mul_eq_one] at hc; exact hc)
    have hsg : Equiv.Perm.sign τ = Equiv.Perm.sign σ * Equiv.Perm.sign (σ⁻¹ * τ) := by
      rw [← map_mul, mul_inv_cancel_left]
    rw [hq]
    rcases perm_three _ hq1 with ⟨h1, j, k, hjk, h2⟩ | ⟨h1, h2⟩
    · rw [h2]
      obtain ⟨P, g1, g2, g3, g4, -⟩ := C110_twins eig heig ht id (edges_perm h σ) hjk true
      refine ⟨P, g1, ?_, fun _ => ⟨g3, g4⟩⟩
      rw [g2, hsg, h1, mul_neg, mul_one]
      rcases Int.units_eq_one_or (Equiv.Perm.sign σ) with hs | hs <;> rw [hs] <;> rfl
    · obtain ⟨-, P, g1, g2⟩ := C110_not_twinnable eig heig (edges_perm h σ) h2 true
      have hf : (Equiv.Perm.sign σ != Equiv.Perm.sign τ) = false := by rw [hsg, h1, mul_one, bne_self_eq_false]
      exact ⟨P, g1, by rw [g2, hf], fun hc => by rw [hf] at hc; exact absurd hc (by decide)⟩

/-- **C110**, through the API: `Martensite().setU(U)` accepts the stretch, and `TwinSystem` of the object has the table. -/
theorem C110_setU (eig : Mat3 → EigRes) (heig : ∀ A, Aᵀ = A → EigOK (eig A).vals (eig A).vecs A)
    (ht : t = .code ∨ t = .exact) (h : ThreeEdges e) :
    ∃ m, Mart.setU ⟨none, cubicR⟩ [.arr (.mat 3 3 false (diagonal e))] = .ok m ∧ m.getU = .ok (diagonal e) ∧
      m.isReversible t = .ok true ∧ SystemOf eig t m 9 9 0 := by
  obtain ⟨m, vs, h1, h2, h3, -⟩ := C107_setU (edges_small h) (clear_for ht (edges_clear h))
  refine ⟨m, h1, h2, h3, ?_⟩
  have := C110_system eig heig ht h
  have hm : m = ⟨some (diagonal e), cubicR⟩ := by
    have hU : (diagonal e).submatrix (Fin.cast (rfl : 3 = 3)) (Fin.cast (rfl : 3 = 3)) = diagonal e := by
      ext l m; rfl
    have hs := small_spd (edges_small h)
    simp only [Mart.setU, uOf, and_self, dite_true, hU] at h1
    rw [if_neg (not_not.2 hs.1.symm), if_neg (not_not.2 (spd_det_pos hs))] at h1
    exact (Except.ok.inj h1).symm
  rw [hm]
  exact this

/-- Three different stretches of a few per cent meet the hypothesis. -/
example : ThreeEdges ![(0.96 : ℝ), 1, 1.05] := by
  constructor
  · intro i; fin_cases i <;> norm_num [abs_le]
  · intro i j hij
    fin_cases i <;> fin_cases j <;> first | exact absurd rfl hij | norm_num [le_abs]

end Verif.Props
