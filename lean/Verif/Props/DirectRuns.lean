import Verif.Lemmas.DirectMap
import Verif.Props.Dist
import Verif.Spec.Setting

/-!
# Property C38 for the Cauchy distance, and two concrete runs of the direct search
-/

namespace Verif.Props

open Matrix Verif.Model Verif.Spec Verif.Lemmas

section
variable {N : ℕ} {EA EM EMinv : Matrix (Fin N) (Fin N) ℝ}
  {GA GM : List (Matrix (Fin N) (Fin N) ℤ)} {alpha : ℝ}

theorem setting_class (h : SearchSetting EA EM EMinv GA GM alpha) :
    ∀ L X, Equivalent GA GM L X → cauchyDist X EA EMinv = cauchyDist L EA EMinv :=
  C28_class_function EA EM EMinv h.invM GA GM h.symA h.symM

theorem setting_radius (hN : N ≤ 3) (h : SearchSetting EA EM EMinv GA GM alpha) :
    ∀ L L' : Matrix (Fin N) (Fin N) ℤ, cauchyDist L EA EMinv ≤ cauchyDist L' EA EMinv →
      frob L ≤ rmaxFn alpha (cauchyDist L' EA EMinv) := by
  intro L L' hd
  refine C32_radius hN EA EMinv alpha h.pos ?_ L _ hd
  intro x hx
  have e : quartForm (quartD EA EMinv) x = _ :=
    C31_tensor_real EA EMinv (Matrix.of fun i j => x (i, j))
  rw [e]
  refine h.bound _ ?_
  rw [← hx, Fintype.sum_prod_type]
  rfl

/-- C38 for the search as it is called (Cauchy distance, radius from `alpha`), proved part: when the
search ends normally and apart from the first coordinate the positive coordinates of its checkpoints
are followed by zeros only, every correspondence outside the returned classes is strictly worse than
all returned ones.  Missing: the other runs (`C38_missed_fails`, `C38_stop_iteration_fails`). -/
theorem C38_cauchy_optimal_partial (hN1 : 1 ≤ N) (hN : N ≤ 3)
    (h : SearchSetting EA EM EMinv GA GM alpha) (nsol sliceSz : ℕ) (hn : 1 ≤ nsol) (hsz : 1 ≤ sliceSz)
    (samples : List (Matrix (Fin N) (Fin N) ℤ)) (fuel : ℕ)
    (sols : List (Sol (Matrix (Fin N) (Fin N) ℤ) ℝ)) (ext : Finset (Matrix (Fin N) (Fin N) ℤ))
    (dmax : ℝ) (trace : List (List ℤ))
    (hrun : directSearch GA GM nsol (fun L => cauchyDist L EA EMinv) sliceSz (rmaxFn alpha)
      (fun L => L.det = 1) samples fuel = .ok (some (sols, ext, dmax), trace))
    (htrace : ∀ c ∈ trace, PositiveThenZero c.tail) :
    ∀ L : Matrix (Fin N) (Fin N) ℤ, L.det ≠ 0 → (¬ ∃ s ∈ sols, Equivalent GA GM s.l L) →
      ∀ s ∈ sols, s.d < cauchyDist L EA EMinv :=
  C38_optimal_partial GA GM (fun L => cauchyDist L EA EMinv) nsol sliceSz (rmaxFn alpha)
    (fun L => L.det = 1) h.groupA h.groupM h.negA (setting_class h) hn hsz hN1
    (by intro L hL; rw [hL]; decide) (fun L => rmaxFn_nonneg h.pos (C28_nonneg EA EMinv L))
    (fun L L' hd => rmaxFn_mono h.pos (C28_nonneg EA EMinv L) hd) (setting_radius hN h)
    samples fuel sols ext dmax trace hrun htrace

/-- C38: once initialised the search for the Cauchy distance ends. -/
theorem C38_cauchy_terminates (hN1 : 1 ≤ N) (hN : N ≤ 3)
    (h : SearchSetting EA EM EMinv GA GM alpha) (nsol sliceSz : ℕ) (hn : 1 ≤ nsol) (hsz : 1 ≤ sliceSz)
    (samples : List (Matrix (Fin N) (Fin N) ℤ))
    (hinit : initLoop (eqlatcor GA GM) (fun L => L.det ≠ 0) (fun L => L.det = 1) nsol
      (fun L => cauchyDist L EA EMinv) samples (20 * nsol) ([], ∅, none) ≠ .ok none) :
    ∃ rounds, ∀ fuel ≥ rounds, ∀ trace,
      directSearch GA GM nsol (fun L => cauchyDist L EA EMinv) sliceSz (rmaxFn alpha)
        (fun L => L.det = 1) samples fuel ≠ .ok (none, trace) :=
  C38_terminates GA GM (fun L => cauchyDist L EA EMinv) nsol sliceSz (rmaxFn alpha)
    (fun L => L.det = 1) h.groupA h.groupM (setting_class h) hn hsz hN1
    (by intro L hL; rw [hL]; decide) (fun L => rmaxFn_nonneg h.pos (C28_nonneg EA EMinv L))
    (setting_radius hN h) samples hinit

end

/-- `⌊rmax(d)²⌋` from bounds on `gamma(d) / alpha` -/
theorem floor_rmax {alpha d : ℝ} (ha : 0 < alpha) (hd : 0 ≤ d) (n : ℕ) (h1 : (n : ℝ) ^ 2 * alpha ≤ gammaFn d)
    (h2 : gammaFn d < ((n : ℝ) + 1) ^ 2 * alpha) : ⌊rmaxFn alpha d ^ 2⌋ = (n : ℤ) := by
  have e : (rmaxFn alpha d ^ 2) ^ 2 = gammaFn d / alpha := by rw [← rmaxFn_pow ha hd]; ring
  have h0 : 0 ≤ rmaxFn alpha d ^ 2 := sq_nonneg _
  have hn : (0 : ℝ) ≤ n := Nat.cast_nonneg n
  rw [Int.floor_eq_iff]
  have h1' : (n : ℝ) ^ 2 ≤ (rmaxFn alpha d ^ 2) ^ 2 := by rw [e, le_div_iff₀ ha]; exact h1
  have h2' : (rmaxFn alpha d ^ 2) ^ 2 < ((n : ℝ) + 1) ^ 2 := by rw [e, div_lt_iff₀ ha]; exact h2
  constructor
  · exact_mod_cast (pow_le_pow_iff_left₀ hn h0 two_ne_zero).mp h1'
  · exact_mod_cast (pow_lt_pow_iff_left₀ h0 (by positivity) two_ne_zero).mp h2'

/-! ### A run that misses the optimum -/

/-- the first lattice -/
noncomputable def missA : Matrix (Fin 2) (Fin 2) ℝ := !![1, 11 / 10; 0, 3 / 2]
/-- the second lattice, `missA` times `(1 -1; 0 1)` -/
noncomputable def missM : Matrix (Fin 2) (Fin 2) ℝ := !![1, 1 / 10; 0, 3 / 2]
/-- its inverse -/
noncomputable def missMinv : Matrix (Fin 2) (Fin 2) ℝ := !![1, -1 / 15; 0, 2 / 3]

/-- oblique lattices have no symmetries but `1` and `-1` -/
theorem oblique_sym (e : ℝ) (k : ℤ) (he : 10 * e = k) (hk : ¬ (5 : ℤ) ∣ k)
    (M : Matrix (Fin 2) (Fin 2) ℤ) :
    M ∈ pm1 ↔ IsLatticeSym (!![1, e; 0, 3 / 2] : Matrix (Fin 2) (Fin 2) ℝ) M := by
  constructor
  · intro h
    unfold pm1 at h
    simp only [List.mem_cons, List.not_mem_nil, or_false] at h
    rcases h with rfl | rfl
    · refine ⟨1, by simp [IsOrtho], ?_⟩
      ext i j
      fin_cases i <;> fin_cases j <;> simp [Matrix.mul_apply]
    · refine ⟨-1, by simp [IsOrtho], ?_⟩
      ext i j
      fin_cases i <;> fin_cases j <;> simp [Matrix.mul_apply]
  · rintro ⟨Q, hQ, h⟩
    set E : Matrix (Fin 2) (Fin 2) ℝ := !![1, e; 0, 3 / 2] with hE
    have g : (E * M.map (Int.cast : ℤ → ℝ))ᵀ * (E * M.map (Int.cast : ℤ → ℝ)) = Eᵀ * E := by
      rw [← h, Matrix.transpose_mul, Matrix.mul_assoc, ← Matrix.mul_assoc Qᵀ, show Qᵀ * Q = 1 from hQ,
        Matrix.one_mul]
    have g00 := congrFun (congrFun g 0) 0
    have g01 := congrFun (congrFun g 0) 1
    have g11 := congrFun (congrFun g 1) 1
    simp [hE, Matrix.mul_apply, Fin.sum_univ_two, Matrix.vecMul, dotProduct] at g00 g01 g11
    obtain ⟨p, hp⟩ : ∃ p, M 0 0 = p := ⟨_, rfl⟩
    obtain ⟨q, hq⟩ : ∃ q, M 0 1 = q := ⟨_, rfl⟩
    obtain ⟨r, hr⟩ : ∃ r, M 1 0 = r := ⟨_, rfl⟩
    obtain ⟨s, hs⟩ : ∃ s, M 1 1 = s := ⟨_, rfl⟩
    rw [hp, hr] at g00
    rw [hp, hq, hr, hs] at g01
    rw [hq, hs] at g11
    have r0 : r = 0 := by
      by_contra hne
      have h1 : (1 : ℤ) ≤ r ^ 2 := by
        have := sq_nonneg r
        have : r ^ 2 ≠ 0 := pow_ne_zero 2 hne
        omega
      have h1' : (1 : ℝ) ≤ (r : ℝ) ^ 2 := by exact_mod_cast h1
      nlinarith [sq_nonneg ((p : ℝ) + e * r)]
    subst r0
    simp at g00 g01
    have p1 : p = 1 ∨ p = -1 := by
      have : p * p = 1 := by exact_mod_cast g00
      exact mul_self_eq_one_iff.mp this
    have g01' : (q : ℝ) + e * s = p * e := by
      rcases p1 with rfl | rfl
      · simpa using g01
      · simp at g01 ⊢; linarith
    have s1 : s = 1 ∨ s = -1 := by
      have h1 : (s : ℝ) * s = 1 := by
        have hpp : ((p : ℝ) * e) * (p * e) = e * e := by
          calc ((p : ℝ) * e) * (p * e) = (p * p) * (e * e) := by ring
            _ = e * e := by rw [g00, one_mul]
        rw [g01', hpp] at g11
        linarith
      exact mul_self_eq_one_iff.mp (by exact_mod_cast h1)
    have hk' : 10 * q + k * s = p * k := by
      have : (10 : ℝ) * q + k * s = p * k := by rw [← he]; linarith
      exact_mod_cast this
    have hps : q = 0 ∧ s = p := by
      rcases p1 with rfl | rfl <;> rcases s1 with rfl | rfl <;> constructor <;> omega
    obtain ⟨rfl, rfl⟩ := hps
    have hM : M = !![s, 0; 0, s] := by
      ext i j
      fin_cases i <;> fin_cases j <;> simp [hp, hq, hr, hs]
    unfold pm1
    rcases p1 with rfl | rfl <;> simp [hM]

theorem miss_setting : ValidSetting missA missM missMinv pm1 pm1 (4 / 125) := by
  refine ⟨?_, ?_, pm1_group, pm1_group, ?_, ?_, by norm_num, ?_⟩
  · simp [missA, Matrix.det_fin_two]
  · unfold missM missMinv
    ext i j
    fin_cases i <;> fin_cases j <;> simp [Matrix.mul_apply, Fin.sum_univ_two]; norm_num
  · exact oblique_sym _ 11 (by norm_num) (by decide)
  · exact oblique_sym _ 1 (by norm_num) (by decide)
  · intro X hX
    have hX' : fro X = 1 := hX
    have h1 := fro_mul_transpose (missA * X * missMinv)
    have h2 : (253 / 1000 : ℝ) * fro X ≤ fro (missA * X * missMinv) := by
      have hA : (576 / 1000 : ℝ) * fro (X * missMinv) ≤ fro (missA * (X * missMinv)) := by
        generalize X * missMinv = Y
        simp only [fro, Fin.sum_univ_two, missA, Matrix.mul_apply]
        simp
        nlinarith [sq_nonneg (424 / 1000 * Y 0 0 + 11 / 10 * Y 1 0),
          sq_nonneg (424 / 1000 * Y 0 1 + 11 / 10 * Y 1 1), sq_nonneg (Y 1 0), sq_nonneg (Y 1 1)]
      have hM : (44 / 100 : ℝ) * fro X ≤ fro (X * missMinv) := by
        simp only [fro, Fin.sum_univ_two, missMinv, Matrix.mul_apply]
        simp
        nlinarith [sq_nonneg (X 0 0 * (56 / 100) - X 0 1 * (2 / 45)),
          sq_nonneg (X 1 0 * (56 / 100) - X 1 1 * (2 / 45)), sq_nonneg (X 0 0), sq_nonneg (X 1 0),
          sq_nonneg (X 0 1), sq_nonneg (X 1 1)]
      rw [Matrix.mul_assoc]
      rw [hX'] at hM ⊢
      linarith
    rw [hX'] at h2
    have h3 : fro (missA * X * missMinv * (missA * X * missMinv)ᵀ)
        = ∑ i, ∑ j, (((missA * X * missMinv) * (missA * X * missMinv)ᵀ) i j) ^ 2 := rfl
    rw [← h3]
    push_cast at h1
    nlinarith

/-- the distance times `150 ^ 4` is an integer -/
def missDist (L : Matrix (Fin 2) (Fin 2) ℤ) : ℤ :=
  let a := L 0 0
  let b := L 0 1
  let c := L 1 0
  let d := L 1 1
  let z11 := 15 * (10 * a + 11 * c)
  let z12 := 10 * (10 * b + 11 * d) - (10 * a + 11 * c)
  let z21 := 225 * c
  let z22 := 150 * d - 15 * c
  (z11 * z11 + z12 * z12 - 22500) * (z11 * z11 + z12 * z12 - 22500) +
  2 * ((z11 * z21 + z12 * z22) * (z11 * z21 + z12 * z22)) +
  (z21 * z21 + z22 * z22 - 22500) * (z21 * z21 + z22 * z22 - 22500)

theorem missDist_eq (L : Matrix (Fin 2) (Fin 2) ℤ) :
    cauchyDist L missA missMinv = (missDist L : ℝ) / 150 ^ 4 := by
  simp only [cauchyDist, Cinv, Finv, intMat, missA, missMinv, Fin.sum_univ_two, Matrix.mul_apply,
    Matrix.sub_apply, Matrix.transpose_apply, Matrix.map_apply, missDist]
  simp
  ring

/-- the state after the initialisation -/
def missState0 : SearchState 2 ℤ :=
  ([⟨!![1, 0; 0, 1], 550000000⟩], {!![1, 0; 0, 1], !![-1, 0; 0, -1]}, 550000000)

/-- the state after the first round -/
def missState1 : SearchState 2 ℤ :=
  ([⟨!![1, 1; 0, -1], 18160000⟩],
    {!![1, 1; 0, -1], !![-1, -1; 0, 1], !![0, 1; 0, -1], !![0, -1; 0, 1]}, 18160000)

/-- the trial matrices -/
def missSamples : List (Matrix (Fin 2) (Fin 2) ℤ) :=
  !![1, 0; 0, 1] :: List.replicate 19 !![2, -1; 1, 0]

set_option synthInstance.maxHeartbeats 400000
set_option synthInstance.maxSize 4000
set_option maxRecDepth 100000

theorem miss_round1 : sliceLoop pm1 pm1 1 missDist 100
      ((vecGenZ 4 15 (some [0, 0, 0, 0])).length + 1) (vecGenZ 4 15 (some [0, 0, 0, 0])) missState0
    = .ok (some [1, 1, 0, -2], missState1) := by decide +kernel

theorem miss_round2 :
    sliceLoop pm1 pm1 1 missDist 100 ((vecGenZ 4 10 (some [1, 1, 0, -2])).length + 1)
      (vecGenZ 4 10 (some [1, 1, 0, -2])) missState1 = .ok (none, missState1) := by
  decide +kernel

theorem miss_init : initLoop (eqlatcor pm1 pm1) (fun L => L.det ≠ 0) (fun L => L.det = 1) 1 missDist
    missSamples 20 ([], ∅, none) = .ok (some (missState0.1, missState0.2.1, some missState0.2.2)) := by
  decide +kernel

theorem strictMono_div (c : ℝ) (hc : 0 < c) : StrictMono (fun z : ℤ => (z : ℝ) / c) := by
  intro a b h
  have : (a : ℝ) < b := by exact_mod_cast h
  exact div_lt_div_of_pos_right this hc

theorem miss_floor1 : ⌊rmaxFn (4 / 125) (((550000000 : ℤ) : ℝ) / 150 ^ 4) ^ 2⌋ = 15 := by
  have h := floor_rmax (alpha := 4 / 125) (d := ((550000000 : ℤ) : ℝ) / 150 ^ 4) (by norm_num)
    (by norm_num) 15 ?_ ?_
  · exact_mod_cast h
  · unfold gammaFn
    have : (18 / 10 : ℝ) ≤ Real.sqrt (3 * (((550000000 : ℤ) : ℝ) / 150 ^ 4)) := by
      apply Real.le_sqrt_of_sq_le
      norm_num
    push_cast at this ⊢
    linarith
  · unfold gammaFn
    have : Real.sqrt (3 * (((550000000 : ℤ) : ℝ) / 150 ^ 4)) ≤ 19 / 10 := by
      apply Real.sqrt_le_iff.mpr
      norm_num
    push_cast at this ⊢
    linarith

theorem miss_floor2 : ⌊rmaxFn (4 / 125) (((18160000 : ℤ) : ℝ) / 150 ^ 4) ^ 2⌋ = 10 := by
  have h := floor_rmax (alpha := 4 / 125) (d := ((18160000 : ℤ) : ℝ) / 150 ^ 4) (by norm_num)
    (by norm_num) 10 ?_ ?_
  · exact_mod_cast h
  · unfold gammaFn
    have : (3 / 10 : ℝ) ≤ Real.sqrt (3 * (((18160000 : ℤ) : ℝ) / 150 ^ 4)) := by
      apply Real.le_sqrt_of_sq_le
      norm_num
    push_cast at this ⊢
    linarith
  · unfold gammaFn
    have : Real.sqrt (3 * (((18160000 : ℤ) : ℝ) / 150 ^ 4)) ≤ 34 / 100 := by
      apply Real.sqrt_le_iff.mpr
      norm_num
    push_cast at this ⊢
    linarith

theorem miss_run : directSearch pm1 pm1 1 (fun L => cauchyDist L missA missMinv) 100 (rmaxFn (4 / 125))
    (fun L => L.det = 1) missSamples 2
    = .ok (some (mapState (fun z : ℤ => (z : ℝ) / 150 ^ 4) missState1), [[0, 0, 0, 0], [1, 1, 0, -2]]) := by
  have e : (fun L => cauchyDist L missA missMinv) = fun L => (fun z : ℤ => (z : ℝ) / 150 ^ 4) (missDist L) :=
    funext missDist_eq
  rw [e, directSearch_map (strictMono_div _ (by norm_num))]
  unfold directSearch
  rw [show 20 * 1 = 20 from rfl, miss_init]
  simp only
  have hr : ∀ d : ℤ, 0 ≤ d → 0 ≤ rmaxFn (4 / 125) ((d : ℝ) / 150 ^ 4) := fun d hd =>
    rmaxFn_nonneg (by norm_num) (div_nonneg (by exact_mod_cast hd) (by norm_num))
  have e1 : vecGen (2 ^ 2) (rmaxFn (4 / 125) ((missState0.2.2 : ℝ) / 150 ^ 4))
      (some (List.replicate (2 ^ 2) 0)) = vecGenZ 4 15 (some [0, 0, 0, 0]) := by
    rw [show (2 : ℕ) ^ 2 = 3 + 1 from rfl, vecGen_eqZ _ _ _ (hr _ (by decide)),
      show missState0.2.2 = 550000000 from rfl, miss_floor1]
    rfl
  have e2 : vecGen (2 ^ 2) (rmaxFn (4 / 125) ((missState1.2.2 : ℝ) / 150 ^ 4))
      (some [1, 1, 0, -2]) = vecGenZ 4 10 (some [1, 1, 0, -2]) := by
    rw [show (2 : ℕ) ^ 2 = 3 + 1 from rfl, vecGen_eqZ _ _ _ (hr _ (by decide)),
      show missState1.2.2 = 18160000 from rfl, miss_floor2]
  rw [show (missState0.1, missState0.2.1, missState0.2.2) = missState0 from rfl]
  unfold searchLoop
  simp only
  rw [e1, miss_round1]
  simp only
  unfold searchLoop
  simp only
  rw [e2, miss_round2]
  rfl

/-- C38 fails: a run with valid input, default slice size 100 and one requested solution that ends
normally and returns a correspondence of distance `0.0358...` although the second lattice is the first
one (distance 0).  The trial matrices of the random initialisation are `L0 + shift` with entries of
`shift` in `{-1, 0, 1}` and `L0 = ⌊EA⁻¹ EM⌋` (here an integer matrix before rounding). -/
theorem C38_missed_fails :
    ∃ (EA EM EMinv : Matrix (Fin 2) (Fin 2) ℝ) (GA GM : List (Matrix (Fin 2) (Fin 2) ℤ)) (alpha : ℝ)
      (L0 : Matrix (Fin 2) (Fin 2) ℤ) (samples : List (Matrix (Fin 2) (Fin 2) ℤ))
      (sols : List (Sol (Matrix (Fin 2) (Fin 2) ℤ) ℝ)) (ext : Finset (Matrix (Fin 2) (Fin 2) ℤ)) (dmax : ℝ)
      (trace : List (List ℤ)),
      ValidSetting EA EM EMinv GA GM alpha ∧
      EA * L0.map (Int.cast : ℤ → ℝ) = EM ∧
      (∀ L ∈ samples, ∀ i j, |L i j - L0 i j| ≤ 1) ∧
      directSearch GA GM 1 (fun L => cauchyDist L EA EMinv) 100 (rmaxFn alpha)
        (fun L => L.det = 1) samples 2 = .ok (some (sols, ext, dmax), trace) ∧
      (∃ L : Matrix (Fin 2) (Fin 2) ℤ, L.det = 1 ∧ PerfectMatch EA EM L ∧ cauchyDist L EA EMinv = 0 ∧
        ∀ s ∈ sols, (3 / 100 : ℝ) < s.d) := by
  refine ⟨missA, missM, missMinv, pm1, pm1, 4 / 125, !![1, -1; 0, 1], missSamples, _, _, _, _,
    miss_setting, ?_, ?_, miss_run, !![1, -1; 0, 1], by simp [Matrix.det_fin_two], ⟨1, by simp [IsOrtho], ?_⟩,
    ?_, ?_⟩
  · unfold missA missM
    ext i j
    fin_cases i <;> fin_cases j <;> simp [Matrix.mul_apply, Fin.sum_univ_two]; norm_num
  · decide +kernel
  · unfold missA missM
    rw [Matrix.one_mul]
    ext i j
    fin_cases i <;> fin_cases j <;> simp [Matrix.mul_apply, Fin.sum_univ_two]; norm_num
  · rw [missDist_eq, show missDist !![1, -1; 0, 1] = 0 by decide +kernel]
    simp
  · intro s hs
    simp only [missState1, List.map_cons, List.map_nil, List.mem_singleton] at hs
    rw [hs]
    simp only [mapSol]
    norm_num

/-! ### A run that raises `StopIteration` -/

/-- the symmetries of the square lattice -/
def square : List (Matrix (Fin 2) (Fin 2) ℤ) :=
  [!![1, 0; 0, 1], !![-1, 0; 0, -1], !![1, 0; 0, -1], !![-1, 0; 0, 1],
   !![0, 1; 1, 0], !![0, -1; -1, 0], !![0, 1; -1, 0], !![0, -1; 1, 0]]

theorem square_group : IsMatGroup square := by
  refine ⟨?_, ?_, ?_⟩ <;> unfold square <;> decide +kernel

theorem square_sym (M : Matrix (Fin 2) (Fin 2) ℤ) :
    M ∈ square ↔ IsLatticeSym (1 : Matrix (Fin 2) (Fin 2) ℝ) M := by
  have key : IsLatticeSym (1 : Matrix (Fin 2) (Fin 2) ℝ) M ↔ Mᵀ * M = 1 := by
    have e : IsOrtho (M.map (Int.cast : ℤ → ℝ)) ↔ Mᵀ * M = 1 := by
      unfold IsOrtho
      have : (M.map (Int.cast : ℤ → ℝ))ᵀ * M.map (Int.cast : ℤ → ℝ)
          = (Mᵀ * M).map (Int.cast : ℤ → ℝ) := by
        ext i j
        simp [Matrix.mul_apply]
      rw [this]
      constructor
      · intro h
        ext i j
        have := congrFun (congrFun h i) j
        simp only [Matrix.map_apply, Matrix.one_apply] at this ⊢
        exact_mod_cast this
      · intro h
        rw [h]
        ext i j
        simp [Matrix.one_apply, apply_ite]
    rw [← e]
    constructor
    · rintro ⟨Q, hQ, h⟩
      rw [Matrix.mul_one, Matrix.one_mul] at h
      rw [← h]
      exact hQ
    · intro h
      exact ⟨_, h, by simp⟩
  rw [key]
  constructor
  · have : ∀ A ∈ square, Aᵀ * A = 1 := by unfold square; decide +kernel
    exact this M
  · intro h
    have h00 := congrFun (congrFun h 0) 0
    have h11 := congrFun (congrFun h 1) 1
    have h01 := congrFun (congrFun h 0) 1
    simp [Matrix.mul_apply, Fin.sum_univ_two] at h00 h11 h01
    obtain ⟨p, hp⟩ : ∃ p, M 0 0 = p := ⟨_, rfl⟩
    obtain ⟨q, hq⟩ : ∃ q, M 0 1 = q := ⟨_, rfl⟩
    obtain ⟨r, hr⟩ : ∃ r, M 1 0 = r := ⟨_, rfl⟩
    obtain ⟨s, hs⟩ : ∃ s, M 1 1 = s := ⟨_, rfl⟩
    have hM : M = !![p, q; r, s] := by
      ext i j
      fin_cases i <;> fin_cases j <;> simp [hp, hq, hr, hs]
    rw [hp, hr] at h00
    rw [hq, hs] at h11
    rw [hp, hq, hr, hs] at h01
    have b1 : p ≤ 1 := by nlinarith
    have b2 : -1 ≤ p := by nlinarith
    have b3 : q ≤ 1 := by nlinarith
    have b4 : -1 ≤ q := by nlinarith
    have b5 : r ≤ 1 := by nlinarith
    have b6 : -1 ≤ r := by nlinarith
    have b7 : s ≤ 1 := by nlinarith
    have b8 : -1 ≤ s := by nlinarith
    rw [hM]
    unfold square
    interval_cases p <;> interval_cases r <;> simp at h00 <;>
    interval_cases q <;> interval_cases s <;> simp at h11 h01 <;> simp

theorem square_setting : ValidSetting (1 : Matrix (Fin 2) (Fin 2) ℝ) 1 1 square square (1 / 2) := by
  refine ⟨by simp, by simp, square_group, square_group, square_sym, square_sym, by norm_num, ?_⟩
  intro X hX
  have h1 := fro_mul_transpose X
  rw [show fro X = 1 from hX] at h1
  rw [Matrix.one_mul, Matrix.mul_one]
  change _ ≤ fro (X * Xᵀ)
  push_cast at h1
  linarith

/-- the distance for the square lattice -/
def squareDist (L : Matrix (Fin 2) (Fin 2) ℤ) : ℤ :=
  let a := L 0 0
  let b := L 0 1
  let c := L 1 0
  let d := L 1 1
  (a * a + b * b - 1) * (a * a + b * b - 1) + 2 * ((a * c + b * d) * (a * c + b * d)) +
    (c * c + d * d - 1) * (c * c + d * d - 1)

theorem squareDist_eq (L : Matrix (Fin 2) (Fin 2) ℤ) :
    cauchyDist L (1 : Matrix (Fin 2) (Fin 2) ℝ) 1 = (squareDist L : ℝ) / 1 := by
  simp only [cauchyDist, Cinv, Finv, intMat, Fin.sum_univ_two, Matrix.mul_apply, Matrix.one_mul,
    Matrix.mul_one, Matrix.sub_apply, Matrix.transpose_apply, Matrix.map_apply, squareDist]
  simp
  ring

/-- the trial matrices -/
def squareSamples : List (Matrix (Fin 2) (Fin 2) ℤ) :=
  !![1, 1; 0, 1] :: List.replicate 19 !![2, 1; 1, 1]

theorem square_init : initLoop (eqlatcor square square) (fun L => L.det ≠ 0) (fun L => L.det = 1) 1
    squareDist squareSamples 20 ([], ∅, none)
      = .ok (some ([⟨!![1, 1; 0, 1], 3⟩], eqlatcor square square !![1, 1; 0, 1], some 3)) := by
  decide +kernel

theorem square_round : sliceLoop square square 1 squareDist 100
    ((vecGenZ 4 4 (some [0, 0, 0, 0])).length + 1) (vecGenZ 4 4 (some [0, 0, 0, 0]))
    ([⟨!![1, 1; 0, 1], 3⟩], eqlatcor square square !![1, 1; 0, 1], 3) = .error .stopIteration := by
  decide +kernel

theorem square_floor : ⌊rmaxFn (1 / 2) (((3 : ℤ) : ℝ) / 1) ^ 2⌋ = 4 := by
  have h := floor_rmax (alpha := 1 / 2) (d := ((3 : ℤ) : ℝ) / 1) (by norm_num)
    (by norm_num) 4 ?_ ?_
  · exact_mod_cast h
  all_goals
    unfold gammaFn
    have : Real.sqrt (3 * (((3 : ℤ) : ℝ) / 1)) = 3 := by
      rw [show (3 * (((3 : ℤ) : ℝ) / 1)) = 3 ^ 2 by norm_num]
      exact Real.sqrt_sq (by norm_num)
    rw [this]
    norm_num

/-- C38 fails: a search with valid input (a square lattice onto itself), default slice size and one
requested solution that raises `StopIteration`, because the whole ball fits into one slice. -/
theorem C38_stop_iteration_fails :
    ∃ (EA EM EMinv : Matrix (Fin 2) (Fin 2) ℝ) (GA GM : List (Matrix (Fin 2) (Fin 2) ℤ)) (alpha : ℝ)
      (samples : List (Matrix (Fin 2) (Fin 2) ℤ)),
      ValidSetting EA EM EMinv GA GM alpha ∧ EA = EM ∧
      (∀ L ∈ samples, ∀ i j, |L i j - (1 : Matrix (Fin 2) (Fin 2) ℤ) i j| ≤ 1) ∧
      ∀ fuel ≥ 1, directSearch GA GM 1 (fun L => cauchyDist L EA EMinv) 100 (rmaxFn alpha)
        (fun L => L.det = 1) samples fuel = .error .stopIteration := by
  refine ⟨1, 1, 1, square, square, 1 / 2, squareSamples, square_setting, rfl, by decide +kernel, ?_⟩
  intro fuel hf
  obtain ⟨fuel, rfl⟩ : ∃ f, fuel = f + 1 := ⟨fuel - 1, by omega⟩
  have e : (fun L => cauchyDist L (1 : Matrix (Fin 2) (Fin 2) ℝ) 1)
      = fun L => (fun z : ℤ => (z : ℝ) / 1) (squareDist L) := funext squareDist_eq
  rw [e, directSearch_map (strictMono_div _ (by norm_num))]
  unfold directSearch
  rw [show 20 * 1 = 20 from rfl, square_init]
  simp only
  have e1 : vecGen (2 ^ 2) (rmaxFn (1 / 2) (((3 : ℤ) : ℝ) / 1))
      (some (List.replicate (2 ^ 2) 0)) = vecGenZ 4 4 (some [0, 0, 0, 0]) := by
    rw [show (2 : ℕ) ^ 2 = 3 + 1 from rfl,
      vecGen_eqZ _ _ _ (rmaxFn_nonneg (by norm_num) (by norm_num)), square_floor]
    rfl
  unfold searchLoop
  simp only
  rw [e1, square_round]

/-- the hypotheses of `C38_cauchy_optimal_partial` are met by a run for the square lattice whose trial
matrices include the identity -/
example : ∃ sols ext dmax trace,
    directSearch square square 1 (fun L => cauchyDist L (1 : Matrix (Fin 2) (Fin 2) ℝ) 1) 100
      (rmaxFn (1 / 2)) (fun L => L.det = 1) (1 :: List.replicate 19 !![1, 1; 0, 1]) 1
        = .ok (some (sols, ext, dmax), trace) ∧
    (∀ c ∈ trace, PositiveThenZero c.tail) ∧ sols.map Sol.l = [1] := by
  have e : (fun L => cauchyDist L (1 : Matrix (Fin 2) (Fin 2) ℝ) 1)
      = fun L => (fun z : ℤ => (z : ℝ) / 1) (squareDist L) := funext squareDist_eq
  have h0 : initLoop (eqlatcor square square) (fun L => L.det ≠ 0) (fun L => L.det = 1) 1
      squareDist (1 :: List.replicate 19 !![1, 1; 0, 1]) 20 ([], ∅, none)
      = .ok (some ([⟨1, 0⟩], eqlatcor square square 1, some 0)) := by decide +kernel
  have h1 : sliceLoop square square 1 squareDist 100
      ((vecGenZ 4 2 (some [0, 0, 0, 0])).length + 1) (vecGenZ 4 2 (some [0, 0, 0, 0]))
      ([⟨1, 0⟩], eqlatcor square square 1, 0)
      = .ok (none, ([⟨1, 0⟩], eqlatcor square square 1, 0)) := by decide +kernel
  have hfl : ⌊rmaxFn (1 / 2) (((0 : ℤ) : ℝ) / 1) ^ 2⌋ = 2 := by
    have h := floor_rmax (alpha := 1 / 2) (d := ((0 : ℤ) : ℝ) / 1) (by norm_num)
      (by norm_num) 2 (by norm_num [gammaFn]) (by norm_num [gammaFn])
    exact_mod_cast h
  have e1 : vecGen (2 ^ 2) (rmaxFn (1 / 2) (((0 : ℤ) : ℝ) / 1))
      (some (List.replicate (2 ^ 2) 0)) = vecGenZ 4 2 (some [0, 0, 0, 0]) := by
    rw [show (2 : ℕ) ^ 2 = 3 + 1 from rfl,
      vecGen_eqZ _ _ _ (rmaxFn_nonneg (by norm_num) (by norm_num)), hfl]
    rfl
  refine ⟨[⟨1, ((0 : ℤ) : ℝ) / 1⟩], eqlatcor square square 1, ((0 : ℤ) : ℝ) / 1, [[0, 0, 0, 0]], ?_, ?_, ?_⟩
  · rw [e, directSearch_map (strictMono_div _ (by norm_num))]
    unfold directSearch
    rw [show 20 * 1 = 20 from rfl, h0]
    simp only
    unfold searchLoop
    simp only
    rw [e1, h1]
    simp only [Option.map_some, mapState]
    rfl
  · simp [PositiveThenZero]
  · rfl

end Verif.Props
