import Verif.Lemmas.Rounding
import Verif.Props.LatCor

/-!
# Property C87: the direct search tolerates rounding errors in the distances and in the radius
-/

namespace Verif.Props

open Matrix Verif.Model Verif.Spec Verif.Lemmas

variable {N : ℕ} {EA EM : Matrix (Fin N) (Fin N) ℝ} {GA GM : List (Matrix (Fin N) (Fin N) ℤ)} {alpha : ℝ}

/-- Computed distances with relative error `e` (and absolute error `e` near zero). -/
def Approximates (e : ℝ) (dist : Matrix (Fin N) (Fin N) ℤ → ℝ) (EA EM : Matrix (Fin N) (Fin N) ℝ) : Prop :=
  ∀ L, |dist L - mismatch EA EM L| ≤ e * (1 + mismatch EA EM L)

/-- A computed radius that is at least the exact one for a distance smaller by the error `e`. -/
def WideEnough (e alpha : ℝ) (rmax : ℝ → ℝ) : Prop :=
  ∀ x, e ≤ x → rmaxFn alpha ((x - e) / (1 + e)) ≤ rmax x

theorem mismatch_nonneg (L : Matrix (Fin N) (Fin N) ℤ) : 0 ≤ mismatch EA EM L := by
  rw [← mismatch_eq]
  exact C28_nonneg EA EM⁻¹ L

/-- the exact distance of a correspondence plus its error -/
noncomputable def upper (e : ℝ) (EA EM : Matrix (Fin N) (Fin N) ℝ) (L : Matrix (Fin N) (Fin N) ℤ) : ℝ :=
  mismatch EA EM L + e * (1 + mismatch EA EM L)

theorem upper_class (h : SearchSetting EA EM EM⁻¹ GA GM alpha) (e : ℝ) :
    ∀ L X, Equivalent GA GM L X → upper e EA EM X = upper e EA EM L := by
  intro L X hX
  have := setting_class h L X hX
  rw [mismatch_eq, mismatch_eq] at this
  unfold upper
  rw [this]

theorem upper_radius (hN : N ≤ 3) (h : SearchSetting EA EM EM⁻¹ GA GM alpha) {e : ℝ} (h0 : 0 ≤ e)
    {rmax : ℝ → ℝ} (hr : WideEnough e alpha rmax) (L : Matrix (Fin N) (Fin N) ℤ) (x : ℝ)
    (hL : upper e EA EM L ≤ x) : 0 ≤ rmax x ∧ (sumsq (flat L) : ℝ) ≤ rmax x ^ 2 := by
  unfold upper at hL
  have hm : 0 ≤ mismatch EA EM L := mismatch_nonneg L
  have hex : e ≤ x := by nlinarith [mul_nonneg h0 hm]
  have hd : cauchyDist L EA EM⁻¹ ≤ (x - e) / (1 + e) := by
    rw [mismatch_eq, le_div_iff₀ (by linarith)]
    linarith
  have hf : frob L ≤ rmaxFn alpha ((x - e) / (1 + e)) := by
    refine C32_radius hN EA EM⁻¹ alpha h.pos ?_ L _ hd
    intro y hy
    have e' : quartForm (quartD EA EM⁻¹) y = _ :=
      C31_tensor_real EA EM⁻¹ (Matrix.of fun i j => y (i, j))
    rw [e']
    refine h.bound _ ?_
    rw [← hy, Fintype.sum_prod_type]
    rfl
  have hf' := hf.trans (hr x hex)
  have hpos : 0 ≤ rmax x := by
    refine le_trans ?_ hf'
    unfold frob
    exact Real.sqrt_nonneg _
  exact ⟨hpos, (frob_le_iff hpos L).mp hf'⟩

theorem rounding_bounds (h : SearchSetting EA EM EM⁻¹ GA GM alpha) {e : ℝ}
    {dist : Matrix (Fin N) (Fin N) ℤ → ℝ} (hd : Approximates e dist EA EM) :
    Bounds (eqlatcor GA GM) dist (upper e EA EM) (fun L => L.det ≠ 0) :=
  eqlatcor_bounds h.groupA h.groupM (upper_class h e) (fun L => by
    have := (abs_le.mp (hd L)).2
    unfold upper
    linarith)

/-- **C87**, proved part.  Let the distances be computed with error `e` and let the computed radius be wide
enough for it.  For all lattices, all numbers of solutions, all slice sizes and all trial matrices the search
raises `StopIteration`, has not finished, or returns at least `nsol` non-singular correspondences, in the order
of their computed distances and pairwise inequivalent.  If apart from the first coordinate the positive
coordinates of its checkpoints are followed by zeros only, no correspondence outside the returned classes is
closer than a returned one by more than the errors of the two distances.
Missing: runs with other checkpoints and `StopIteration`, as in C38. -/
theorem C87_rounding_partial (hN1 : 1 ≤ N) (hN : N ≤ 3) (h : SearchSetting EA EM EM⁻¹ GA GM alpha)
    (e : ℝ) (h0 : 0 ≤ e) (dist : Matrix (Fin N) (Fin N) ℤ → ℝ) (hd : Approximates e dist EA EM)
    (rmax : ℝ → ℝ) (hr : WideEnough e alpha rmax) (nsol sliceSz : ℕ) (hn : 1 ≤ nsol) (hsz : 1 ≤ sliceSz)
    (samples : List (Matrix (Fin N) (Fin N) ℤ)) (fuel : ℕ) :
    directSearch GA GM nsol dist sliceSz rmax (fun L => L.det = 1) samples fuel = .error .stopIteration ∨
    (∃ trace, directSearch GA GM nsol dist sliceSz rmax (fun L => L.det = 1) samples fuel
      = .ok (none, trace)) ∨
    ∃ sols ext dmax trace, directSearch GA GM nsol dist sliceSz rmax (fun L => L.det = 1) samples fuel
        = .ok (some (sols, ext, dmax), trace) ∧
      nsol ≤ sols.length ∧
      sols.Pairwise (fun s t => s.d ≤ t.d ∧ ¬ Equivalent GA GM s.l t.l) ∧
      (∀ s ∈ sols, s.l.det ≠ 0 ∧ s.d = dist s.l) ∧
      ((∀ c ∈ trace, PositiveThenZero c.tail) →
        ∀ L : Matrix (Fin N) (Fin N) ℤ, L.det ≠ 0 → (¬ ∃ s ∈ sols, Equivalent GA GM s.l L) →
          ∀ s ∈ sols, mismatch EA EM s.l <
            mismatch EA EM L + e * (1 + mismatch EA EM L) + e * (1 + mismatch EA EM s.l)) := by
  have hb := rounding_bounds h hd
  have hA := h.groupA
  have hM := h.groupM
  have hneg : ∀ L : Matrix (Fin N) (Fin N) ℤ, upper e EA EM (-L) = upper e EA EM L := fun L =>
    upper_class h e L (-L) ⟨-1, h.negA, 1, hM.one_mem, by simp⟩
  unfold directSearch
  rcases initLoop_rspec hb hn (volOk := fun L => L.det = 1) (by intro L hL; rw [hL]; decide) samples
    (20 * nsol) [] [] ∅ none RInv.nil ExtInv.nil rfl (by simp; omega) with h' | ⟨acc, s1, e1, d1, h1, h2, h3⟩
  · right; left
    rw [h']
    exact ⟨[], rfl⟩
  · rw [h1]
    simp only
    rcases searchLoop_rspec hb hn hsz hN1 hneg (upper_radius hN h h0 hr) fuel (List.replicate (N ^ 2) 0) _ _ h3
      (by simp) with h' | ⟨r, trace, h4, h5⟩
    · exact Or.inl h'
    · right
      cases r with
      | none => exact Or.inl ⟨trace, h4⟩
      | some st =>
        right
        obtain ⟨more, g1, -, g2⟩ := h5 st rfl
        obtain ⟨sols, ext, dmax⟩ := st
        refine ⟨sols, ext, dmax, trace, h4, g1.full, ?_, fun s hs => (g1.inv.sound s hs).2, ?_⟩
        · refine g1.inv.sorted.and (g1.inv.diff.imp ?_)
          intro a b hab heq
          exact hab ((eqlatcor_eq_iff hA hM).mpr (equivalent_symm hA hM heq))
        · intro ht L hdet hnot s hs
          have hcov := g2 (fun c hc => goodStart_of_spec (ht c hc))
            (fun L _ hb => absurd hb (before_zero (flat_length L)))
          -- the bound of `L` exceeds all computed distances
          have key : ∀ K : Matrix (Fin N) (Fin N) ℤ, K ∈ ([] ++ acc) ++ more → K.det ≠ 0 →
              (¬ ∃ s ∈ sols, Equivalent GA GM s.l K) → ∀ s ∈ sols, s.d < upper e EA EM K := by
            intro K hK hKd hKn s hs
            rcases g1.inv.kept K hK hKd with ⟨t, ht, hKt⟩ | ⟨-, k2⟩
            · exact absurd ⟨t, ht, mem_eqlatcor.mp hKt⟩ hKn
            · exact k2 s hs
          have hlt : s.d < upper e EA EM L := by
            by_contra hge
            rw [not_lt] at hge
            obtain ⟨last, l1, l2⟩ := g1.last
            have hLd : upper e EA EM L ≤ dmax := hge.trans (by
              have := le_last_of_sorted g1.inv.sorted l1 s hs
              rw [l2] at this
              exact this)
            rcases hcov L hLd with hc | hc
            · rw [toMat_flat] at hc
              exact absurd (key L hc hdet hnot s hs) (not_lt.mpr hge)
            · rw [toMat_neg, toMat_flat] at hc
              have heq : Equivalent GA GM L (-L) := ⟨-1, h.negA, 1, hM.one_mem, by simp⟩
              have hdet' : (-L).det ≠ 0 := by
                rw [Matrix.det_neg]
                exact mul_ne_zero (pow_ne_zero _ (by norm_num)) hdet
              have := key (-L) hc hdet' (by
                rintro ⟨t, ht, hte⟩
                exact hnot ⟨t, ht, equivalent_trans hA hM hte (equivalent_symm hA hM heq)⟩) s hs
              rw [hneg] at this
              exact absurd this (not_lt.mpr hge)
          have hsd := (g1.inv.sound s hs).2.2
          have := (abs_le.mp (hd s.l)).1
          unfold upper at hlt
          rw [hsd] at hlt
          linarith

/-- **C87**: with errors below 100 percent the search still ends, once it is initialised. -/
theorem C87_ends (hN1 : 1 ≤ N) (hN : N ≤ 3) (h : SearchSetting EA EM EM⁻¹ GA GM alpha)
    (e : ℝ) (he : e < 1) (dist : Matrix (Fin N) (Fin N) ℤ → ℝ) (hd : Approximates e dist EA EM)
    (rmax : ℝ → ℝ) (nsol sliceSz : ℕ) (hn : 1 ≤ nsol) (hsz : 1 ≤ sliceSz)
    (samples : List (Matrix (Fin N) (Fin N) ℤ))
    (hinit : initLoop (eqlatcor GA GM) (fun L => L.det ≠ 0) (fun L => L.det = 1) nsol dist samples (20 * nsol)
      ([], ∅, none) ≠ .ok none) :
    ∃ rounds, ∀ fuel ≥ rounds, ∀ trace,
      directSearch GA GM nsol dist sliceSz rmax (fun L => L.det = 1) samples fuel ≠ .ok (none, trace) := by
  classical
  have hb := rounding_bounds h hd
  rcases initLoop_rspec hb hn (volOk := fun L => L.det = 1) (by intro L hL; rw [hL]; decide) samples
    (20 * nsol) [] [] ∅ none RInv.nil ExtInv.nil rfl (by simp; omega) with h' | ⟨acc, s1, e1, d1, h1, h2, h3⟩
  · exact absurd h' hinit
  · set R := rmaxFn alpha ((d1 + e) / (1 - e)) with hR
    set F : Finset ℝ := ((vecGen (N ^ 2) R none).map (fun v => dist (toMat N v))).toFinset with hF
    have hFmem : ∀ L, dist L ≤ d1 → dist L ∈ F := by
      intro L hL
      rw [hF, List.mem_toFinset, List.mem_map]
      refine ⟨flat L, ?_, by rw [toMat_flat]⟩
      rw [(C33_ball_once (N ^ 2) (Nat.one_le_pow _ _ hN1) R).2]
      have hle : cauchyDist L EA EM⁻¹ ≤ (d1 + e) / (1 - e) := by
        rw [mismatch_eq, le_div_iff₀ (by linarith)]
        have := (abs_le.mp (hd L)).1
        linarith
      have hnn : 0 ≤ (d1 + e) / (1 - e) := (C28_nonneg EA EM⁻¹ L).trans hle
      have h0 : 0 ≤ R := rmaxFn_nonneg h.pos hnn
      refine ⟨flat_length L, ?_⟩
      rw [euclid_le_iff h0, ← frob_le_iff h0]
      refine C32_radius hN EA EM⁻¹ alpha h.pos ?_ L _ hle
      intro y hy
      have e' : quartForm (quartD EA EM⁻¹) y = _ :=
        C31_tensor_real EA EM⁻¹ (Matrix.of fun i j => y (i, j))
      rw [e']
      refine h.bound _ ?_
      rw [← hy, Fintype.sum_prod_type]
      rfl
    refine ⟨(F.filter (fun x => x < d1)).card + 1, ?_⟩
    intro fuel hfuel trace
    unfold directSearch
    rw [h1]
    exact searchLoop_rfuel hb hn hsz rmax F d1 hFmem fuel _ _ _ h3 le_rfl (by simpa using hfuel) trace

/-! ### A run with inexact distances -/

/-- the exact radius is wide enough -/
theorem wide_exact {e : ℝ} (h0 : 0 ≤ e) (ha : 0 < alpha) : WideEnough e alpha (rmaxFn alpha) := by
  intro x hx
  refine rmaxFn_mono ha (div_nonneg (by linarith) (by linarith)) ?_
  rw [div_le_iff₀ (by linarith)]
  nlinarith

/-- **C87**: a radius computed with a relative error of at most a sixteenth of `e` is wide enough for the error `e`. -/
theorem C87_radius {e u : ℝ} (he : e ≤ 1) (h0 : 0 ≤ u) (hu : 16 * u ≤ e) (ha : 0 < alpha)
    {rmax : ℝ → ℝ} (hr : ∀ x, e ≤ x → (1 - u) * rmaxFn alpha x ≤ rmax x) : WideEnough e alpha rmax := by
  intro x hx
  refine le_trans ?_ (hr x hx)
  have hx0 : 0 ≤ x := by linarith
  have hy0 : 0 ≤ (x - e) / (1 + e) := div_nonneg (by linarith) (by linarith)
  set y := (x - e) / (1 + e) with hy
  have hyx : y * (1 + e) = x - e := div_mul_cancel₀ _ (by linarith)
  have hR : 0 ≤ (1 - u) * rmaxFn alpha x := mul_nonneg (by linarith) (rmaxFn_nonneg ha hx0)
  rw [← pow_le_pow_iff_left₀ (rmaxFn_nonneg ha hy0) hR (n := 4) (by norm_num), mul_pow,
    rmaxFn_pow ha hy0, rmaxFn_pow ha hx0, gammaFn_eq hy0, gammaFn_eq hx0, ← mul_div_assoc,
    div_le_div_iff_of_pos_right ha]
  have s0 := Real.sqrt_nonneg (3 : ℝ)
  have s1 := Real.sqrt_nonneg x
  have s2 := Real.sqrt_nonneg y
  have q0 : Real.sqrt 3 ≤ 2 := by
    rw [Real.sqrt_le_left (by norm_num)]
    norm_num
  have q1 := Real.sq_sqrt hx0
  have q2 := Real.sq_sqrt hy0
  set c := Real.sqrt 3
  set a := Real.sqrt x
  set b := Real.sqrt y
  have hba : b ≤ a := Real.sqrt_le_sqrt (by nlinarith)
  have key : c + b ≤ (1 - u) ^ 2 * (c + a) := by
    -- `a - b` is at least `2 * u * (c + a)`
    have h1 : (a - b) * (a + b) = x - y := by rw [← q1, ← q2]; ring
    have h2 : 16 * u * (1 + x) ≤ 2 * (x - y) := by
      have : (x - y) * (1 + e) = e * (1 + x) := by rw [sub_mul, hyx]; ring
      have hxy : 0 ≤ x - y := by nlinarith
      nlinarith
    have h3 : 2 * u * (c + a) ≤ a - b := by
      by_contra hlt
      rw [not_le] at hlt
      have hup : 0 < u := by
        rcases h0.eq_or_lt with h | h
        · rw [← h] at hlt
          linarith
        · exact h
      have hapos : 0 < a := by
        rw [show a = Real.sqrt x from rfl, Real.sqrt_pos]
        linarith
      have h4 : x - y ≤ (a - b) * (2 * a) := by
        rw [← h1]
        exact mul_le_mul_of_nonneg_left (by linarith) (by linarith)
      have h5 : (a - b) * (2 * a) < 2 * u * (c + a) * (2 * a) :=
        mul_lt_mul_of_pos_right hlt (by linarith)
      have h6 : 8 * u * (1 + x) < 2 * u * (c + a) * (2 * a) := by linarith
      have h7 : 8 * (1 + x) < 4 * ((c + a) * a) := by
        by_contra h
        rw [not_lt] at h
        nlinarith
      have h8 : c * a ≤ 2 * a := mul_le_mul_of_nonneg_right q0 s1
      nlinarith [sq_nonneg (a - 1)]
    nlinarith [mul_nonneg (sq_nonneg u) (add_nonneg s0 s1)]
  calc (c + b) ^ 2 ≤ ((1 - u) ^ 2 * (c + a)) ^ 2 := pow_le_pow_left₀ (by linarith) key 2
    _ = (1 - u) ^ 4 * (c + a) ^ 2 := by ring

/-- distances for the square lattice, too large by one thousandth for some correspondences; not
the same for equivalent ones -/
def roughDist (L : Matrix (Fin 2) (Fin 2) ℤ) : ℤ :=
  1000 * squareDist L + if L 0 0 < 0 then 1 else 0

theorem rough_approximates : Approximates (1 / 1000)
    (fun L => ((roughDist L : ℤ) : ℝ) / 1000) (1 : Matrix (Fin 2) (Fin 2) ℝ) 1 := by
  intro L
  have h := squareDist_eq L
  have e1 : mismatch (1 : Matrix (Fin 2) (Fin 2) ℝ) 1 L = (squareDist L : ℝ) := by
    rw [← mismatch_eq, inv_one, h, div_one]
  have h0 : (0 : ℝ) ≤ squareDist L := by rw [← e1]; exact mismatch_nonneg L
  rw [e1]
  unfold roughDist
  push_cast
  split_ifs <;> rw [abs_le] <;> constructor <;> linarith

set_option synthInstance.maxHeartbeats 400000 in
set_option synthInstance.maxSize 4000 in
set_option maxRecDepth 100000 in
/-- The hypotheses of `C87_rounding_partial` are met by a run with inexact distances: it returns `-1`, with a
distance above that of the equivalent `1`. -/
example : SearchSetting (1 : Matrix (Fin 2) (Fin 2) ℝ) 1 1⁻¹ square square (1 / 2) ∧
    Approximates (1 / 1000) (fun L => ((roughDist L : ℤ) : ℝ) / 1000) (1 : Matrix (Fin 2) (Fin 2) ℝ) 1 ∧
    WideEnough (1 / 1000) (1 / 2) (rmaxFn (1 / 2)) ∧
    ∃ sols ext dmax trace,
    directSearch square square 1 (fun L => ((roughDist L : ℤ) : ℝ) / 1000) 100
      (rmaxFn (1 / 2)) (fun L => L.det = 1) (-1 :: List.replicate 19 !![1, 1; 0, 1]) 1
        = .ok (some (sols, ext, dmax), trace) ∧
    (∀ c ∈ trace, PositiveThenZero c.tail) ∧ sols.map Sol.l = [-1] ∧ dmax = 1 / 1000 ∧ roughDist 1 = 0 := by
  refine ⟨by rw [inv_one]; exact square_setting.search, rough_approximates,
    wide_exact (by norm_num) (by norm_num), ?_⟩
  have h0 : initLoop (eqlatcor square square) (fun L => L.det ≠ 0) (fun L => L.det = 1) 1
      roughDist (-1 :: List.replicate 19 !![1, 1; 0, 1]) 20 ([], ∅, none)
      = .ok (some ([⟨-1, 1⟩], eqlatcor square square (-1), some 1)) := by decide +kernel
  have h1 : sliceLoop square square 1 roughDist 100
      ((vecGenZ 4 2 (some [0, 0, 0, 0])).length + 1) (vecGenZ 4 2 (some [0, 0, 0, 0]))
      ([⟨-1, 1⟩], eqlatcor square square (-1), 1)
      = .ok (none, ([⟨-1, 1⟩], eqlatcor square square (-1), 1)) := by decide +kernel
  have hs0 : 0 ≤ Real.sqrt (3 * (((1 : ℤ) : ℝ) / 1000)) := Real.sqrt_nonneg _
  have hs : Real.sqrt (3 * (((1 : ℤ) : ℝ) / 1000)) ≤ 1 / 10 := by
    rw [Real.sqrt_le_left (by norm_num)]
    norm_num
  have hfl : ⌊rmaxFn (1 / 2) (((1 : ℤ) : ℝ) / 1000) ^ 2⌋ = 2 := by
    have h := floor_rmax (alpha := 1 / 2) (d := ((1 : ℤ) : ℝ) / 1000) (by norm_num)
      (by norm_num) 2 (by unfold gammaFn; push_cast at hs0 hs ⊢; linarith)
      (by unfold gammaFn; push_cast at hs0 hs ⊢; linarith)
    exact_mod_cast h
  have e1 : vecGen (2 ^ 2) (rmaxFn (1 / 2) (((1 : ℤ) : ℝ) / 1000))
      (some (List.replicate (2 ^ 2) 0)) = vecGenZ 4 2 (some [0, 0, 0, 0]) := by
    rw [show (2 : ℕ) ^ 2 = 3 + 1 from rfl,
      vecGen_eqZ _ _ _ (rmaxFn_nonneg (by norm_num) (by norm_num)), hfl]
    rfl
  refine ⟨[⟨-1, ((1 : ℤ) : ℝ) / 1000⟩], eqlatcor square square (-1), ((1 : ℤ) : ℝ) / 1000, [[0, 0, 0, 0]],
    ?_, ?_, rfl, by norm_num, by decide⟩
  · have e : (fun L => ((roughDist L : ℤ) : ℝ) / 1000)
        = fun L => (fun z : ℤ => (z : ℝ) / 1000) (roughDist L) := rfl
    rw [e, directSearch_map (strictMono_div _ (by norm_num))]
    unfold directSearch
    rw [show 20 * 1 = 20 from rfl, h0]
    simp only
    unfold searchLoop
    simp only
    rw [e1, h1]
    simp only [Option.map_some, mapState]
    rfl
  · simp [PositiveThenZero]

end Verif.Props
