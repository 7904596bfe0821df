import Verif.Lemmas.Direct
import Verif.Lemmas.VecGenZ
import Verif.Spec.Ball
import Verif.Props.Search

/-!
# Properties C33, C34, C38 : the enumeration of correspondences and the direct search
-/

namespace Verif.Props

open Matrix Verif.Model Verif.Spec Verif.Lemmas

/-! ## C33 -/

theorem euclid_le_iff {R : ℝ} (hR : 0 ≤ R) (v : List ℤ) : euclid v ≤ R ↔ (sumsq v : ℝ) ≤ R ^ 2 := by
  unfold euclid
  rw [Real.sqrt_le_left hR]
  unfold sumsq
  have e : (((v.map (fun x : ℤ => x ^ 2)).sum : ℤ) : ℝ) = (v.map (fun x : ℤ => (x : ℝ) ^ 2)).sum := by
    induction v with
    | nil => simp
    | cons a v ih => simp [ih]
  rw [e]

/-- C33: in every dimension `≥ 1` and for every radius, the enumeration consists of exactly the integer
vectors in the ball, each once. -/
theorem C33_ball_once (dim : ℕ) (hd : 1 ≤ dim) (maxlen : ℝ) :
    (vecGen dim maxlen none).Nodup ∧
    ∀ v : List ℤ, v ∈ vecGen dim maxlen none ↔ v.length = dim ∧ euclid v ≤ maxlen := by
  obtain ⟨d, rfl⟩ : ∃ d, dim = d + 1 := ⟨dim - 1, by omega⟩
  rw [vecGen_eq]
  refine ⟨nodup_of_before (pairwise_vecGen0 _ _ _), ?_⟩
  intro v
  by_cases h0 : 0 ≤ maxlen
  · rw [mem_vecGen0 _ _ _ h0, euclid_le_iff h0]
  · rw [vecGen0_full, if_neg h0]
    constructor
    · simp
    · rintro ⟨-, h⟩
      exact absurd ((Real.sqrt_nonneg _).trans h) h0

/-- radius 1 in dimension 2, and the zero vector for radius 0 -/
example : vecGen 2 1 none = [[0, 0], [0, 1], [0, -1], [1, 0], [-1, 0]] := by
  rw [vecGen_eqZ _ _ _ (by norm_num)]
  norm_num
  decide

example : vecGen 3 0 none = [[0, 0, 0]] := by
  rw [vecGen_eqZ _ _ _ (by norm_num)]
  norm_num
  decide

/-! ## C34 -/

theorem goodStart_of_spec {v : List ℤ} (h : PositiveThenZero v) : GoodStart v := by
  unfold PositiveThenZero at h
  induction v with
  | nil => trivial
  | cons f v ih =>
    rw [List.pairwise_cons] at h
    by_cases hf : f ≤ 0
    · exact Or.inl ⟨hf, ih h.2⟩
    · exact Or.inr (fun y hy => h.1 y hy (not_le.mp hf))

/-- C34, proved part: resuming at a vector of the ball whose positive coordinates are followed by zeros
only gives exactly the rest of the full enumeration, beginning with the checkpoint.  Missing: the other
checkpoints (`C34_resume_fails`). -/
theorem C34_resume_partial (dim : ℕ) (hd : 1 ≤ dim) (maxlen : ℝ) (x0 : List ℤ)
    (hx : x0 ∈ vecGen dim maxlen none) (hg : PositiveThenZero x0) :
    ∃ done, vecGen dim maxlen none = done ++ vecGen dim maxlen (some x0) ∧
      (vecGen dim maxlen (some x0)).head? = some x0 := by
  obtain ⟨d, rfl⟩ : ∃ d, dim = d + 1 := ⟨dim - 1, by omega⟩
  rw [vecGen_eq] at hx
  rw [vecGen_eq, vecGen_eq]
  have h0 : 0 ≤ maxlen := by
    by_contra h
    rw [vecGen0_full, if_neg h] at hx
    simp at hx
  obtain ⟨⟨t, ht⟩, h2⟩ := resume_suffix (d + 1) maxlen x0 hx h0 (goodStart_of_spec hg)
  exact ⟨t, ht.symm, h2⟩

/-- C34 in dimension 1 needs no restriction. -/
theorem C34_resume_dim_one (maxlen : ℝ) (x0 : List ℤ) (hx : x0 ∈ vecGen 1 maxlen none) :
    ∃ done, vecGen 1 maxlen none = done ++ vecGen 1 maxlen (some x0) ∧
      (vecGen 1 maxlen (some x0)).head? = some x0 := by
  refine C34_resume_partial 1 le_rfl maxlen x0 hx ?_
  have := ((C33_ball_once 1 le_rfl maxlen).2 x0).mp hx
  obtain ⟨a, rfl⟩ := List.length_eq_one_iff.mp this.1
  simp [PositiveThenZero]

/-- a checkpoint meeting the hypotheses -/
example : ([-1, 2] : List ℤ) ∈ vecGen 2 3 none ∧ PositiveThenZero [-1, 2] ∧
    (vecGen 2 3 (some [-1, 2])).take 4 = [[-1, 2], [-1, -2], [2, 0], [2, 1]] := by
  refine ⟨?_, by simp [PositiveThenZero], ?_⟩ <;>
  · rw [vecGen_eqZ _ _ _ (by norm_num)]
    norm_num
    decide

/-- C34 fails in general: in dimension 2 with radius 2, resuming at `(1, 1)` loses `(-1, 0)`, which the
full enumeration yields after `(1, 1)`. -/
theorem C34_resume_fails :
    ([1, 1] : List ℤ) ∈ vecGen 2 2 none ∧
    (∃ a b, vecGen 2 2 none = a ++ [1, 1] :: b ∧ [-1, 0] ∈ b) ∧
    [-1, 0] ∉ vecGen 2 2 (some [1, 1]) := by
  have e : ∀ x0, vecGen 2 2 x0 = vecGenZ 2 4 x0 := by
    intro x0
    rw [vecGen_eqZ _ _ _ (by norm_num)]
    norm_num
  rw [e, e]
  refine ⟨by decide, ⟨(vecGenZ 2 4 none).take 6, (vecGenZ 2 4 none).drop 7, by decide, by decide⟩,
    by decide⟩

/-- C34: from a checkpoint outside the ball (as can happen after the radius has shrunk) the generator
also yields vectors outside the ball. -/
theorem C34_outside_ball :
    ([-2] : List ℤ) ∈ vecGen 1 1 (some [-2]) ∧ ¬ euclid [-2] ≤ 1 := by
  constructor
  · rw [vecGen_eqZ _ _ _ (by norm_num)]
    norm_num
    decide
  · rw [euclid_le_iff (by norm_num)]
    norm_num [sumsq]

/-! ## C38 -/

section
variable {N : ℕ} {D : Type} [LinearOrder D]
variable (GA GM : List (Matrix (Fin N) (Fin N) ℤ)) (dist : Matrix (Fin N) (Fin N) ℤ → D) (nsol : ℕ)
  (sliceSz : ℕ) (rmax : D → ℝ) (volOk : Matrix (Fin N) (Fin N) ℤ → Prop) [DecidablePred volOk]

theorem frob_le_iff {R : ℝ} (hR : 0 ≤ R) (L : Matrix (Fin N) (Fin N) ℤ) :
    frob L ≤ R ↔ (sumsq (flat L) : ℝ) ≤ R ^ 2 := by
  unfold frob
  rw [Real.sqrt_le_left hR, sumsq_flat]
  push_cast
  rfl

/-- C38: for every random initialisation the search either ends normally, with exactly the best
inequivalent ones among the candidates it has examined (at least `nsol` classes of them), or raises
`StopIteration`, or has not finished yet. -/
theorem C38_examined (hA : IsMatGroup GA) (hM : IsMatGroup GM)
    (hd : ∀ L X, Equivalent GA GM L X → dist X = dist L) (hn : 1 ≤ nsol) (hsz : 1 ≤ sliceSz)
    (hN : 1 ≤ N) (hvol : ∀ L, volOk L → L.det ≠ 0) (hr0 : ∀ L, 0 ≤ rmax (dist L))
    (hmono : ∀ L L', dist L ≤ dist L' → rmax (dist L) ≤ rmax (dist L'))
    (samples : List (Matrix (Fin N) (Fin N) ℤ)) (fuel : ℕ) :
    directSearch GA GM nsol dist sliceSz rmax volOk samples fuel = .error .stopIteration ∨
    (∃ trace, directSearch GA GM nsol dist sliceSz rmax volOk samples fuel = .ok (none, trace)) ∨
    ∃ sols ext dmax trace examined,
      directSearch GA GM nsol dist sliceSz rmax volOk samples fuel
        = .ok (some (sols, ext, dmax), trace) ∧
      BestClasses GA GM dist nsol examined (sols.map (fun s => (s.l, s.d))) ∧ nsol ≤ sols.length := by
  have hsym := eqlatcor_isSymmetry hA hM hd
  unfold directSearch
  rcases initLoop_spec hsym hn hvol samples (20 * nsol) [] [] ∅ none Inv.nil ExtInv.nil rfl
    (by simp; omega) with h | ⟨acc, s1, e1, d1, h1, h2, h3⟩
  · right; left
    rw [h]
    exact ⟨[], rfl⟩
  · rw [h1]
    simp only
    rcases searchLoop_spec hsym hn hsz hN hr0 hmono fuel (List.replicate (N ^ 2) 0) _ _ h3 (by simp)
      with h | ⟨r, trace, h4, h5⟩
    · exact Or.inl h
    · right
      cases r with
      | none => exact Or.inl ⟨trace, h4⟩
      | some st =>
        right
        obtain ⟨more, g1, -, -⟩ := h5 st rfl
        exact ⟨st.1, st.2.1, st.2.2, trace, _, h4,
          bestClasses_of_inv hA hM hd (fun _ _ => Iff.rfl) g1.inv, g1.full⟩

/-- C38, proved part: if the search ends normally and every checkpoint it resumed from is harmless
(apart from its first coordinate, positive coordinates are followed by zeros only), no correspondence
outside the returned classes is as close as any returned one.  `hrad` is what C32 proves of `rmax`.
Missing: runs with other checkpoints (`C38_missed_fails`) and runs that raise
`StopIteration` (`C38_stop_iteration_fails`). -/
theorem C38_optimal_partial (hA : IsMatGroup GA) (hM : IsMatGroup GM) (hneg : -1 ∈ GA)
    (hd : ∀ L X, Equivalent GA GM L X → dist X = dist L) (hn : 1 ≤ nsol) (hsz : 1 ≤ sliceSz)
    (hN : 1 ≤ N) (hvol : ∀ L, volOk L → L.det ≠ 0) (hr0 : ∀ L, 0 ≤ rmax (dist L))
    (hmono : ∀ L L', dist L ≤ dist L' → rmax (dist L) ≤ rmax (dist L'))
    (hrad : ∀ L L', dist L ≤ dist L' → frob L ≤ rmax (dist L'))
    (samples : List (Matrix (Fin N) (Fin N) ℤ)) (fuel : ℕ)
    (sols : List (Sol (Matrix (Fin N) (Fin N) ℤ) D)) (ext : Finset (Matrix (Fin N) (Fin N) ℤ)) (dmax : D)
    (trace : List (List ℤ))
    (h : directSearch GA GM nsol dist sliceSz rmax volOk samples fuel
      = .ok (some (sols, ext, dmax), trace))
    (htrace : ∀ c ∈ trace, PositiveThenZero c.tail) :
    ∀ L : Matrix (Fin N) (Fin N) ℤ, L.det ≠ 0 → (¬ ∃ s ∈ sols, Equivalent GA GM s.l L) →
      ∀ s ∈ sols, s.d < dist L := by
  have hsym := eqlatcor_isSymmetry hA hM hd
  unfold directSearch at h
  rcases initLoop_spec hsym hn hvol samples (20 * nsol) [] [] ∅ none Inv.nil ExtInv.nil rfl
    (by simp; omega) with h0 | ⟨acc, s1, e1, d1, h1, h2, h3⟩
  · rw [h0] at h
    cases h
  · rw [h1] at h
    simp only at h
    rcases searchLoop_spec hsym hn hsz hN hr0 hmono fuel (List.replicate (N ^ 2) 0) _ _ h3 (by simp)
      with h4 | ⟨r, trace', h4, h5⟩
    · rw [h4] at h; cases h
    · rw [h4] at h
      cases h
      obtain ⟨more, g1, -, g2⟩ := h5 _ rfl
      have hcov := g2 (fun c hc => goodStart_of_spec (htrace c hc))
        (fun v hv _ hb => absurd hb (before_zero hv))
      intro L hdet hnot s hs
      by_contra hle
      rw [not_lt] at hle
      obtain ⟨last, hl1, hl2⟩ := g1.last
      have hle' : dist L ≤ dmax := hle.trans (by
        have := le_last_of_sorted g1.inv.sorted hl1 s hs
        rw [hl2] at this
        exact this)
      obtain ⟨L', hL'⟩ := good_dmax g1
      have hn' := (frob_le_iff (hr0 L') L).mp (hrad L L' (by rw [hL']; exact hle'))
      rw [hL'] at hn'
      rcases hcov (flat L) (flat_length L) hn' with hc | hc
      · rw [toMat_flat] at hc
        exact hnot (good_kept hA hM g1 hc hdet hle')
      · rw [toMat_neg, toMat_flat] at hc
        have heq : Equivalent GA GM L (-L) := ⟨-1, hneg, 1, hM.one_mem, by simp⟩
        have hdet' : (-L).det ≠ 0 := by
          rw [Matrix.det_neg]
          exact mul_ne_zero (pow_ne_zero _ (by norm_num)) hdet
        obtain ⟨t, ht, hte⟩ := good_kept hA hM g1 hc hdet' (by rw [hd L _ heq]; exact hle')
        exact hnot ⟨t, ht, equivalent_trans hA hM hte (equivalent_symm hA hM heq)⟩

/-- C38: once initialised, the search ends (normally or with `StopIteration`): for every finite piece
of the random stream that completes the initialisation there is a number of rounds after which it has
ended. -/
theorem C38_terminates (hA : IsMatGroup GA) (hM : IsMatGroup GM)
    (hd : ∀ L X, Equivalent GA GM L X → dist X = dist L) (hn : 1 ≤ nsol) (hsz : 1 ≤ sliceSz)
    (hN : 1 ≤ N) (hvol : ∀ L, volOk L → L.det ≠ 0) (hr0 : ∀ L, 0 ≤ rmax (dist L))
    (hrad : ∀ L L', dist L ≤ dist L' → frob L ≤ rmax (dist L'))
    (samples : List (Matrix (Fin N) (Fin N) ℤ))
    (hinit : initLoop (eqlatcor GA GM) (fun L => L.det ≠ 0) volOk nsol dist samples (20 * nsol)
      ([], ∅, none) ≠ .ok none) :
    ∃ rounds, ∀ fuel ≥ rounds, ∀ trace,
      directSearch GA GM nsol dist sliceSz rmax volOk samples fuel ≠ .ok (none, trace) := by
  classical
  have hsym := eqlatcor_isSymmetry hA hM hd
  rcases initLoop_spec hsym hn hvol samples (20 * nsol) [] [] ∅ none Inv.nil ExtInv.nil rfl
    (by simp; omega) with h0 | ⟨acc, s1, e1, d1, h1, h2, h3⟩
  · exact absurd h0 hinit
  · obtain ⟨L0, hL0⟩ := good_dmax h3
    simp only at hL0
    set F : Finset D := ((vecGen (N ^ 2) (rmax d1) none).map (fun v => dist (toMat N v))).toFinset
      with hF
    have hFmem : ∀ L, dist L ≤ d1 → dist L ∈ F := by
      intro L hL
      rw [hF, List.mem_toFinset, List.mem_map]
      refine ⟨flat L, ?_, by rw [toMat_flat]⟩
      rw [(C33_ball_once (N ^ 2) (Nat.one_le_pow _ _ hN) (rmax d1)).2]
      have h0 : 0 ≤ rmax d1 := by rw [← hL0]; exact hr0 L0
      refine ⟨flat_length L, ?_⟩
      rw [euclid_le_iff h0, ← frob_le_iff h0, ← hL0]
      exact hrad L L0 (by rw [hL0]; exact hL)
    refine ⟨(F.filter (fun x => x < d1)).card + 1, ?_⟩
    intro fuel hfuel trace
    unfold directSearch
    rw [h1]
    exact searchLoop_fuel hsym hn hsz rmax F d1 hFmem fuel _ _ _ h3 le_rfl (by simpa using hfuel) trace

end

end Verif.Props
