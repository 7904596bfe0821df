import Verif.Model.Para
import Verif.Props.DirectRuns

/-!
# C66: the direct search with a pool of workers
-/

namespace Verif.Props

open Matrix Verif.Model Verif.Spec Verif.Lemmas

section
variable {D : Type} [LinearOrder D] {N : ℕ}

theorem foldl_min_spec (ds : List D) : ∀ d : D, (ds.foldl min d ≤ d ∧ ∀ x ∈ ds, ds.foldl min d ≤ x) ∧
    (ds.foldl min d = d ∨ ds.foldl min d ∈ ds) := by
  induction ds with
  | nil => intro d; simp
  | cons x ds ih =>
    intro d
    obtain ⟨⟨h1, h2⟩, h3⟩ := ih (min d x)
    simp only [List.foldl_cons]
    refine ⟨⟨h1.trans (min_le_left _ _), ?_⟩, ?_⟩
    · intro y hy
      rcases List.mem_cons.mp hy with rfl | hy
      · exact h1.trans (min_le_right _ _)
      · exact h2 y hy
    · rcases h3 with h3 | h3
      · rcases min_choice d x with h | h
        · left; rw [h3, h]
        · right; rw [h3, h]; exact List.mem_cons_self
      · right; exact List.mem_cons_of_mem _ h3

theorem npMin_spec {ds : List D} (h : ds ≠ []) :
    ∃ m, npMin ds = some m ∧ m ∈ ds ∧ ∀ x ∈ ds, m ≤ x := by
  cases ds with
  | nil => exact absurd rfl h
  | cons d ds =>
    obtain ⟨⟨h1, h2⟩, h3⟩ := foldl_min_spec ds d
    refine ⟨_, rfl, ?_, ?_⟩
    · rcases h3 with h3 | h3
      · rw [h3]; exact List.mem_cons_self
      · exact List.mem_cons_of_mem _ h3
    · intro x hx
      rcases List.mem_cons.mp hx with rfl | hx
      · exact h1
      · exact h2 x hx

/-- What the workers send back: members of their slices; and whatever is not sent back is farther than
the threshold or farther than something that is sent back. -/
theorem gather_spec {α : Type} (dist : α → D) (dmax : D) : ∀ (slices : List (List α)),
    (∀ s ∈ slices, s ≠ []) → ∀ c0 : Option (List α), ∃ r, gather dist dmax slices c0 = .ok r ∧
      (∀ x ∈ c0.getD [], x ∈ r.getD []) ∧
      (∀ x ∈ r.getD [], x ∈ c0.getD [] ∨ x ∈ slices.flatten) ∧
      ∀ x ∈ slices.flatten, x ∈ r.getD [] ∨ dmax < dist x ∨
        ∃ y ∈ r.getD [], dist y ≤ dmax ∧ dist y < dist x := by
  intro slices
  induction slices with
  | nil =>
    intro _ c0
    exact ⟨c0, rfl, fun x h => h, fun x h => Or.inl h, by simp⟩
  | cons s rest ih =>
    intro hne c0
    obtain ⟨m, hm, hmem, hle⟩ := npMin_spec (ds := s.map dist) (by
      simpa using hne s List.mem_cons_self)
    obtain ⟨y, hy, rfl⟩ := List.mem_map.mp hmem
    have hcalc : calcDist dist dmax s = .ok (if dist y ≤ dmax then
        some (s.filter fun x => decide (dist x ≤ dist y)) else none) := by
      simp only [calcDist, hm]
    by_cases hd : dist y ≤ dmax
    · rw [if_pos hd] at hcalc
      obtain ⟨r, h1, h2, h3, h4⟩ := ih (fun t ht => hne t (List.mem_cons_of_mem _ ht))
        (some (c0.getD [] ++ s.filter fun x => decide (dist x ≤ dist y)))
      refine ⟨r, by simp only [gather, hcalc]; exact h1, ?_, ?_, ?_⟩
      · intro x hx; exact h2 x (by simp [hx])
      · intro x hx
        rcases h3 x hx with h | h
        · simp only [Option.getD_some, List.mem_append, List.mem_filter] at h
          rcases h with h | h
          · exact Or.inl h
          · right; simp [h.1]
        · right; rw [List.flatten_cons]; exact List.mem_append_right _ h
      · intro x hx
        rw [List.flatten_cons, List.mem_append] at hx
        rcases hx with hx | hx
        · rcases le_or_gt (dist x) (dist y) with h | h
          · left
            apply h2
            simp [hx, h]
          · right; right
            refine ⟨y, h2 y ?_, hd, h⟩
            simp [hy]
        · exact h4 x hx
    · rw [if_neg hd] at hcalc
      obtain ⟨r, h1, h2, h3, h4⟩ := ih (fun t ht => hne t (List.mem_cons_of_mem _ ht)) c0
      refine ⟨r, by simp only [gather, hcalc]; exact h1, h2, ?_, ?_⟩
      · intro x hx
        rcases h3 x hx with h | h
        · exact Or.inl h
        · right; rw [List.flatten_cons]; exact List.mem_append_right _ h
      · intro x hx
        rw [List.flatten_cons, List.mem_append] at hx
        rcases hx with hx | hx
        · right; left
          exact lt_of_lt_of_le (not_le.mp hd) (hle _ (List.mem_map_of_mem hx))
        · exact h4 x hx

variable {GA GM : List (Matrix (Fin N) (Fin N) ℤ)} {nsol : ℕ} {dist : Matrix (Fin N) (Fin N) ℤ → D}

/-- One evaluated batch, in terms of what is offered. -/
theorem paraRound_spec (hsym : IsSymmetry (eqlatcor GA GM) dist (fun L => L.det ≠ 0)) (hn : 1 ≤ nsol)
    {seen : List (Matrix (Fin N) (Fin N) ℤ)} {st : SearchState N D} (h : Good GA GM nsol dist seen st)
    (slices : List (List (Matrix (Fin N) (Fin N) ℤ))) (hne : ∀ s ∈ slices, s ≠ []) :
    ∃ offered st', paraRound GA GM nsol dist slices st = .ok st' ∧
      Good GA GM nsol dist (seen ++ offered) st' ∧ st'.2.2 ≤ st.2.2 ∧
      (∀ x ∈ offered, x ∈ slices.flatten) ∧
      ∀ x ∈ slices.flatten, x ∈ offered ∨ st.2.2 < dist x ∨
        ∃ y ∈ offered, dist y ≤ st.2.2 ∧ dist y < dist x := by
  obtain ⟨r, h1, -, h3, h4⟩ := gather_spec dist st.2.2 slices hne none
  cases r with
  | none =>
    refine ⟨[], st, by simp only [paraRound, h1], by simpa using h, le_rfl, by simp, ?_⟩
    intro x hx
    simpa using h4 x hx
  | some cands =>
    obtain ⟨st', g1, g2, g3⟩ := good_update hsym hn h cands
    refine ⟨cands, st', by simp only [paraRound, h1, g1], g2, g3, ?_, ?_⟩
    · intro x hx; simpa using h3 x (by simpa using hx)
    · intro x hx; simpa using h4 x hx

/-- Of a full list with one solution the threshold is the smallest distance seen. -/
theorem good_one_le {seen : List (Matrix (Fin N) (Fin N) ℤ)} {st : SearchState N D}
    (h : Good GA GM 1 dist seen st) {y : Matrix (Fin N) (Fin N) ℤ} (hy : y ∈ seen) (hdet : y.det ≠ 0) :
    st.2.2 ≤ dist y := by
  obtain ⟨s, hs, hsd⟩ := h.last
  have h1 : clsOf (eqlatcor GA GM) s ∈ topN 1 (seenClasses (eqlatcor GA GM) dist
      (fun L => L.det ≠ 0) seen) := by
    rw [← h.inv.classes, List.mem_toFinset]
    exact List.mem_map_of_mem (List.mem_of_getLast? hs)
  by_contra hlt
  rw [not_le] at hlt
  rw [mem_topN] at h1
  have h2 := Finset.card_eq_zero.mp (Nat.lt_one_iff.mp h1.2)
  have : (eqlatcor GA GM y, dist y) ∈ (seenClasses (eqlatcor GA GM) dist
      (fun L => L.det ≠ 0) seen).filter (fun z => z.2 < (clsOf (eqlatcor GA GM) s).2) := by
    rw [Finset.mem_filter]
    refine ⟨mem_seenClasses.mpr ⟨y, hy, hdet, rfl⟩, ?_⟩
    change dist y < s.d
    rw [hsd]; exact hlt
  rw [h2] at this
  exact absurd this (Finset.notMem_empty _)

/-- One evaluated batch loses nothing if one solution is asked for and singular candidates are beyond
the threshold. -/
theorem paraRound_one (hsym : IsSymmetry (eqlatcor GA GM) dist (fun L => L.det ≠ 0))
    {seen : List (Matrix (Fin N) (Fin N) ℤ)} {st : SearchState N D} (h : Good GA GM 1 dist seen st)
    (slices : List (List (Matrix (Fin N) (Fin N) ℤ))) (hne : ∀ s ∈ slices, s ≠ [])
    (hsing : ∀ L, L.det = 0 → st.2.2 < dist L) :
    ∃ st', paraRound GA GM 1 dist slices st = .ok st' ∧
      Good GA GM 1 dist (seen ++ slices.flatten) st' ∧ st'.2.2 ≤ st.2.2 := by
  obtain ⟨off, st', h1, h2, h3, h4, h5⟩ := paraRound_spec hsym le_rfl h slices hne
  refine ⟨st', h1, ⟨?_, h2.ext, h2.full, h2.last⟩, h3⟩
  have hw : ∀ c ∈ slices.flatten.filter (fun x => decide (x ∉ off)), ∀ s ∈ st'.1, s.d < dist c := by
    intro c hc s hs
    rw [List.mem_filter, decide_eq_true_eq] at hc
    obtain ⟨last, hl, hld⟩ := h2.last
    refine lt_of_le_of_lt (le_last_of_sorted h2.inv.sorted hl s hs) ?_
    rw [hld]
    rcases h5 c hc.1 with h | h | ⟨y, hy, hyd, hyc⟩
    · exact absurd h hc.2
    · exact lt_of_le_of_lt h3 h
    · refine lt_of_le_of_lt (good_one_le h2 (List.mem_append_right _ hy) ?_) hyc
      intro h0
      exact absurd hyd (not_le.mpr (hsing y h0))
  refine (h2.inv.worse_list _ h2.full hw).congr ?_
  intro x
  simp only [List.mem_append, List.mem_filter, decide_eq_true_eq]
  constructor
  · rintro ((a | a) | a)
    · exact Or.inl a
    · exact Or.inr (h4 x a)
    · exact Or.inr a.1
  · rintro (a | a)
    · exact Or.inl (Or.inl a)
    · by_cases hx : x ∈ off
      · exact Or.inl (Or.inr hx)
      · exact Or.inr ⟨a, hx⟩

theorem paraSlices_flatten {α : Type} (sz : ℕ) : ∀ (k : ℕ) (g : List α),
    (paraSlices sz k g).flatten = g.take (k * sz) := by
  intro k
  induction k with
  | zero => intro g; simp [paraSlices]
  | succ k ih =>
    intro g
    rw [paraSlices, List.flatten_cons, ih, Nat.succ_mul, Nat.add_comm, List.take_add]

theorem paraSlices_ne {α : Type} {sz : ℕ} (hsz : 1 ≤ sz) : ∀ (k : ℕ) (g : List α), k * sz < g.length →
    ∀ s ∈ paraSlices sz k g, s ≠ [] := by
  intro k
  induction k with
  | zero => intro g _ s hs; simp [paraSlices] at hs
  | succ k ih =>
    intro g hg s hs
    rw [Nat.succ_mul] at hg
    rcases List.mem_cons.mp hs with rfl | hs
    · intro h0
      have := congrArg List.length h0
      rw [List.length_take, List.length_nil] at this
      omega
    · exact ih (g.drop sz) (by rw [List.length_drop]; omega) s hs

/-- A run of the pool search for one solution, started with a right list and a threshold below the
distances of all singular candidates. -/
theorem paraLoop_one (hsym : IsSymmetry (eqlatcor GA GM) dist (fun L => L.det ≠ 0))
    {sz k : ℕ} (hsz : 1 ≤ sz) (rmax : D → ℝ) : ∀ (fuel : ℕ) (checkpoint : List ℤ)
    (seen : List (Matrix (Fin N) (Fin N) ℤ)) (st : SearchState N D), Good GA GM 1 dist seen st →
    (∀ L, L.det = 0 → st.2.2 < dist L) →
    ∃ r trace, paraLoop GA GM 1 dist sz k rmax fuel checkpoint st = .ok (r, trace) ∧
      ∀ st', r = some st' → Good GA GM 1 dist (seen ++ trace.map (toMat N)) st' := by
  intro fuel
  induction fuel with
  | zero => intro cp seen st _ _; exact ⟨none, [], rfl, by simp⟩
  | succ fuel ih =>
    intro cp seen st h hsing
    unfold paraLoop
    simp only
    cases hd : (vecGen (N ^ 2) (rmax st.2.2) (some cp)).drop (k * sz) with
    | nil =>
      refine ⟨some st, [], rfl, ?_⟩
      intro st' e
      cases e
      simpa using h
    | cons cp' post =>
      have hlen : k * sz < (vecGen (N ^ 2) (rmax st.2.2) (some cp)).length := by
        have := congrArg List.length hd
        rw [List.length_drop, List.length_cons] at this
        omega
      obtain ⟨st', h1, h2, h3⟩ := paraRound_one hsym h
        ((paraSlices sz k (vecGen (N ^ 2) (rmax st.2.2) (some cp))).map fun s => s.map (toMat N)) (by
          intro s hs
          obtain ⟨t, ht, rfl⟩ := List.mem_map.mp hs
          simpa using paraSlices_ne hsz k _ hlen t ht) hsing
      rw [h1]
      simp only
      obtain ⟨r, tr, h4, h5⟩ := ih cp' _ st' h2 (fun L hL => lt_of_le_of_lt h3 (hsing L hL))
      rw [h4]
      refine ⟨r, _, rfl, ?_⟩
      intro st2 e
      have := h5 st2 e
      rw [← List.map_flatten, paraSlices_flatten, List.append_assoc, ← List.map_append] at this
      exact this

end

/-! ### the Cauchy distance of a singular candidate -/

/-- A singular correspondence is at distance at least 1. -/
theorem cauchy_singular {N : ℕ} (EA EMinv : Matrix (Fin N) (Fin N) ℝ) (L : Matrix (Fin N) (Fin N) ℤ)
    (h : L.det = 0) : 1 ≤ cauchyDist L EA EMinv := by
  have h0 : (Cinv L EA EMinv).det = 0 := by
    have : (intMat ℝ L).det = 0 := by
      have e : (intMat ℝ L).det = (L.det : ℝ) := (Int.cast_det L).symm
      rw [e, h]; simp
    rw [Cinv, Matrix.det_mul, Finv, Matrix.det_mul, Matrix.det_mul, this]
    simp
  obtain ⟨v, hv, hCv⟩ := Matrix.exists_mulVec_eq_zero_iff.mpr h0
  set B := Cinv L EA EMinv - 1 with hB
  have hBv : ∀ i, ∑ j, B i j * v j = - v i := by
    intro i
    have := congrFun hCv i
    simp only [Matrix.mulVec, dotProduct, Pi.zero_apply] at this
    simp only [hB, Matrix.sub_apply, sub_mul, Finset.sum_sub_distrib, this, Matrix.one_apply]
    simp
  have hpos : 0 < ∑ i, v i ^ 2 := by
    obtain ⟨i, hi⟩ := Function.ne_iff.mp hv
    exact Finset.sum_pos' (fun j _ => sq_nonneg _) ⟨i, Finset.mem_univ _, sq_pos_of_ne_zero hi⟩
  have hcs : ∀ i, v i ^ 2 ≤ (∑ j, B i j ^ 2) * ∑ j, v j ^ 2 := by
    intro i
    have := Finset.sum_mul_sq_le_sq_mul_sq Finset.univ (fun j => B i j) v
    rw [hBv i, neg_sq] at this
    exact this
  have hsum : ∑ i, v i ^ 2 ≤ (∑ i, ∑ j, B i j ^ 2) * ∑ j, v j ^ 2 := by
    rw [Finset.sum_mul]
    exact Finset.sum_le_sum fun i _ => hcs i
  have e : cauchyDist L EA EMinv = ∑ i, ∑ j, B i j ^ 2 := by
    simp only [cauchyDist, ← hB, pow_two]
  rw [e]
  by_contra hlt
  rw [not_le] at hlt
  nlinarith

/-- C66, proved part: if one solution is asked for and the threshold found by the initialisation is below
1 (so that no singular candidate is within it), the result of the pool search is the right answer for
the initial candidates and all vectors of the evaluated batches.  Missing: more solutions
(`C66_second_fails`), a threshold of 1 or more (`C66_singular_fails`), and the vectors after the last
evaluated batch (`C66_last_batch_fails`). -/
theorem C66_evaluated_partial {N : ℕ} {EA EM EMinv : Matrix (Fin N) (Fin N) ℝ}
    {GA GM : List (Matrix (Fin N) (Fin N) ℤ)} {alpha : ℝ} (hS : SearchSetting EA EM EMinv GA GM alpha)
    (sz k : ℕ) (hsz : 1 ≤ sz) (rmax : ℝ → ℝ) (samples : List (Matrix (Fin N) (Fin N) ℤ)) (n : ℕ)
    (hn : 1 ≤ n) (sols : List (Sol (Matrix (Fin N) (Fin N) ℤ) ℝ))
    (ext : Finset (Matrix (Fin N) (Fin N) ℤ)) (dmax : ℝ)
    (hinit : initLoop (eqlatcor GA GM) (fun L => L.det ≠ 0) (fun L => L.det = 1) 1
      (fun L => cauchyDist L EA EMinv) samples n ([], ∅, none) = .ok (some (sols, ext, some dmax)))
    (hlt : dmax < 1) (fuel : ℕ) (checkpoint : List ℤ) :
    ∃ initial, (∀ L ∈ initial, L ∈ samples ∧ L.det = 1) ∧
    ∃ r trace, paraLoop GA GM 1 (fun L => cauchyDist L EA EMinv) sz k rmax fuel checkpoint
        (sols, ext, dmax) = .ok (r, trace) ∧
      ∀ st, r = some st → BestClasses GA GM (fun L => cauchyDist L EA EMinv) 1
        (initial ++ trace.map (toMat N)) (st.1.map fun s => (s.l, s.d)) := by
  have hsym := eqlatcor_isSymmetry hS.groupA hS.groupM (setting_class hS)
  rcases initLoop_spec (volOk := fun L => L.det = 1) hsym le_rfl (by intro L hL; rw [hL]; decide)
    samples n [] [] ∅ none Inv.nil ExtInv.nil rfl (by simp; omega) with
    h0 | ⟨acc, s1, e1, d1, h1, h2, h3⟩
  · rw [h0] at hinit; cases hinit
  · rw [h1] at hinit
    cases hinit
    refine ⟨acc, h2, ?_⟩
    obtain ⟨r, tr, h4, h5⟩ := paraLoop_one hsym (k := k) hsz rmax fuel checkpoint _ _ h3
      (fun L hL => lt_of_lt_of_le hlt (cauchy_singular EA EMinv L hL))
    refine ⟨r, tr, h4, fun st e => ?_⟩
    have := h5 st e
    rw [List.nil_append] at this
    exact bestClasses_of_inv hS.groupA hS.groupM (setting_class hS) (fun _ _ => Iff.rfl) this.inv

/-! ### what is lost -/

set_option synthInstance.maxHeartbeats 400000
set_option synthInstance.maxSize 4000
set_option maxRecDepth 100000

/-- The initialisation for the square lattice onto itself. -/
def paraSamples : List (Matrix (Fin 2) (Fin 2) ℤ) :=
  !![1, 1; 0, 1] :: List.replicate 49 !![2, 1; 1, 1]

theorem para_init : initLoop (eqlatcor square square) (fun L => L.det ≠ 0) (fun L => L.det = 1) 1
    squareDist paraSamples 50 ([], ∅, none)
      = .ok (some ([⟨!![1, 1; 0, 1], 3⟩], eqlatcor square square !![1, 1; 0, 1], some 3)) := by
  decide +kernel

/-- C66 fails: for a square lattice onto itself, with the numbers of the script (slices of 100, 80 slices
in a batch), the search ends with a solution at distance 3, although the identity, at distance 0, is
among the vectors generated: the batch in which the generator ends is thrown away. -/
theorem C66_last_batch_fails :
    ∃ (EA EM EMinv : Matrix (Fin 2) (Fin 2) ℝ) (GA GM : List (Matrix (Fin 2) (Fin 2) ℤ)) (alpha : ℝ)
      (samples : List (Matrix (Fin 2) (Fin 2) ℤ))
      (sols : List (Sol (Matrix (Fin 2) (Fin 2) ℤ) ℝ)) (ext : Finset (Matrix (Fin 2) (Fin 2) ℤ)) (dmax : ℝ),
      ValidSetting EA EM EMinv GA GM alpha ∧
      initLoop (eqlatcor GA GM) (fun L => L.det ≠ 0) (fun L => L.det = 1) 1
        (fun L => cauchyDist L EA EMinv) samples 50 ([], ∅, none) = .ok (some (sols, ext, some dmax)) ∧
      (∀ fuel ≥ 1, paraLoop GA GM 1 (fun L => cauchyDist L EA EMinv) 100 80 (rmaxFn alpha) fuel
        (List.replicate (2 ^ 2) 0) (sols, ext, dmax) = .ok (some (sols, ext, dmax), [])) ∧
      (∀ s ∈ sols, s.d = 3) ∧
      ∃ v ∈ vecGen (2 ^ 2) (rmaxFn alpha dmax) (some (List.replicate (2 ^ 2) 0)),
        (toMat 2 v).det ≠ 0 ∧ cauchyDist (toMat 2 v) EA EMinv = 0 := by
  have e : (fun L => cauchyDist L (1 : Matrix (Fin 2) (Fin 2) ℝ) 1)
      = fun L => (fun z : ℤ => (z : ℝ) / 1) (squareDist L) := funext squareDist_eq
  have e1 : vecGen (2 ^ 2) (rmaxFn (1 / 2) (((3 : ℤ) : ℝ) / 1))
      (some (List.replicate (2 ^ 2) 0)) = vecGenZ 4 4 (some [0, 0, 0, 0]) := by
    rw [show (2 : ℕ) ^ 2 = 3 + 1 from rfl,
      vecGen_eqZ _ _ _ (rmaxFn_nonneg (by norm_num) (by norm_num)), square_floor]
    rfl
  refine ⟨1, 1, 1, square, square, 1 / 2, paraSamples, [⟨!![1, 1; 0, 1], ((3 : ℤ) : ℝ) / 1⟩],
    eqlatcor square square !![1, 1; 0, 1], ((3 : ℤ) : ℝ) / 1, square_setting, ?_, ?_, ?_, ?_⟩
  · rw [e]
    have := initLoop_map (strictMono_div 1 (by norm_num)) (eqlatcor square square) (fun L => L.det ≠ 0)
      (fun L => L.det = 1) 1 squareDist paraSamples 50 [] ∅ none
    rw [para_init] at this
    exact this
  · intro fuel hf
    obtain ⟨fuel, rfl⟩ : ∃ f, fuel = f + 1 := ⟨fuel - 1, by omega⟩
    unfold paraLoop
    simp only
    rw [e1]
    have : (vecGenZ 4 4 (some [0, 0, 0, 0])).drop (80 * 100) = [] := by decide +kernel
    rw [this]
  · intro s hs
    rw [List.mem_singleton] at hs
    subst hs
    norm_num
  · rw [e1]
    refine ⟨[1, 0, 0, 1], by decide +kernel, by decide +kernel, ?_⟩
    rw [squareDist_eq]
    have : squareDist (toMat 2 [1, 0, 0, 1]) = 0 := by decide +kernel
    rw [this]; simp

/-- C66 fails: of a slice with two good candidates only the better one reaches the list, so that of two
solutions asked for the second one is wrong. -/
theorem C66_second_fails :
    (∀ L, cauchyDist L (1 : Matrix (Fin 2) (Fin 2) ℝ) 1 = (squareDist L : ℝ) / 1) ∧
    ∃ (st : SearchState 2 ℤ) (slice : List (Matrix (Fin 2) (Fin 2) ℤ)) (e e' : Finset _),
      addSols (eqlatcor square square) (fun L => L.det ≠ 0) 2 squareDist
        [!![2, 1; 1, 1], !![1, 2; 0, 1]] ([], ∅) = .ok (st.1, st.2.1) ∧ st.2.2 = 35 ∧
      updateSol (eqlatcor square square) (fun L => L.det ≠ 0) 2 squareDist slice st.1 st.2.1 st.2.2 =
        .ok (true, [⟨1, 0⟩, ⟨!![1, 1; 0, 1], 3⟩], e, 3) ∧
      paraRound square square 2 squareDist [slice] st =
        .ok ([⟨1, 0⟩, ⟨!![1, 2; 0, 1], 24⟩], e', 24) := by
  refine ⟨squareDist_eq, ([⟨!![1, 2; 0, 1], 24⟩, ⟨!![2, 1; 1, 1], 35⟩],
    ∅ ∪ eqlatcor square square !![2, 1; 1, 1] ∪ eqlatcor square square !![1, 2; 0, 1], 35),
    [1, !![1, 1; 0, 1]],
    (((∅ ∪ eqlatcor square square !![2, 1; 1, 1] ∪ eqlatcor square square !![1, 2; 0, 1]) ∪
      eqlatcor square square 1) \ eqlatcor square square !![2, 1; 1, 1] ∪
      eqlatcor square square !![1, 1; 0, 1]) \ eqlatcor square square !![1, 2; 0, 1],
    ((∅ ∪ eqlatcor square square !![2, 1; 1, 1] ∪ eqlatcor square square !![1, 2; 0, 1]) ∪
      eqlatcor square square 1) \ eqlatcor square square !![2, 1; 1, 1], ?_, rfl, ?_, ?_⟩ <;>
    decide +kernel

/-- C66 fails: if a singular candidate is the closest one of a slice, the slice is lost. -/
theorem C66_singular_fails :
    (∀ L, cauchyDist L (1 : Matrix (Fin 2) (Fin 2) ℝ) 1 = (squareDist L : ℝ) / 1) ∧
    ∃ (slice : List (Matrix (Fin 2) (Fin 2) ℤ)) (e e' : Finset _),
      updateSol (eqlatcor square square) (fun L => L.det ≠ 0) 1 squareDist slice
        [⟨!![1, 2; 0, 1], 24⟩] (eqlatcor square square !![1, 2; 0, 1]) 24 =
        .ok (true, [⟨!![1, 1; 0, 1], 3⟩], e, 3) ∧
      paraRound square square 1 squareDist [slice]
        ([⟨!![1, 2; 0, 1], 24⟩], eqlatcor square square !![1, 2; 0, 1], 24) =
        .ok ([⟨!![1, 2; 0, 1], 24⟩], e', 24) := by
  refine ⟨squareDist_eq, [!![1, 0; 0, 0], !![1, 1; 0, 1]],
    (eqlatcor square square !![1, 2; 0, 1] ∪ eqlatcor square square !![1, 0; 0, 0] ∪
      eqlatcor square square !![1, 1; 0, 1]) \ eqlatcor square square !![1, 2; 0, 1],
    eqlatcor square square !![1, 2; 0, 1] ∪ eqlatcor square square !![1, 0; 0, 0], ?_, ?_⟩ <;>
    decide +kernel

/-- the hypotheses of `C66_evaluated_partial` are met: the square lattice, one of the trial matrices being
the identity -/
example : initLoop (eqlatcor square square) (fun L => L.det ≠ 0) (fun L => L.det = 1) 1
    (fun L => cauchyDist L (1 : Matrix (Fin 2) (Fin 2) ℝ) 1) (1 :: List.replicate 49 !![1, 1; 0, 1]) 50
      ([], ∅, none)
    = .ok (some ([⟨1, 0⟩], eqlatcor square square 1, some 0)) ∧ (0 : ℝ) < 1 := by
  have e : (fun L => cauchyDist L (1 : Matrix (Fin 2) (Fin 2) ℝ) 1)
      = fun L => (fun z : ℤ => (z : ℝ) / 1) (squareDist L) := funext squareDist_eq
  refine ⟨?_, by norm_num⟩
  rw [e]
  have := initLoop_map (strictMono_div 1 (by norm_num)) (eqlatcor square square) (fun L => L.det ≠ 0)
    (fun L => L.det = 1) 1 squareDist (1 :: List.replicate 49 !![1, 1; 0, 1]) 50 [] ∅ none
  have h0 : initLoop (eqlatcor square square) (fun L => L.det ≠ 0) (fun L => L.det = 1) 1
      squareDist (1 :: List.replicate 49 !![1, 1; 0, 1]) 50 ([], ∅, none)
      = .ok (some ([⟨1, 0⟩], eqlatcor square square 1, some 0)) := by decide +kernel
  rw [h0] at this
  simpa [mapSol] using this

end Verif.Props
