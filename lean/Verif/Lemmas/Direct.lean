import Verif.Model.Direct
import Verif.Lemmas.LatCor
import Verif.Lemmas.VecGen

/-!
# Lemmas about the direct search
-/

namespace Verif.Lemmas

open Matrix Verif.Model Verif.Spec

variable {D : Type} [LinearOrder D] {N : ℕ}
variable {GA GM : List (Matrix (Fin N) (Fin N) ℤ)} {nsol : ℕ} {dist : Matrix (Fin N) (Fin N) ℤ → D}

/-- A state in which the list is filled and right for the candidates `seen`. -/
structure Good (GA GM : List (Matrix (Fin N) (Fin N) ℤ)) (nsol : ℕ)
    (dist : Matrix (Fin N) (Fin N) ℤ → D) (seen : List (Matrix (Fin N) (Fin N) ℤ))
    (st : SearchState N D) : Prop where
  inv : Inv (eqlatcor GA GM) dist (fun L => L.det ≠ 0) nsol seen st.1
  ext : ExtInv (eqlatcor GA GM) (fun L => L.det ≠ 0) st.1 st.2.1
  full : nsol ≤ st.1.length
  last : ∃ s, st.1.getLast? = some s ∧ s.d = st.2.2

theorem good_update (hsym : IsSymmetry (eqlatcor GA GM) dist (fun L => L.det ≠ 0)) (hn : 1 ≤ nsol)
    {seen : List (Matrix (Fin N) (Fin N) ℤ)} {st : SearchState N D} (h : Good GA GM nsol dist seen st)
    (ls : List (Matrix (Fin N) (Fin N) ℤ)) :
    ∃ st', updateSol (eqlatcor GA GM) (fun L => L.det ≠ 0) nsol dist ls st.1 st.2.1 st.2.2
        = .ok (decide (st'.2.2 < st.2.2), st') ∧ Good GA GM nsol dist (seen ++ ls) st' ∧
      st'.2.2 ≤ st.2.2 := by
  obtain ⟨s, h1, h2⟩ := h.last
  obtain ⟨sols', ext', last', g1, g2, g3, g4, g5, g6⟩ := updateSol_spec hsym hn ls h.inv h.ext h.full h1
  rw [h2] at g1 g6
  exact ⟨(sols', ext', last'.d), g1, ⟨g2, g3, g4, ⟨last', g5, rfl⟩⟩, g6⟩

theorem sliceLoop_spec (hsym : IsSymmetry (eqlatcor GA GM) dist (fun L => L.det ≠ 0)) (hn : 1 ≤ nsol)
    {sz : ℕ} (hsz : 1 ≤ sz) : ∀ (fuel : ℕ) (g : List (List ℤ))
      (seen : List (Matrix (Fin N) (Fin N) ℤ)) (st : SearchState N D), g.length < fuel →
      Good GA GM nsol dist seen st →
      (sliceLoop GA GM nsol dist sz fuel g st = .error .stopIteration) ∨
      (∃ st', sliceLoop GA GM nsol dist sz fuel g st = .ok (none, st') ∧
        Good GA GM nsol dist (seen ++ g.map (toMat N)) st' ∧ st'.2.2 = st.2.2) ∨
      (∃ cp st' pre post, sliceLoop GA GM nsol dist sz fuel g st = .ok (some cp, st') ∧
        g = pre ++ cp :: post ∧ Good GA GM nsol dist (seen ++ pre.map (toMat N)) st' ∧
        st'.2.2 < st.2.2) := by
  intro fuel
  induction fuel with
  | zero => intro g seen st h; omega
  | succ fuel ih =>
    intro g seen st hf h
    obtain ⟨sols, ext, dmax⟩ := st
    unfold sliceLoop
    split_ifs with hl
    · obtain ⟨st', h1, h2, h3⟩ := good_update hsym hn h ((g.take sz).map (toMat N))
      simp only at h1 h3
      rw [h1]
      simp only
      split_ifs with hu
      · rw [decide_eq_true_eq] at hu
        cases hd : g.drop sz with
        | nil => left; rfl
        | cons cp post =>
          right; right
          exact ⟨cp, st', g.take sz, post, rfl, by rw [← hd, List.take_append_drop], h2, hu⟩
      · have hu' : st'.2.2 = dmax := by
          rw [decide_eq_true_eq, not_lt] at hu
          exact le_antisymm h3 hu
        have hlt : (g.drop sz).length < fuel := by
          rw [List.length_take] at hl
          rw [List.length_drop]
          omega
        rcases ih (g.drop sz) _ st' hlt h2 with h' | ⟨st2, h4, h5, h6⟩ | ⟨cp, st2, pre, post, h4, h5, h6, h7⟩
        · left; exact h'
        · right; left
          refine ⟨st2, h4, ?_, by rw [h6, hu']⟩
          rw [List.append_assoc, ← List.map_append, List.take_append_drop] at h5
          exact h5
        · right; right
          refine ⟨cp, st2, g.take sz ++ pre, post, h4, ?_, ?_, by rw [hu'] at h7; exact h7⟩
          · rw [List.append_assoc, ← h5, List.take_append_drop]
          · rw [List.map_append, ← List.append_assoc]
            exact h6
    · right; left
      have hg : g = [] := by
        rw [List.length_take] at hl
        exact List.length_eq_zero_iff.mp (by omega)
      subst hg
      exact ⟨_, rfl, by simpa using h, rfl⟩

theorem sq_eq_succ (hN : 1 ≤ N) : ∃ m, N ^ 2 = m + 1 := by
  have : 1 ≤ N ^ 2 := Nat.one_le_pow _ _ hN
  exact ⟨N ^ 2 - 1, by omega⟩

/-- Vectors examined up to sign. -/
def Covered (N : ℕ) (seen : List (Matrix (Fin N) (Fin N) ℤ)) (v : List ℤ) : Prop :=
  toMat N v ∈ seen ∨ toMat N (v.map (fun x => -x)) ∈ seen

theorem Covered.mono {seen seen' : List (Matrix (Fin N) (Fin N) ℤ)} (hs : ∀ x ∈ seen, x ∈ seen')
    {v : List ℤ} (h : Covered N seen v) : Covered N seen' v := h.imp (hs _) (hs _)

theorem covered_neg {seen : List (Matrix (Fin N) (Fin N) ℤ)} {v : List ℤ} :
    Covered N seen (v.map (fun x => -x)) ↔ Covered N seen v := by
  unfold Covered
  rw [List.map_map]
  have : ((fun x : ℤ => -x) ∘ fun x => -x) = id := by funext x; simp
  rw [this, List.map_id]
  exact Or.comm

theorem sumsq_neg (v : List ℤ) : sumsq (v.map (fun x => -x)) = sumsq v := by
  unfold sumsq
  rw [List.map_map]
  congr 2
  funext x
  simp

/-- All vectors of the ball before `cp` have been examined (up to sign). -/
def CoveredBefore (N : ℕ) (seen : List (Matrix (Fin N) (Fin N) ℤ)) (R : ℝ) (cp : List ℤ) : Prop :=
  ∀ v : List ℤ, v.length = N ^ 2 → (sumsq v : ℝ) ≤ R ^ 2 → before v cp → Covered N seen v

/-- One pass of the generator from a checkpoint: what has been examined before `stop` (or at all). -/
theorem covered_step {seen : List (Matrix (Fin N) (Fin N) ℤ)} {R : ℝ} (hR : 0 ≤ R) {cp : List ℤ}
    (hN : 1 ≤ N) (hcp : cp.length = N ^ 2) (hgood : GoodStart cp.tail)
    (hb : CoveredBefore N seen R cp)
    (pre post : List (List ℤ)) (hg : vecGen (N ^ 2) R (some cp) = pre ++ post)
    (v : List ℤ) (hv : v.length = N ^ 2) (hn : (sumsq v : ℝ) ≤ R ^ 2)
    (hpost : ∀ x ∈ post, before v x) : Covered N (seen ++ pre.map (toMat N)) v := by
  obtain ⟨m, hm⟩ := sq_eq_succ hN
  rw [hm, vecGen_eq] at hg
  have hmono : ∀ x ∈ seen, x ∈ seen ++ pre.map (toMat N) := fun x hx => by simp [hx]
  by_cases hbef : before v cp
  · exact (hb v hv hn hbef).mono hmono
  · rw [hm] at hv hcp
    -- a vector produced by this pass and not in `post` is in `pre`
    have hin : ∀ u, u ∈ vecGen0 (m + 1) R (some cp) → (∀ x ∈ post, before u x) →
        Covered N (seen ++ pre.map (toMat N)) u := by
      intro u hu hup
      rw [hg, List.mem_append] at hu
      rcases hu with hu | hu
      · left
        exact List.mem_append_right _ (List.mem_map_of_mem hu)
      · exact absurd (hup u hu) (before_irrefl u)
    cases cp with
    | nil => simp at hcp
    | cons f xs =>
      cases v with
      | nil => simp at hv
      | cons g w =>
        have hxl : xs.length = m := by simpa using hcp
        have hwl : w.length = m := by simpa using hv
        rcases resume_complete_sym m R f g xs w hxl hR hwl hn hbef hgood with h | ⟨hf, hgf, hw⟩
        · exact hin _ h hpost
        · -- the mirror image `(f, -w)`
          rw [← covered_neg, List.map_cons]
          have e : -g = f := by omega
          rw [e]
          have hn' : (sumsq (f :: w.map (fun x => -x)) : ℝ) ≤ R ^ 2 := by
            have := sumsq_neg (g :: w)
            rw [List.map_cons, e] at this
            rw [this]
            exact hn
          by_cases hb2 : before (f :: w.map (fun x => -x)) (f :: xs)
          · exact (hb _ (by simp [hwl, hm]) hn' hb2).mono hmono
          · rcases resume_complete_sym m R f f xs (w.map (fun x => -x)) hxl hR (by simpa using hwl) hn'
              hb2 hgood with h | ⟨_, h, _⟩
            · refine hin _ h ?_
              intro x hx
              refine before_trans ?_ (hpost x hx)
              left
              rw [hgf]
              exact rank_pos_neg hf
            · omega

theorem pairwise_split {pre post : List (List ℤ)} {cp : List ℤ}
    (h : (pre ++ cp :: post).Pairwise before) {v : List ℤ} (hv : before v cp) :
    ∀ x ∈ cp :: post, before v x := by
  rw [List.pairwise_append] at h
  intro x hx
  rcases List.mem_cons.mp hx with rfl | hx
  · exact hv
  · exact before_trans hv ((List.pairwise_cons.mp h.2.1).1 x hx)

theorem vecGen_pairwise (hN : 1 ≤ N) (R : ℝ) (x0 : Option (List ℤ)) :
    (vecGen (N ^ 2) R x0).Pairwise before := by
  obtain ⟨m, hm⟩ := sq_eq_succ hN
  rw [hm, vecGen_eq]
  exact pairwise_vecGen0 _ _ _

theorem vecGen_length (hN : 1 ≤ N) (R : ℝ) {x0 v : List ℤ} (hx : x0.length = N ^ 2)
    (hv : v ∈ vecGen (N ^ 2) R (some x0)) : v.length = N ^ 2 := by
  obtain ⟨m, hm⟩ := sq_eq_succ hN
  rw [hm] at hv hx ⊢
  rw [vecGen_eq] at hv
  exact (resume_ge _ R x0 v hx hv).1

/-- The initialisation, if it ends: the state is right for the trial solutions that were offered. -/
theorem initLoop_spec (hsym : IsSymmetry (eqlatcor GA GM) dist (fun L => L.det ≠ 0)) (hn : 1 ≤ nsol)
    {volOk : Matrix (Fin N) (Fin N) ℤ → Prop} [DecidablePred volOk] (hvol : ∀ L, volOk L → L.det ≠ 0) :
    ∀ (samples : List (Matrix (Fin N) (Fin N) ℤ)) (k : ℕ) (seen : List (Matrix (Fin N) (Fin N) ℤ))
      (sols : List (Sol (Matrix (Fin N) (Fin N) ℤ) D)) (ext : Finset (Matrix (Fin N) (Fin N) ℤ))
      (dm : Option D),
      Inv (eqlatcor GA GM) dist (fun L => L.det ≠ 0) nsol seen sols →
      ExtInv (eqlatcor GA GM) (fun L => L.det ≠ 0) sols ext →
      sols.getLast?.map Sol.d = dm → nsol ≤ sols.length + k →
      initLoop (eqlatcor GA GM) (fun L => L.det ≠ 0) volOk nsol dist samples k (sols, ext, dm) = .ok none ∨
      ∃ acc sols' ext' d, initLoop (eqlatcor GA GM) (fun L => L.det ≠ 0) volOk nsol dist samples k
          (sols, ext, dm) = .ok (some (sols', ext', some d)) ∧
        (∀ L ∈ acc, L ∈ samples ∧ volOk L) ∧ Good GA GM nsol dist (seen ++ acc) (sols', ext', d) := by
  intro samples
  induction samples with
  | nil =>
    intro k seen sols ext dm h he hl hk
    cases k with
    | succ k => left; rfl
    | zero =>
      right
      have hne : sols ≠ [] := by rintro rfl; simp at hk; omega
      rw [List.getLast?_eq_some_getLast hne] at hl
      refine ⟨[], sols, ext, (sols.getLast hne).d, by rw [← hl]; rfl, by simp, ?_⟩
      exact ⟨by simpa using h, he, by simpa using hk, ⟨_, List.getLast?_eq_some_getLast hne, rfl⟩⟩
  | cons l samples ih =>
    intro k seen sols ext dm h he hl hk
    cases k with
    | zero =>
      right
      have hne : sols ≠ [] := by rintro rfl; simp at hk; omega
      rw [List.getLast?_eq_some_getLast hne] at hl
      refine ⟨[], sols, ext, (sols.getLast hne).d, by rw [← hl]; rfl, by simp, ?_⟩
      exact ⟨by simpa using h, he, by simpa using hk, ⟨_, List.getLast?_eq_some_getLast hne, rfl⟩⟩
    | succ k =>
      unfold initLoop
      split_ifs with hc
      · rcases ih (k + 1) seen sols ext dm h he hl hk with h' | ⟨acc, s', e', d, h1, h2, h3⟩
        · exact Or.inl h'
        · exact Or.inr ⟨acc, s', e', d, h1, fun L hL => ⟨by simp [(h2 L hL).1], (h2 L hL).2⟩, h3⟩
      · rw [not_or, not_not] at hc
        obtain ⟨s1, e1, last, g1, g2, g3, g4, g5, g6, g7, -⟩ := addSol_spec hsym hn h he l
          (Or.inr (hvol l hc.2))
        rw [g1]
        simp only
        have hk' : nsol ≤ s1.length + k := by
          rcases g7 hc.1 (hvol l hc.2) with h' | h' <;> omega
        rcases ih k (seen ++ [l]) s1 e1 (some last.d) g2 g3 (by rw [g4]; rfl) hk' with
          h' | ⟨acc, s', e', d, h1, h2, h3⟩
        · exact Or.inl h'
        · refine Or.inr ⟨l :: acc, s', e', d, h1, ?_, by simpa using h3⟩
          intro L hL
          rcases List.mem_cons.mp hL with rfl | hL
          · exact ⟨by simp, hc.2⟩
          · exact ⟨by simp [(h2 L hL).1], (h2 L hL).2⟩

theorem good_dmax {seen : List (Matrix (Fin N) (Fin N) ℤ)} {st : SearchState N D}
    (h : Good GA GM nsol dist seen st) : ∃ L, dist L = st.2.2 := by
  obtain ⟨s, h1, h2⟩ := h.last
  exact ⟨s.l, by rw [← h2, (h.inv.sound s (List.mem_of_getLast? h1)).2.2]⟩

/-- The outer loop: the final state is right for the candidates examined. -/
theorem searchLoop_spec (hsym : IsSymmetry (eqlatcor GA GM) dist (fun L => L.det ≠ 0)) (hn : 1 ≤ nsol)
    {sz : ℕ} (hsz : 1 ≤ sz) (hN : 1 ≤ N) {rmax : D → ℝ} (hr0 : ∀ L, 0 ≤ rmax (dist L))
    (hmono : ∀ L L', dist L ≤ dist L' → rmax (dist L) ≤ rmax (dist L')) :
    ∀ (fuel : ℕ) (cp : List ℤ) (seen : List (Matrix (Fin N) (Fin N) ℤ)) (st : SearchState N D),
      Good GA GM nsol dist seen st → cp.length = N ^ 2 →
      searchLoop GA GM nsol dist sz rmax fuel cp st = .error .stopIteration ∨
      ∃ r trace, searchLoop GA GM nsol dist sz rmax fuel cp st = .ok (r, trace) ∧
        ∀ st', r = some st' → ∃ more, Good GA GM nsol dist (seen ++ more) st' ∧ st'.2.2 ≤ st.2.2 ∧
          ((∀ c ∈ trace, GoodStart c.tail) → CoveredBefore N seen (rmax st.2.2) cp →
            ∀ v : List ℤ, v.length = N ^ 2 → (sumsq v : ℝ) ≤ rmax st'.2.2 ^ 2 →
              Covered N (seen ++ more) v) := by
  intro fuel
  induction fuel with
  | zero =>
    intro cp seen st _ _
    right
    exact ⟨none, [], rfl, by simp⟩
  | succ fuel ih =>
    intro cp seen st h hcp
    unfold searchLoop
    simp only
    have hr : 0 ≤ rmax st.2.2 := by obtain ⟨L, hL⟩ := good_dmax h; rw [← hL]; exact hr0 L
    set g := vecGen (N ^ 2) (rmax st.2.2) (some cp) with hg
    rcases sliceLoop_spec hsym hn hsz (g.length + 1) g seen st (by omega) h with
      h1 | ⟨st1, h1, h2, h3⟩ | ⟨cp', st1, pre, post, h1, h2, h3, h4⟩
    · left; rw [h1]
    · right
      rw [h1]
      refine ⟨some st1, [cp], rfl, ?_⟩
      rintro st' ⟨⟩
      refine ⟨g.map (toMat N), h2, h3.le, ?_⟩
      intro ht hb v hv hvn
      rw [h3] at hvn
      exact covered_step hr hN hcp (ht cp (by simp)) hb g [] (by simp [hg]) v hv hvn (by simp)
    · rw [h1]
      simp only
      have hcp' : cp'.length = N ^ 2 := by
        apply vecGen_length hN (rmax st.2.2) hcp
        rw [← hg, h2]
        simp
      rcases ih cp' _ st1 h3 hcp' with h5 | ⟨r, trace, h5, h6⟩
      · left; rw [h5]
      · right
        rw [h5]
        refine ⟨r, cp :: trace, rfl, ?_⟩
        intro st' hst'
        obtain ⟨more, k1, k2, k3⟩ := h6 st' hst'
        refine ⟨pre.map (toMat N) ++ more, by rw [← List.append_assoc]; exact k1, k2.trans h4.le, ?_⟩
        intro ht hb v hv hvn
        rw [← List.append_assoc]
        apply k3 (fun c hc => ht c (by simp [hc])) _ v hv hvn
        intro u hu hun hbu
        have hR : (sumsq u : ℝ) ≤ rmax st.2.2 ^ 2 := by
          refine hun.trans ?_
          obtain ⟨L, hL⟩ := good_dmax h
          obtain ⟨L', hL'⟩ := good_dmax h3
          rw [← hL, ← hL']
          exact pow_le_pow_left₀ (hr0 L') (hmono _ _ (by rw [hL, hL']; exact h4.le)) 2
        refine covered_step hr hN hcp (ht cp (by simp)) hb pre (cp' :: post)
          (by rw [← hg, h2]) u hu hR ?_
        refine pairwise_split (pre := pre) ?_ hbu
        rw [← h2, hg]
        exact vecGen_pairwise hN _ _

/-- row-major flattening -/
def flat (L : Matrix (Fin N) (Fin N) ℤ) : List ℤ :=
  List.ofFn (fun k : Fin (N * N) => L k.divNat k.modNat)

theorem flat_length (L : Matrix (Fin N) (Fin N) ℤ) : (flat L).length = N ^ 2 := by
  simp [flat, sq]

theorem toMat_flat (L : Matrix (Fin N) (Fin N) ℤ) : toMat N (flat L) = L := by
  ext i j
  unfold toMat flat
  rw [Matrix.of_apply]
  have h : i.val * N + j.val < N * N := by
    have := i.isLt
    have := j.isLt
    nlinarith
  have e : (⟨i.val * N + j.val, h⟩ : Fin (N * N)) = finProdFinEquiv (i, j) := by
    apply Fin.ext
    simp [finProdFinEquiv]
    ring
  rw [List.getD_eq_getElem?_getD, List.getElem?_ofFn, dif_pos h, Option.getD_some, e]
  have h1 : (finProdFinEquiv.symm (finProdFinEquiv (i, j))) = (i, j) := Equiv.symm_apply_apply _ _
  have h2 : (finProdFinEquiv (i, j)).divNat = i := congrArg Prod.fst h1
  have h3 : (finProdFinEquiv (i, j)).modNat = j := congrArg Prod.snd h1
  rw [h2, h3]

theorem sumsq_flat (L : Matrix (Fin N) (Fin N) ℤ) : sumsq (flat L) = ∑ i, ∑ j, L i j ^ 2 := by
  unfold sumsq flat
  rw [List.map_ofFn, List.sum_ofFn, ← Fintype.sum_prod_type', ← Equiv.sum_comp finProdFinEquiv]
  apply Finset.sum_congr rfl
  rintro ⟨i, j⟩ -
  have h1 : (finProdFinEquiv.symm (finProdFinEquiv (i, j))) = (i, j) := Equiv.symm_apply_apply _ _
  have h2 : (finProdFinEquiv (i, j)).divNat = i := congrArg Prod.fst h1
  have h3 : (finProdFinEquiv (i, j)).modNat = j := congrArg Prod.snd h1
  simp only [Function.comp, h2, h3]

theorem toMat_neg (v : List ℤ) : toMat N (v.map (fun x => -x)) = - toMat N v := by
  ext i j
  simp only [toMat, Matrix.of_apply, Matrix.neg_apply, List.getD_eq_getElem?_getD, List.getElem?_map]
  cases v[i.val * N + j.val]? <;> simp

theorem before_zero {d : ℕ} {v : List ℤ} (h : v.length = d) : ¬ before v (List.replicate d 0) := by
  induction d generalizing v with
  | zero => rw [List.length_eq_zero_iff.mp h]; simp [before]
  | succ d ih =>
    cases v with
    | nil => simp at h
    | cons a v =>
      rw [List.replicate_succ]
      simp only [before, not_or, not_and, not_lt]
      exact ⟨by simp [rank], fun _ => ih (by simpa using h)⟩

/-- Enough fuel: the threshold decreases strictly within a finite set. -/
theorem searchLoop_fuel (hsym : IsSymmetry (eqlatcor GA GM) dist (fun L => L.det ≠ 0)) (hn : 1 ≤ nsol)
    {sz : ℕ} (hsz : 1 ≤ sz) (rmax : D → ℝ) (F : Finset D) (d0 : D)
    (hF : ∀ L, dist L ≤ d0 → dist L ∈ F) :
    ∀ (fuel : ℕ) (cp : List ℤ) (seen : List (Matrix (Fin N) (Fin N) ℤ)) (st : SearchState N D),
      Good GA GM nsol dist seen st → st.2.2 ≤ d0 → (F.filter (fun x => x < st.2.2)).card < fuel →
      ∀ trace, searchLoop GA GM nsol dist sz rmax fuel cp st ≠ .ok (none, trace) := by
  intro fuel
  induction fuel with
  | zero => intro cp seen st _ _ h; omega
  | succ fuel ih =>
    intro cp seen st h h0 hc trace
    unfold searchLoop
    simp only
    set g := vecGen (N ^ 2) (rmax st.2.2) (some cp) with hg
    rcases sliceLoop_spec hsym hn hsz (g.length + 1) g seen st (by omega) h with
      h1 | ⟨st1, h1, h2, h3⟩ | ⟨cp', st1, pre, post, h1, h2, h3, h4⟩
    · rw [h1]; simp
    · rw [h1]; simp
    · rw [h1]
      simp only
      have hlt : (F.filter (fun x => x < st1.2.2)).card < fuel := by
        refine lt_of_lt_of_le (Finset.card_lt_card ?_) (Nat.lt_succ_iff.mp hc)
        rw [Finset.ssubset_iff_of_subset]
        · obtain ⟨L, hL⟩ := good_dmax h3
          refine ⟨st1.2.2, ?_, by simp⟩
          rw [Finset.mem_filter]
          refine ⟨?_, h4⟩
          rw [← hL]
          exact hF L (by rw [hL]; exact h4.le.trans h0)
        · intro x hx
          rw [Finset.mem_filter] at hx ⊢
          exact ⟨hx.1, hx.2.trans h4⟩
      have := ih cp' _ st1 h3 (h4.le.trans h0) hlt
      cases hs : searchLoop GA GM nsol dist sz rmax fuel cp' st1 with
      | error e => simp
      | ok p =>
        obtain ⟨r, tr⟩ := p
        simp only [ne_eq, Except.ok.injEq, Prod.mk.injEq, not_and]
        intro hr
        exact absurd (by rw [hs, hr]) (this tr)

/-- A class within the threshold that has been seen is kept. -/
theorem good_kept (hA : IsMatGroup GA) (hM : IsMatGroup GM)
    {seen : List (Matrix (Fin N) (Fin N) ℤ)} {st : SearchState N D}
    (h : Good GA GM nsol dist seen st) {L : Matrix (Fin N) (Fin N) ℤ} (hL : L ∈ seen)
    (hdet : L.det ≠ 0) (hle : dist L ≤ st.2.2) : ∃ s ∈ st.1, Equivalent GA GM s.l L := by
  obtain ⟨s, hs, hsd⟩ := h.last
  have h1 : clsOf (eqlatcor GA GM) s ∈ topN nsol (seenClasses (eqlatcor GA GM) dist
      (fun L => L.det ≠ 0) seen) := by
    rw [← h.inv.classes, List.mem_toFinset]
    exact List.mem_map_of_mem (List.mem_of_getLast? hs)
  have h2 : (eqlatcor GA GM L, dist L) ∈ topN nsol (seenClasses (eqlatcor GA GM) dist
      (fun L => L.det ≠ 0) seen) := by
    rw [mem_topN] at h1 ⊢
    refine ⟨mem_seenClasses.mpr ⟨L, hL, hdet, rfl⟩, lt_of_le_of_lt (Finset.card_le_card ?_) h1.2⟩
    intro y hy
    rw [Finset.mem_filter] at hy ⊢
    refine ⟨hy.1, lt_of_lt_of_le hy.2 ?_⟩
    change dist L ≤ s.d
    rw [hsd]
    exact hle
  rw [← h.inv.classes, List.mem_toFinset, List.mem_map] at h2
  obtain ⟨t, ht, he⟩ := h2
  exact ⟨t, ht, (eqlatcor_eq_iff hA hM).mp (congrArg Prod.fst he).symm⟩

end Verif.Lemmas
