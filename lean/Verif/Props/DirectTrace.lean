import Verif.Props.Direct
import Verif.Props.DirectRuns

/-!
# Property C38, continued : which candidates the direct search examines
-/

namespace Verif.Props

open Matrix Verif.Model Verif.Spec Verif.Lemmas

section
variable {N : ℕ} {D : Type} [LinearOrder D]
variable {GA GM : List (Matrix (Fin N) (Fin N) ℤ)} {dist : Matrix (Fin N) (Fin N) ℤ → D} {nsol : ℕ}

/-- Specification: `examined` contains the matrices of all rounds.  The rounds start at the checkpoints
`c₁, c₂, …`; a round that is followed by another one covers its enumeration up to the next checkpoint
(its radius `R'` is at least the final radius `R`), the last round covers the whole enumeration with the
final radius. -/
def RoundsIn (R : ℝ) (examined : List (Matrix (Fin N) (Fin N) ℤ)) : List (List ℤ) → Prop
  | [] => False
  | [c] => ∀ v ∈ vecGen (N ^ 2) R (some c), toMat N v ∈ examined
  | c :: c' :: rest =>
    (∃ R' pre post, R ≤ R' ∧ vecGen (N ^ 2) R' (some c) = pre ++ c' :: post ∧
      ∀ v ∈ pre, toMat N v ∈ examined) ∧
    RoundsIn R examined (c' :: rest)

theorem RoundsIn.mono {R : ℝ} {e e' : List (Matrix (Fin N) (Fin N) ℤ)} (h : ∀ x ∈ e, x ∈ e') :
    ∀ t, RoundsIn R e t → RoundsIn R e' t
  | [], hr => hr
  | [_], hr => fun v hv => h _ (hr v hv)
  | _ :: c' :: rest, ⟨⟨R', pre, post, h1, h2, h3⟩, h4⟩ =>
    ⟨⟨R', pre, post, h1, h2, fun v hv => h _ (h3 v hv)⟩, RoundsIn.mono h (c' :: rest) h4⟩

theorem searchLoop_rounds (hsym : IsSymmetry (eqlatcor GA GM) dist (fun L => L.det ≠ 0)) (hn : 1 ≤ nsol)
    {sz : ℕ} (hsz : 1 ≤ sz) {rmax : D → ℝ}
    (hmono : ∀ L L', dist L ≤ dist L' → rmax (dist L) ≤ rmax (dist L')) :
    ∀ (fuel : ℕ) (cp : List ℤ) (seen : List (Matrix (Fin N) (Fin N) ℤ)) (st st' : SearchState N D)
      (trace : List (List ℤ)), Good GA GM nsol dist seen st →
      searchLoop GA GM nsol dist sz rmax fuel cp st = .ok (some st', trace) →
      ∃ more rest, trace = cp :: rest ∧ Good GA GM nsol dist (seen ++ more) st' ∧
        st'.2.2 ≤ st.2.2 ∧ RoundsIn (rmax st'.2.2) more trace ∧
        ∀ L ∈ more, ∃ c ∈ trace, ∃ R ≤ rmax st.2.2, ∃ v ∈ vecGen (N ^ 2) R (some c), L = toMat N v := by
  intro fuel
  induction fuel with
  | zero => intro cp seen st st' trace _ h; simp [searchLoop] at h
  | succ fuel ih =>
    intro cp seen st st' trace h hs
    unfold searchLoop at hs
    simp only at hs
    set g := vecGen (N ^ 2) (rmax st.2.2) (some cp) with hg
    rcases sliceLoop_spec hsym hn hsz (g.length + 1) g seen st (by omega) h with
      h1 | ⟨st1, h1, h2, h3⟩ | ⟨cp', st1, pre, post, h1, h2, h3, h4⟩
    · rw [h1] at hs; cases hs
    · rw [h1] at hs
      cases hs
      refine ⟨g.map (toMat N), [], rfl, h2, h3.le, ?_, ?_⟩
      · rw [h3]
        intro v hv
        exact List.mem_map_of_mem hv
      · intro L hL
        obtain ⟨v, hv, rfl⟩ := List.mem_map.mp hL
        exact ⟨cp, by simp, _, le_rfl, v, hv, rfl⟩
    · rw [h1] at hs
      simp only at hs
      cases hs1 : searchLoop GA GM nsol dist sz rmax fuel cp' st1 with
      | error e => rw [hs1] at hs; cases hs
      | ok p =>
        obtain ⟨r, tr⟩ := p
        rw [hs1] at hs
        simp only [Except.ok.injEq, Prod.mk.injEq] at hs
        obtain ⟨rfl, rfl⟩ := hs
        obtain ⟨more, rest, rfl, k1, k2, k3, k4⟩ := ih cp' _ st1 st' tr h3 hs1
        obtain ⟨L0, hL0⟩ := good_dmax h
        obtain ⟨L1, hL1⟩ := good_dmax h3
        obtain ⟨L2, hL2⟩ := good_dmax k1
        have hR1 : rmax st1.2.2 ≤ rmax st.2.2 := by
          rw [← hL0, ← hL1]; exact hmono _ _ (by rw [hL0, hL1]; exact h4.le)
        have hR2 : rmax st'.2.2 ≤ rmax st.2.2 := by
          rw [← hL0, ← hL2]; exact hmono _ _ (by rw [hL0, hL2]; exact k2.trans h4.le)
        refine ⟨pre.map (toMat N) ++ more, _, rfl, by rw [← List.append_assoc]; exact k1,
          k2.trans h4.le, ⟨⟨rmax st.2.2, pre, post, hR2, by rw [← hg, h2], ?_⟩, ?_⟩, ?_⟩
        · intro v hv
          exact List.mem_append_left _ (List.mem_map_of_mem hv)
        · exact RoundsIn.mono (fun x hx => List.mem_append_right _ hx) _ k3
        · intro L hL
          rcases List.mem_append.mp hL with hL | hL
          · obtain ⟨v, hv, rfl⟩ := List.mem_map.mp hL
            exact ⟨cp, by simp, _, le_rfl, v, by rw [← hg, h2]; simp [hv], rfl⟩
          · obtain ⟨c, hc, R, hR, v, hv, e⟩ := k4 L hL
            exact ⟨c, List.mem_cons_of_mem _ hc, R, hR.trans hR1, v, hv, e⟩

/-- The initialisation: what was drawn, and that nothing drawn is lost. -/
theorem initLoop_drawn (hsym : IsSymmetry (eqlatcor GA GM) dist (fun L => L.det ≠ 0)) (hn : 1 ≤ nsol)
    (hA : IsMatGroup GA) (hM : IsMatGroup GM)
    {volOk : Matrix (Fin N) (Fin N) ℤ → Prop} [DecidablePred volOk] (hvol : ∀ L, volOk L → L.det ≠ 0) :
    ∀ (samples : List (Matrix (Fin N) (Fin N) ℤ)) (k : ℕ) (seen : List (Matrix (Fin N) (Fin N) ℤ))
      (sols : List (Sol (Matrix (Fin N) (Fin N) ℤ) D)) (ext : Finset (Matrix (Fin N) (Fin N) ℤ))
      (dm : Option D) (sols' : List (Sol (Matrix (Fin N) (Fin N) ℤ) D))
      (ext' : Finset (Matrix (Fin N) (Fin N) ℤ)) (d : D),
      Inv (eqlatcor GA GM) dist (fun L => L.det ≠ 0) nsol seen sols →
      ExtInv (eqlatcor GA GM) (fun L => L.det ≠ 0) sols ext →
      sols.getLast?.map Sol.d = dm → nsol ≤ sols.length + k →
      initLoop (eqlatcor GA GM) (fun L => L.det ≠ 0) volOk nsol dist samples k (sols, ext, dm)
        = .ok (some (sols', ext', some d)) →
      ∃ acc drawn rest, samples = drawn ++ rest ∧ acc.Sublist drawn ∧ acc.length = k ∧
        (∀ L ∈ acc, volOk L) ∧
        (∀ L ∈ drawn, volOk L → ∃ L' ∈ seen ++ acc, Equivalent GA GM L' L) ∧
        Good GA GM nsol dist (seen ++ acc) (sols', ext', d) := by
  intro samples
  have base : ∀ (samples : List (Matrix (Fin N) (Fin N) ℤ))
      (seen : List (Matrix (Fin N) (Fin N) ℤ))
      (sols : List (Sol (Matrix (Fin N) (Fin N) ℤ) D)) (ext : Finset (Matrix (Fin N) (Fin N) ℤ))
      (dm : Option D) (sols' : List (Sol (Matrix (Fin N) (Fin N) ℤ) D))
      (ext' : Finset (Matrix (Fin N) (Fin N) ℤ)) (d : D),
      Inv (eqlatcor GA GM) dist (fun L => L.det ≠ 0) nsol seen sols →
      ExtInv (eqlatcor GA GM) (fun L => L.det ≠ 0) sols ext →
      sols.getLast?.map Sol.d = dm → nsol ≤ sols.length + 0 →
      initLoop (eqlatcor GA GM) (fun L => L.det ≠ 0) volOk nsol dist samples 0 (sols, ext, dm)
        = .ok (some (sols', ext', some d)) →
      ∃ acc drawn rest, samples = drawn ++ rest ∧ acc.Sublist drawn ∧ acc.length = 0 ∧
        (∀ L ∈ acc, volOk L) ∧
        (∀ L ∈ drawn, volOk L → ∃ L' ∈ seen ++ acc, Equivalent GA GM L' L) ∧
        Good GA GM nsol dist (seen ++ acc) (sols', ext', d) := by
    intro samples seen sols ext dm sols' ext' d h he hl hk hr
    have hne : sols ≠ [] := by rintro rfl; simp at hk; omega
    have hr' : (sols, ext, dm) = (sols', ext', some d) := by
      unfold initLoop at hr
      simpa using hr
    cases hr'
    rw [List.getLast?_eq_some_getLast hne] at hl
    simp only [Option.map_some, Option.some.injEq] at hl
    refine ⟨[], [], samples, rfl, List.Sublist.refl _, rfl, by simp, by simp, ?_⟩
    exact ⟨by simpa using h, he, by simpa using hk, ⟨_, List.getLast?_eq_some_getLast hne, hl⟩⟩
  induction samples with
  | nil =>
    intro k seen sols ext dm sols' ext' d h he hl hk hr
    cases k with
    | succ k => simp [initLoop] at hr
    | zero => exact base _ seen sols ext dm sols' ext' d h he hl hk hr
  | cons l samples ih =>
    intro k seen sols ext dm sols' ext' d h he hl hk hr
    cases k with
    | zero => exact base _ seen sols ext dm sols' ext' d h he hl hk hr
    | succ k =>
      unfold initLoop at hr
      split_ifs at hr with hc
      · obtain ⟨acc, drawn, rest, rfl, h2, h3, h4, h5, h6⟩ :=
          ih (k + 1) seen sols ext dm sols' ext' d h he hl hk hr
        refine ⟨acc, l :: drawn, rest, rfl, h2.cons _, h3, h4, ?_, h6⟩
        intro L hL hv
        rcases List.mem_cons.mp hL with rfl | hL
        · have hx : L ∈ ext := hc.resolve_right (not_not.mpr hv)
          obtain ⟨s, hs, hse⟩ := he.sub L hx (hvol L hv)
          exact ⟨s.l, List.mem_append_left _ (h.sound s hs).1, mem_eqlatcor.mp hse⟩
        · exact h5 L hL hv
      · rw [not_or, not_not] at hc
        obtain ⟨s1, e1, last, g1, g2, g3, g4, g5, g6, g7, -⟩ := addSol_spec hsym hn h he l
          (Or.inr (hvol l hc.2))
        rw [g1] at hr
        simp only at hr
        have hk' : nsol ≤ s1.length + k := by
          rcases g7 hc.1 (hvol l hc.2) with h' | h' <;> omega
        obtain ⟨acc, drawn, rest, rfl, h2, h3, h4, h5, h6⟩ :=
          ih k (seen ++ [l]) s1 e1 (some last.d) sols' ext' d g2 g3 (by rw [g4]; rfl) hk' hr
        refine ⟨l :: acc, l :: drawn, rest, rfl, h2.cons_cons _, by simp [h3], ?_, ?_, by simpa using h6⟩
        · intro L hL
          rcases List.mem_cons.mp hL with rfl | hL
          · exact hc.2
          · exact h4 L hL
        · intro L hL hv
          rcases List.mem_cons.mp hL with rfl | hL
          · exact ⟨L, by simp, equivalent_refl hA hM L⟩
          · obtain ⟨L', hL', he'⟩ := h5 L hL hv
            exact ⟨L', by simpa using hL', he'⟩

/-- C38: a search that ends normally keeps exactly the best inequivalent ones among the candidates it
has examined, and these are: `20 * nsol` accepted trial matrices, with which every drawn trial matrix of
the right volume is equivalent to one; and the matrices of every round, beginning with the zero matrix,
where the last round runs through its whole enumeration with the radius that belongs to the returned
threshold.  Nothing else is examined. -/
theorem C38_candidates (sliceSz : ℕ) (rmax : D → ℝ) (volOk : Matrix (Fin N) (Fin N) ℤ → Prop)
    [DecidablePred volOk] (hA : IsMatGroup GA) (hM : IsMatGroup GM)
    (hd : ∀ L X, Equivalent GA GM L X → dist X = dist L) (hn : 1 ≤ nsol) (hsz : 1 ≤ sliceSz)
    (hvol : ∀ L, volOk L → L.det ≠ 0)
    (hmono : ∀ L L', dist L ≤ dist L' → rmax (dist L) ≤ rmax (dist L'))
    (samples : List (Matrix (Fin N) (Fin N) ℤ)) (fuel : ℕ)
    (sols : List (Sol (Matrix (Fin N) (Fin N) ℤ) D)) (ext : Finset (Matrix (Fin N) (Fin N) ℤ)) (dmax : D)
    (trace : List (List ℤ))
    (h : directSearch GA GM nsol dist sliceSz rmax volOk samples fuel
      = .ok (some (sols, ext, dmax), trace)) :
    ∃ trials searched drawn rest,
      BestClasses GA GM dist nsol (trials ++ searched) (sols.map (fun s => (s.l, s.d))) ∧
      nsol ≤ sols.length ∧ sols.getLast?.map Sol.d = some dmax ∧
      samples = drawn ++ rest ∧ trials.Sublist drawn ∧ trials.length = 20 * nsol ∧
      (∀ L ∈ drawn, volOk L → ∃ L' ∈ trials, Equivalent GA GM L' L) ∧
      trace.head? = some (List.replicate (N ^ 2) 0) ∧
      RoundsIn (rmax dmax) searched trace ∧
      ∀ L ∈ searched, ∃ c ∈ trace, ∃ R, ∃ v ∈ vecGen (N ^ 2) R (some c), L = toMat N v := by
  have hsym := eqlatcor_isSymmetry hA hM hd
  unfold directSearch at h
  split at h
  · cases h
  · rename_i s1 e1 d1 h1
    obtain ⟨acc, drawn, rest, g1, g2, g3, g4, g5, g6⟩ := initLoop_drawn hsym hn hA hM hvol samples
      (20 * nsol) [] [] ∅ none s1 e1 d1 Inv.nil ExtInv.nil rfl (by simp; omega) h1
    obtain ⟨more, r, k0, k1, k2, k3, k4⟩ := searchLoop_rounds hsym hn hsz hmono fuel
      (List.replicate (N ^ 2) 0) _ _ _ trace g6 h
    obtain ⟨s, hs1, hs2⟩ := k1.last
    refine ⟨acc, more, drawn, rest, ?_, k1.full, by rw [hs1]; simp [hs2], g1, g2, g3, by simpa using g5,
      by rw [k0]; rfl, k3, ?_⟩
    · exact bestClasses_of_inv hA hM hd (fun _ _ => Iff.rfl) (by simpa using k1.inv)
    · intro L hL
      obtain ⟨c, hc, R, -, v, hv, e⟩ := k4 L hL
      exact ⟨c, hc, R, v, hv, e⟩
  · cases h

end

/-- `C38_candidates` for the search as it is called (Cauchy distance, radius from `alpha`). -/
theorem C38_cauchy_candidates {N : ℕ} {EA EM EMinv : Matrix (Fin N) (Fin N) ℝ}
    {GA GM : List (Matrix (Fin N) (Fin N) ℤ)} {alpha : ℝ}
    (h : SearchSetting EA EM EMinv GA GM alpha) (nsol sliceSz : ℕ) (hn : 1 ≤ nsol) (hsz : 1 ≤ sliceSz)
    (samples : List (Matrix (Fin N) (Fin N) ℤ)) (fuel : ℕ)
    (sols : List (Sol (Matrix (Fin N) (Fin N) ℤ) ℝ)) (ext : Finset (Matrix (Fin N) (Fin N) ℤ))
    (dmax : ℝ) (trace : List (List ℤ))
    (hrun : directSearch GA GM nsol (fun L => cauchyDist L EA EMinv) sliceSz (rmaxFn alpha)
      (fun L => L.det = 1) samples fuel = .ok (some (sols, ext, dmax), trace)) :
    ∃ trials searched drawn rest,
      BestClasses GA GM (fun L => cauchyDist L EA EMinv) nsol (trials ++ searched)
        (sols.map (fun s => (s.l, s.d))) ∧
      nsol ≤ sols.length ∧ sols.getLast?.map Sol.d = some dmax ∧
      samples = drawn ++ rest ∧ trials.Sublist drawn ∧ trials.length = 20 * nsol ∧
      (∀ L ∈ drawn, L.det = 1 → ∃ L' ∈ trials, Equivalent GA GM L' L) ∧
      trace.head? = some (List.replicate (N ^ 2) 0) ∧
      RoundsIn (rmaxFn alpha dmax) searched trace ∧
      ∀ L ∈ searched, ∃ c ∈ trace, ∃ R, ∃ v ∈ vecGen (N ^ 2) R (some c), L = toMat N v :=
  C38_candidates sliceSz (rmaxFn alpha) (fun L => L.det = 1) h.groupA h.groupM (setting_class h) hn hsz
    (by intro L hL; rw [hL]; decide)
    (fun L L' hd => rmaxFn_mono h.pos (C28_nonneg EA EMinv L) hd) samples fuel sols ext dmax trace hrun

/-- the run of `C38_missed_fails` (two rounds) meets the hypotheses: the zero matrix was examined in the
first round, the matrix of the second checkpoint in the last one -/
example : ∃ trials searched,
    BestClasses pm1 pm1 (fun L => cauchyDist L missA missMinv) 1 (trials ++ searched)
      [(!![1, 1; 0, -1], 18160000 / 150 ^ 4)] ∧
    trials.length = 20 ∧
    RoundsIn (rmaxFn (4 / 125) (18160000 / 150 ^ 4)) searched [[0, 0, 0, 0], [1, 1, 0, -2]] := by
  have hS := miss_setting.search
  obtain ⟨trials, searched, drawn, rest, h1, -, -, -, -, h6, -, -, h9, -⟩ :=
    C38_cauchy_candidates hS 1 100 le_rfl (by norm_num) _ _ _ _ _ _ miss_run
  exact ⟨trials, searched, by simpa [mapState, mapSol, missState1] using h1, h6,
    by simpa [mapState, missState1] using h9⟩

end Verif.Props
