import Verif.Props.Planar

/-!
# A finished search for every lattice

For every lattice there are draws with which `lat_cor`, asked for the best correspondence of the lattice with itself,
comes to an end.
-/

namespace Verif.Props

open Matrix Verif.Spec Verif.Model Verif.Lemmas

variable {N : ℕ}

section
variable {α D : Type} [DecidableEq α] [LinearOrder D]

theorem addSol_first (eq : α → Finset α) (adm : α → Prop) [DecidablePred adm] (s : Sol α D) (h : adm s.l) :
    addSol eq adm 1 s [] ∅ = .ok ([s], eq s.l, s.d) := by
  simp [addSol, h, searchsorted, pyGet?]

theorem addSol_worse (eq : α → Finset α) (adm : α → Prop) [DecidablePred adm] (s s1 : Sol α D) (h : adm s1.l)
    (hd : s.d < s1.d) (hdis : Disjoint (eq s.l) (eq s1.l)) (hself : s1.l ∈ eq s1.l) :
    addSol eq adm 1 s1 [s] (eq s.l) = .ok ([s], eq s.l, s.d) := by
  have hn : s1.l ∉ eq s.l := fun h => (Finset.disjoint_left.mp hdis h) hself
  have e : (eq s.l ∪ eq s1.l) \ eq s1.l = eq s.l := by
    rw [Finset.union_sdiff_right]
    exact Finset.sdiff_eq_self_of_disjoint hdis
  simp [addSol, hn, h, searchsorted, pyGet?, hd, popLoop, e]

theorem initLoop_worse (eq : α → Finset α) (adm volOk : α → Prop) [DecidablePred adm] [DecidablePred volOk]
    (dist : α → D) (s : Sol α D) (b : α) (hb : adm b) (hv : volOk b) (hd : s.d < dist b)
    (hdis : Disjoint (eq s.l) (eq b)) (hself : b ∈ eq b) (k : ℕ) :
    initLoop eq adm volOk 1 dist (List.replicate k b) k ([s], eq s.l, some s.d) = .ok (some ([s], eq s.l, some s.d)) := by
  induction k with
  | zero => simp [initLoop]
  | succ k ih =>
    have hn : b ∉ eq s.l := fun h => (Finset.disjoint_left.mp hdis h) hself
    rw [List.replicate_succ, initLoop, if_neg (by simp [hn, hv]), addSol_worse eq adm s ⟨b, dist b⟩ hb hd hdis hself]
    exact ih
end

/-- a shear -/
def slide (i j : Fin N) : Matrix (Fin N) (Fin N) ℤ := 1 + Matrix.single i j 1

/-- a shear is not a symmetry of any lattice -/
theorem slide_mismatch {E : Matrix (Fin N) (Fin N) ℝ} (hE : E.det ≠ 0) {i j : Fin N} (hij : i ≠ j) :
    0 < cauchyDist (slide i j) E E⁻¹ := by
  have hinv : E * E⁻¹ = 1 := Matrix.mul_nonsing_inv _ (isUnit_det_of_ne hE)
  have hinv' : E⁻¹ * E = 1 := Matrix.nonsing_inv_mul _ (isUnit_det_of_ne hE)
  refine lt_of_le_of_ne (C28_nonneg E E⁻¹ _) (fun h0 => ?_)
  obtain ⟨Q, hQ, h⟩ := (C28_zero_iff E E E⁻¹ (slide i j) hinv).mp h0.symm
  have hmap : (slide i j).map (Int.cast : ℤ → ℝ) = 1 + Matrix.single i j 1 := by
    ext a b
    simp only [slide, Matrix.map_apply, Matrix.add_apply, Matrix.one_apply, Matrix.single_apply]
    split_ifs <;> norm_num
  rw [hmap] at h
  set X : Matrix (Fin N) (Fin N) ℝ := Matrix.single i j 1 with hX
  have hXX : X * X = 0 := by
    rw [hX, Matrix.single_mul_single_of_ne]
    exact hij.symm
  set A := E * X * E⁻¹ with hA
  have hAA : A * A = 0 := by
    rw [hA, show E * X * E⁻¹ * (E * X * E⁻¹) = E * X * (E⁻¹ * E) * X * E⁻¹ by simp only [Matrix.mul_assoc], hinv',
      Matrix.mul_one, Matrix.mul_assoc E, hXX, Matrix.mul_zero, Matrix.zero_mul]
  have hQ1 : Q * (1 + A) = 1 := by
    calc Q * (1 + A) = Q * (E * (1 + X)) * E⁻¹ := by
          rw [hA, Matrix.mul_add E, Matrix.mul_one, Matrix.mul_assoc Q, Matrix.add_mul, hinv]
      _ = 1 := by rw [h, hinv]
  have e1 : (1 + A) * (1 - A) = 1 := by
    rw [Matrix.add_mul, Matrix.mul_sub, Matrix.mul_sub, hAA]
    simp
  have hQA : Q = 1 - A := by
    calc Q = Q * ((1 + A) * (1 - A)) := by rw [e1, Matrix.mul_one]
      _ = 1 - A := by rw [← Matrix.mul_assoc, hQ1, Matrix.one_mul]
  have hQt : Qᵀ = 1 + A := by
    calc Qᵀ = Qᵀ * (Q * (1 + A)) := by rw [hQ1, Matrix.mul_one]
      _ = 1 + A := by rw [← Matrix.mul_assoc, show Qᵀ * Q = 1 from hQ, Matrix.one_mul]
  have hAt : Aᵀ = -A := by
    rw [hQA, Matrix.transpose_sub, Matrix.transpose_one] at hQt
    have : -Aᵀ = A := by
      have := congrArg (fun Y => Y - 1) hQt
      simpa using this
    rw [eq_neg_iff_add_eq_zero]
    nth_rw 2 [← this]
    exact add_neg_cancel _
  have hA0 : A = 0 := by
    have := Matrix.conjTranspose_mul_self_eq_zero (A := A)
    rw [Matrix.conjTranspose_eq_transpose_of_trivial, hAt, Matrix.neg_mul, hAA, neg_zero] at this
    exact this.mp rfl
  have hX0 : X = 0 := by
    have : E⁻¹ * A * E = X := by
      rw [hA, show E⁻¹ * (E * X * E⁻¹) * E = (E⁻¹ * E) * X * (E⁻¹ * E) by simp only [Matrix.mul_assoc], hinv',
        Matrix.one_mul, Matrix.mul_one]
    rw [← this, hA0]
    simp
  have := congrFun (congrFun hX0 i) j
  simp [hX] at this

theorem slide_det {i j : Fin N} (hij : i ≠ j) : (slide i j).det = 1 := by
  have := Matrix.det_transvection_of_ne i j hij (1 : ℤ)
  exact this

/-- If a best correspondence `a` can be drawn at the start, then there is a finished run with harmless checkpoints: draw
`a`, then some worse correspondence `b` over and over.  The entries of the shifts are the differences from the start. -/
theorem start_core (hN : N = 2 ∨ N = 3) (t : Tol) {EA EM : Matrix (Fin N) (Fin N) ℝ} (hA : EA.det ≠ 0) (hM : EM.det ≠ 0)
    (hrA : Reliable t EA (candidates N)) (hrM : Reliable t EM (candidates N)) {CA CM : Matrix (Fin N) (Fin N) ℝ}
    (hCA : CA.det ≠ 0) {v : ℝ} (hv : 0 < v) (hv1 : v ≤ 1) {sz : ℕ} (hsz : 1 ≤ sz) (a b : Matrix (Fin N) (Fin N) ℤ)
    (ha1 : a.det = 1) (hb1 : b.det = 1) (hbest : ∀ L : Matrix (Fin N) (Fin N) ℤ, L.det ≠ 0 →
      cauchyDist a EA EM⁻¹ ≤ cauchyDist L EA EM⁻¹) (hab : cauchyDist a EA EM⁻¹ < cauchyDist b EA EM⁻¹) :
    ∃ o : Outside N, Sound o ∧ (∀ s ∈ o.shifts, s = a - startL0 EA EM ∨ s = b - startL0 EA EM) ∧
      ∃ rs, latCorCore t o 1 v sz EA EM CA CM = .ok (some rs, [List.replicate (N ^ 2) 0]) := by
  have hN1 : 1 ≤ N := by omega
  obtain ⟨o, ho, hs, hrd⟩ := sound_exists (N := N) hN1
    ((a - startL0 EA EM) :: List.replicate 19 (b - startL0 EA EM)) 1
  obtain ⟨GA, GM, gA, gM, hS⟩ := call_setting hN t ho hA hM hrA hrM
  refine ⟨o, ho, ?_, ?_⟩
  · rw [hs]
    intro s hs
    rcases List.mem_cons.mp hs with rfl | hs
    · exact .inl rfl
    · exact .inr (List.eq_of_mem_replicate hs)
  have e0 : ((a - startL0 EA EM) :: List.replicate 19 (b - startL0 EA EM)).map (fun shift => startL0 EA EM + shift)
      = a :: List.replicate 19 b := by
    simp
  set dist := fun L => cauchyDist L EA EM⁻¹ with hdist
  have hsym := eqlatcor_isSymmetry hS.groupA hS.groupM (setting_class hS)
  have hdb : dist a < dist b := hab
  have hdis : Disjoint (eqlatcor GA GM a) (eqlatcor GA GM b) := by
    rw [Finset.disjoint_left]
    intro X h1 h2
    have x := setting_class hS _ _ (mem_eqlatcor.mp h1)
    have y := setting_class hS _ _ (mem_eqlatcor.mp h2)
    exact hdb.ne (x.symm.trans y)
  have hinit : initLoop (eqlatcor GA GM) (fun L => L.det ≠ 0) (fun L => L.det = 1) 1 dist (a :: List.replicate 19 b) 20
      ([], ∅, none) = .ok (some ([⟨a, dist a⟩], eqlatcor GA GM a, some (dist a))) := by
    rw [show (20 : ℕ) = 19 + 1 from rfl, initLoop, if_neg (by simp [ha1]),
      addSol_first _ _ (⟨a, dist a⟩ : Sol (Matrix (Fin N) (Fin N) ℤ) ℝ) (by simp [ha1])]
    exact initLoop_worse (eqlatcor GA GM) (fun L => L.det ≠ 0) (fun L => L.det = 1) dist ⟨a, dist a⟩ b
      (by rw [hb1]; decide) hb1 hdb hdis (mem_eqlatcor.mpr (equivalent_refl hS.groupA hS.groupM b)) 19
  have hgood : ∃ seen, Good GA GM 1 dist seen ([⟨a, dist a⟩], eqlatcor GA GM a, dist a) := by
    rcases initLoop_spec hsym le_rfl (volOk := fun L => L.det = 1) (by intro L hL; rw [hL]; decide)
      (a :: List.replicate 19 b) 20 [] [] ∅ none Inv.nil ExtInv.nil rfl (by simp) with h | ⟨acc, s1, e1, d1, h1, -, h3⟩
    · rw [hinit] at h; cases h
    · rw [hinit] at h1
      cases h1
      exact ⟨_, h3⟩
  obtain ⟨seen, hgood⟩ := hgood
  obtain ⟨st, hst⟩ := searchLoop_bottom hsym le_rfl (sz := sz) (rmax := rmaxFn (o.quartMin (quartD EA EM⁻¹))) 0
    (List.replicate (N ^ 2) 0) seen _ hgood (fun L hL => hbest L hL)
  have hrun : directSearch GA GM 1 dist sz (rmaxFn (o.quartMin (quartD EA EM⁻¹))) (fun L => L.det = 1)
      (a :: List.replicate 19 b) 1 = .ok (some st, [List.replicate (N ^ 2) 0]) := by
    unfold directSearch
    rw [show 20 * 1 = 20 from rfl, hinit]
    exact hst
  obtain ⟨sols, ext, dmax⟩ := st
  obtain ⟨rs, h1, -⟩ := C39_direct_run hN1 ho.eig (CA := CA) (CM := CM) hS hCA
    (fun L => o.order (eqlatcor GA GM L)) (fun L X => ho.visit _ _) 1 sz le_rfl hsz _ _ _ _ _ _ hrun
  refine ⟨rs, ?_⟩
  unfold latCorCore
  simp only [gA, gM]
  rw [directSearch_congr _ _ _ _ _ _ _ (fun L => L.det = 1) (volOk_iff hv hv1), hs, hrd, e0, hrun]
  simp only [h1]

/-- for every lattice a finished run with harmless checkpoints exists -/
theorem self_core (hN : N = 2 ∨ N = 3) (t : Tol) {E : Matrix (Fin N) (Fin N) ℝ} (hE : E.det ≠ 0)
    (hr : Reliable t E (candidates N)) {CA CM : Matrix (Fin N) (Fin N) ℝ} (hCA : CA.det ≠ 0) {v : ℝ} (hv : 0 < v)
    (hv1 : v ≤ 1) {sz : ℕ} (hsz : 1 ≤ sz) :
    ∃ o : Outside N, Sound o ∧ (∀ s ∈ o.shifts, ∀ i j, |s i j| ≤ 1) ∧
      ∃ rs, latCorCore t o 1 v sz E E CA CM = .ok (some rs, [List.replicate (N ^ 2) 0]) := by
  have hN1 : 1 ≤ N := by omega
  have hN2 : 1 < N := by omega
  have hij : (⟨0, hN1⟩ : Fin N) ≠ ⟨1, hN2⟩ := by simp
  have hinv : E * E⁻¹ = 1 := Matrix.mul_nonsing_inv _ (isUnit_det_of_ne hE)
  have hL0 : startL0 E E = 1 := by
    unfold startL0
    rw [Matrix.nonsing_inv_mul _ (isUnit_det_of_ne hE)]
    ext i j
    simp only [Matrix.of_apply, Matrix.one_apply]
    split_ifs <;> simp
  have hd1 : cauchyDist 1 E E⁻¹ = 0 := by
    refine (C28_zero_iff E E E⁻¹ 1 hinv).mpr ⟨1, by simp [IsOrtho], ?_⟩
    rw [Matrix.one_mul, Matrix.map_one _ Int.cast_zero Int.cast_one, Matrix.mul_one]
  obtain ⟨o, ho, hs, h⟩ := start_core hN t hE hE hr hr (CA := CA) (CM := CM) hCA hv hv1 hsz 1
    (slide ⟨0, hN1⟩ ⟨1, hN2⟩) Matrix.det_one (slide_det hij)
    (fun L _ => by rw [hd1]; exact C28_nonneg E E⁻¹ L) (by rw [hd1]; exact slide_mismatch hE hij)
  refine ⟨o, ho, fun s h => ?_, h⟩
  rw [hL0] at hs
  intro i j
  rcases hs s h with rfl | rfl
  · simp
  · simp only [slide, add_sub_cancel_left, Matrix.single_apply]
    split_ifs <;> simp

end Verif.Props
