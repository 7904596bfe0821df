import Verif.Lemmas.SolsText
import Verif.Props.LatCorRuns
import Verif.Props.LatCorHnf

/-!
# C92: the printed report says what the returned solutions contain
-/

namespace Verif.Props

open Verif.Model Verif.Spec Verif.Lemmas

variable {N : ℕ}

/-- What should be printed about all the solutions. -/
noncomputable def reportSays (nsol : ℕ) (sols : List (Report N × Option (Matrix (Fin N) (Fin N) ℤ))) :
    List (List (ℝ × ℝ)) :=
  sols.zipIdx.flatMap fun s =>
    solutionSays nsol s.2 s.1.1.cor s.1.1.u s.1.2 (fun k => s.1.1.lams.getD k 0) s.1.1.d

/-- **C92**, the text: for any solutions, the numbers in the printed text, line by line, are the number of the
solution and the number of solutions asked for, the columns of the correspondence with the unit vectors, the
rows of the stretch, the rows of the sublattice (`main_hnf.py`), the principal stretches and the distance, in
the order of the solutions, each with the rounding of its format and nothing else. -/
theorem C92_text (dist : String) (nsol : ℕ) (hN : N ≠ 0)
    (sols : List (Report N × Option (Matrix (Fin N) (Fin N) ℤ))) :
    Says (solsText dist nsol sols) (reportSays nsol sols) :=
  solsTextFrom_says dist nsol hN sols 0

/-- The text about one solution in the plane has seven lines with numbers. -/
example (r : Report 2) : (numberLines (solsText "Cauchy" 1 [(r, none)])).length = 7 := by
  rw [(C92_text "Cauchy" 1 (by norm_num) [(r, none)]).length_eq]
  simp [reportSays, solutionSays]

/-- A correspondence with halves, a stretch of 1.0500004 and a distance of 0.0098: read exactly, up to half a
unit of the sixth digit after the point, and up to a relative error of 5e-6. -/
example : errF 2 (-1 / 2) = 0 ∧ errF 6 1.0500004 = 5 / 10 ^ 7 ∧ errG 0.0098 = 49 / 10 ^ 9 := by
  refine ⟨if_pos ⟨-50, by norm_num⟩, ?_, ?_⟩
  · unfold errF
    rw [if_neg]
    · norm_num
    · rintro ⟨k, hk⟩
      have h : (5250002 : ℝ) = 5 * (k : ℝ) := by rw [← hk]; norm_num
      have h' : (5250002 : ℤ) = 5 * k := by exact_mod_cast h
      omega
  · unfold errG
    rw [if_neg]
    · norm_num
    · rintro ⟨k, hk, -⟩
      have h : (98 : ℝ) = 10000 * (k : ℝ) := by rw [← hk]; norm_num
      have h' : (98 : ℤ) = 10000 * k := by exact_mod_cast h
      omega

/-! ### The correspondence is printed without rounding -/

theorem centring3_half (n : ℤ) : (centring3 n).det ≠ 0 ∧ ∃ H : Matrix (Fin 3) (Fin 3) ℤ,
    centring3 n = (1 / 2 : ℝ) • intMat ℝ H := by
  unfold centring3
  split_ifs
  · exact ⟨by simp [Matrix.det_fin_three], !![1, 0, 1; 1, 1, 0; 0, 1, 1], by
      ext i j; fin_cases i <;> fin_cases j <;> simp [intMat]⟩
  · exact ⟨by simp [Matrix.det_fin_three]; norm_num, !![1, -1, -1; 1, 1, -1; 1, 1, 1], by
      ext i j; fin_cases i <;> fin_cases j <;> simp [intMat]⟩
  · exact ⟨by simp [Matrix.det_fin_three]; norm_num, !![1, -1, 0; 1, 1, 0; 0, 0, 2], by
      ext i j; fin_cases i <;> fin_cases j <;> simp [intMat] <;> norm_num⟩
  · exact ⟨by simp, 2, by
      ext i j; fin_cases i <;> fin_cases j <;> simp [intMat, Matrix.ofNat_apply]⟩

theorem centring2_half (n : ℤ) : (centring2 n).det ≠ 0 ∧ ∃ H : Matrix (Fin 2) (Fin 2) ℤ,
    centring2 n = (1 / 2 : ℝ) • intMat ℝ H := by
  unfold centring2
  split_ifs
  · exact ⟨by simp [Matrix.det_fin_two], !![1, -1; 1, 1], by
      ext i j; fin_cases i <;> fin_cases j <;> simp [intMat]⟩
  · exact ⟨by simp, 2, by
      ext i j; fin_cases i <;> fin_cases j <;> simp [intMat, Matrix.ofNat_apply]⟩

/-- The conventional cell in terms of the primitive one: integers, and half-integers the other way. -/
theorem constructs_half {py : Py} {id : ℤ} {arg : PArg} {E C : Matrix (Fin N) (Fin N) ℝ}
    (h : Constructs py id arg N E C) :
    (∃ M : Matrix (Fin N) (Fin N) ℤ, C = intMat ℝ M) ∧
    ∃ H : Matrix (Fin N) (Fin N) ℤ, C⁻¹ = (1 / 2 : ℝ) • intMat ℝ H := by
  obtain ⟨L, hN, h1, h2, h3⟩ := h
  obtain ⟨⟨M, hM, -⟩, -⟩ := C23_conventional_trans py id arg N L h1
  have hC : ∃ H : Matrix (Fin L.N) (Fin L.N) ℤ, L.C⁻¹ = (1 / 2 : ℝ) • intMat ℝ H := by
    clear h3 h2 hM M
    unfold BLat.new at h1
    split at h1
    · cases h1
    split_ifs at h1 with d3 hid hlen d2 hid hlen
    · dsimp only at h1
      split at h1
      · cases h1
      cases h1
      obtain ⟨hd, H, hH⟩ := centring3_half id
      exact ⟨H, by rw [Matrix.nonsing_inv_nonsing_inv _ (isUnit_iff_ne_zero.mpr hd), hH]⟩
    · dsimp only at h1
      split at h1
      · cases h1
      cases h1
      obtain ⟨hd, H, hH⟩ := centring2_half id
      exact ⟨H, by rw [Matrix.nonsing_inv_nonsing_inv _ (isUnit_iff_ne_zero.mpr hd), hH]⟩
  obtain ⟨N', E', id', p', C'⟩ := L
  change C' = _ at hM
  change C' = _ at h3
  dsimp only at hN hM hC
  subst hN
  rw [castSq_rfl] at h3
  subst h3
  exact ⟨⟨M, hM⟩, hC⟩

theorem mapExcept_mem {α β : Type} {f : α → Except Err β} : ∀ (l : List α) {bs : List β},
    mapExcept f l = .ok bs → ∀ b ∈ bs, ∃ a ∈ l, f a = .ok b
  | [], bs, h => by cases h; simp
  | a :: l, bs, h => by
    unfold mapExcept at h
    split at h
    · cases h
    rename_i b hb
    split at h
    · cases h
    rename_i bs' hbs
    cases h
    intro x hx
    rcases List.mem_cons.mp hx with rfl | hx
    · exact ⟨a, List.mem_cons_self .., hb⟩
    · obtain ⟨a', ha', h'⟩ := mapExcept_mem l hbs x hx
      exact ⟨a', List.mem_cons_of_mem _ ha', h'⟩

theorem report_fields {eigsys : Matrix (Fin N) (Fin N) ℝ → (Fin N → ℝ) × Matrix (Fin N) (Fin N) ℝ}
    {EA EM CA CM : Matrix (Fin N) (Fin N) ℝ} {s : Sol (Matrix (Fin N) (Fin N) ℤ) ℝ} {r : Report N}
    (h : report eigsys EA EM CA CM s = .ok r) :
    r.cor = CA⁻¹ * intMat ℝ r.l * CM ∧ r.lams.length = N := by
  unfold report at h
  split_ifs at h
  dsimp only at h
  split_ifs at h
  cases h
  exact ⟨rfl, by simp⟩

/-- Halves have at most two digits after the point. -/
theorem half_exact {N : ℕ} {CA CM cor : Matrix (Fin N) (Fin N) ℝ} {l H M : Matrix (Fin N) (Fin N) ℤ}
    (hA : CA⁻¹ = (1 / 2 : ℝ) • intMat ℝ H) (hM : CM = intMat ℝ M) (hc : cor = CA⁻¹ * intMat ℝ l * CM) (k j : Fin N) :
    (∃ z : ℤ, cor k j = z / 2) ∧ errF 2 (cor k j) = 0 := by
  have h1 : cor k j = (((H * l * M) k j : ℤ) : ℝ) / 2 := by
    have : cor = (1 / 2 : ℝ) • intMat ℝ (H * l * M) := by
      rw [hc, hA, hM]
      rw [intMat_mul, intMat_mul, Matrix.smul_mul, Matrix.smul_mul]
    rw [this]
    simp [intMat]
    ring
  refine ⟨⟨_, h1⟩, ?_⟩
  unfold errF
  rw [if_pos ⟨50 * (H * l * M) k j, by rw [h1]; push_cast; ring⟩]

/-- **C92**, direct search: for any two lattices the constructor accepts and any run of `lat_cor` that returns,
the text says what the returned solutions contain, and it gives the correspondences without rounding: their
entries are multiples of one half, so that the two digits after the point are enough. -/
theorem C92_direct (t : Tol) (py : Py) (kw : LatCorKw) (o : Outside (readkw kw.dim 3)) (brava bravm : ℤ)
    (pa pm : PArg) (EA CA EM CM : Matrix (Fin (readkw kw.dim 3)) (Fin (readkw kw.dim 3)) ℝ)
    (hA : Constructs py brava pa (readkw kw.dim 3) EA CA) (hM : Constructs py bravm pm (readkw kw.dim 3) EM CM)
    (rs : List (Report (readkw kw.dim 3))) (trace : List (List ℤ))
    (hrun : latCor t py kw o brava pa bravm pm = .ok (some rs, trace)) :
    Says (solsText (readkw kw.dist "Cauchy") (readkw kw.nsol 1) (rs.map fun r => (r, none)))
      (reportSays (readkw kw.nsol 1) (rs.map fun r => (r, none))) ∧
    ∀ r ∈ rs, r.lams.length = readkw kw.dim 3 ∧
      ∀ k j, (∃ z : ℤ, r.cor k j = z / 2) ∧ errF 2 (r.cor k j) = 0 := by
  obtain ⟨hN, -, -⟩ := constructs_det hA
  refine ⟨C92_text _ _ (by omega) _, fun r hr => ?_⟩
  obtain ⟨-, H, hH⟩ := constructs_half hA
  obtain ⟨⟨M, hM'⟩, -⟩ := constructs_half hM
  rw [latCor_eq hA hM] at hrun
  unfold latCorCore at hrun
  dsimp only at hrun
  split at hrun
  · cases hrun
  split at hrun
  · cases hrun
  split at hrun
  · cases hrun
  · cases hrun
  split at hrun
  · cases hrun
  rename_i rs' hrs
  cases hrun
  obtain ⟨s, -, hs⟩ := mapExcept_mem _ hrs r hr
  obtain ⟨h1, h2⟩ := report_fields hs
  exact ⟨h2, fun k j => half_exact hH hM' h1 k j⟩

/-- A run that returns, so that `C92_direct` applies. -/
example (t : Tol) (ht : t = .code ∨ t = .exact) (py : Py) :
    ∃ (o : Outside 2) (rs : List (Report 2)) (trace : List (List ℤ)),
      latCor t py { dim := some 2 } o 5 rhombusParam 5 rhombusParam = .ok (some rs, trace) ∧ rs ≠ [] := by
  obtain ⟨o, -, -, rs, trace, h1, r, hr, -⟩ := C77_same_solution_twice_fails t ht py
  refine ⟨o, rs, trace, h1, ?_⟩
  rintro rfl
  simp at hr

theorem run_bind_ok {α β : Type} {m : Run α} {f : α → Run β} {b : β} (h : m.bind f = .ok b) :
    ∃ a, m = .ok a ∧ f a = .ok b := by
  cases m <;> simp [Run.bind] at h ⊢
  exact h

/-- **C92**, search through the sublattices: the same for `lat_cor` of `main_hnf.py`, whatever the sublattices
are that are printed with the solutions. -/
theorem C92_hnf (t : Tol) (py : Py) (o : HnfOutside) (kw : HnfKw) (pool : HnfPool) (F : ℕ) (brava bravm : ℤ)
    (pa pm : PArg) (EA CA EM CM : Matrix (Fin 3) (Fin 3) ℝ)
    (hA : Constructs py brava pa 3 EA CA) (hM : Constructs py bravm pm 3 EM CM)
    (sols : List (Report 3 × Option (Matrix (Fin 3) (Fin 3) ℤ)))
    (hrun : latCorHnf t py o kw pool F brava pa bravm pm = .ok (sols.map Prod.fst)) :
    Says (solsText (readkw kw.dist "Cauchy") (readkw kw.nsol 1) sols) (reportSays (readkw kw.nsol 1) sols) ∧
    ∀ s ∈ sols, s.1.lams.length = 3 ∧ ∀ k j, (∃ z : ℤ, s.1.cor k j = z / 2) ∧ errF 2 (s.1.cor k j) = 0 := by
  refine ⟨C92_text _ _ (by norm_num) _, fun s hs => ?_⟩
  obtain ⟨-, H, hH⟩ := constructs_half hA
  obtain ⟨⟨M, hM'⟩, -⟩ := constructs_half hM
  rw [latCorHnf_eq hA hM] at hrun
  unfold latCorHnfCore at hrun
  obtain ⟨LGA, -, hrun⟩ := run_bind_ok hrun
  obtain ⟨LGM, -, hrun⟩ := run_bind_ok hrun
  obtain ⟨all, -, hrun⟩ := run_bind_ok hrun
  obtain ⟨hnfs, -, hrun⟩ := run_bind_ok hrun
  split at hrun
  · cases hrun
  obtain ⟨st, -, hrun⟩ := run_bind_ok hrun
  have hmap : mapExcept (report o.eigsys EA EM CA CM) st.1 = .ok (sols.map Prod.fst) := by
    cases hm : mapExcept (report o.eigsys EA EM CA CM) st.1 with
    | error e => rw [hm] at hrun; cases hrun
    | ok rs' => rw [hm] at hrun; injection hrun with hrun; rw [hrun]
  obtain ⟨s', -, hs⟩ := mapExcept_mem _ hmap s.1 (List.mem_map_of_mem hs)
  obtain ⟨h1, h2⟩ := report_fields hs
  exact ⟨h2, fun k j => half_exact hH hM' h1 k j⟩

end Verif.Props
