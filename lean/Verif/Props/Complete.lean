import Mathlib.LinearAlgebra.Matrix.Trace
import Verif.Spec.Complete
import Verif.Props.MatrixGroup
import Verif.Props.LatticeGroups
import Verif.Props.Bravais

/-!
# C73: Laue_group contains every rotation that preserves the lattice
-/

namespace Verif.Props

open Matrix Verif.Spec Verif.Model Verif.Lemmas

variable {n : ℕ}

/-! ## Two dimensions: every lattice -/

/-- The trace of a symmetry of a lattice is an integer. -/
theorem trace_int {E Q : Matrix (Fin n) (Fin n) ℝ} (hE : E.det ≠ 0) (h : InPointGroup E Q) :
    ∃ k : ℤ, Q.trace = k := by
  obtain ⟨-, h2⟩ := (inPointGroup_iff hE).mp h
  obtain ⟨M, hM⟩ := (isIntegral_iff _).mp h2
  refine ⟨M.trace, ?_⟩
  have e : (E⁻¹ * (Q * E)).trace = Q.trace := by
    rw [Matrix.trace_mul_comm, Matrix.mul_assoc, Matrix.mul_nonsing_inv _ (isUnit_det_of_ne hE),
      Matrix.mul_one]
  rw [← e, hM]
  simp [Matrix.trace, toR]

/-- A rotation of the plane. -/
theorem rot2_form {Q : Matrix (Fin 2) (Fin 2) ℝ} (h : Q * Qᵀ = 1) (hd : Q.det = 1) :
    Q = !![Q 0 0, -(Q 1 0); Q 1 0, Q 0 0] ∧ Q 0 0 ^ 2 + Q 1 0 ^ 2 = 1 := by
  have h00 := congrFun (congrFun h 0) 0
  have h01 := congrFun (congrFun h 0) 1
  have h11 := congrFun (congrFun h 1) 1
  simp [Matrix.mul_apply, Fin.sum_univ_two] at h00 h01 h11
  rw [Matrix.det_fin_two] at hd
  have e1 : Q 1 1 = Q 0 0 := by
    have : (Q 1 1 - Q 0 0) ^ 2 + (Q 1 0 + Q 0 1) ^ 2 = 0 := by nlinarith
    nlinarith [sq_nonneg (Q 1 1 - Q 0 0), sq_nonneg (Q 1 0 + Q 0 1)]
  have e2 : Q 0 1 = -Q 1 0 := by
    have : (Q 1 1 - Q 0 0) ^ 2 + (Q 1 0 + Q 0 1) ^ 2 = 0 := by nlinarith
    nlinarith [sq_nonneg (Q 1 1 - Q 0 0), sq_nonneg (Q 1 0 + Q 0 1)]
  refine ⟨?_, by rw [e1] at hd; rw [e2] at hd; nlinarith⟩
  ext i j
  fin_cases i <;> fin_cases j <;> simp [e1, e2]

/-- Crystallographic restriction: a rotation of a plane lattice is in the square or in the hexagonal
table. -/
theorem restriction {E Q : Matrix (Fin 2) (Fin 2) ℝ} (hE : E.det ≠ 0) (h : InPointGroup E Q)
    (hd : Q.det = 1) : Q ∈ squareRot.map toR ∨ Q ∈ hex2dRot.map NMat.val := by
  obtain ⟨hf, hn⟩ := rot2_form h.1 hd
  obtain ⟨k, hk⟩ := trace_int hE h
  rw [hf] at hk
  simp [Matrix.trace, Fin.sum_univ_two] at hk
  have hk2 : -2 ≤ k ∧ k ≤ 2 := by
    constructor
    · have : (-2 : ℝ) ≤ k := by nlinarith [sq_nonneg (Q 1 0)]
      exact_mod_cast this
    · have : (k : ℝ) ≤ 2 := by nlinarith [sq_nonneg (Q 1 0)]
      exact_mod_cast this
  obtain ⟨l, u⟩ := hk2
  have hs := hexS_sq
  generalize Q 0 0 = c at *
  generalize Q 1 0 = s at *
  subst hf
  have mem : ∀ c s : ℝ, (c = 1 ∨ c = -1) ∧ s = 0 ∨ c = 0 ∧ (s = 1 ∨ s = -1) →
      !![c, -s; s, c] ∈ squareRot.map toR := by
    intro c s hcs
    simp only [squareRot, squareExt, List.take, List.map_cons, List.map_nil, List.mem_cons,
      List.not_mem_nil, or_false]
    rcases hcs with ⟨rfl | rfl, rfl⟩ | ⟨rfl, rfl | rfl⟩
    · left; ext i j; fin_cases i <;> fin_cases j <;> simp [toR]
    · right; right; right; ext i j; fin_cases i <;> fin_cases j <;> simp [toR]
    · right; left; ext i j; fin_cases i <;> fin_cases j <;> simp [toR]
    · right; right; left; ext i j; fin_cases i <;> fin_cases j <;> simp [toR]
  have memh : ∀ c s : ℝ, (c = hexC ∨ c = -hexC) ∧ (s = hexS ∨ s = -hexS) →
      !![c, -s; s, c] ∈ hex2dRot.map NMat.val := by
    intro c s hcs
    simp only [hex2dRot, hex2dExt, List.take, List.map_cons, List.map_nil, List.mem_cons,
      List.not_mem_nil, or_false, NMat.val]
    rcases hcs with ⟨rfl | rfl, rfl | rfl⟩
    · right; left; rfl
    · right; right; right; right; left; simp
    · right; right; left; rfl
    · right; right; right; right; right; simp
  have root : ∀ x : ℝ, x ^ 2 = 3 / 4 → x = hexS ∨ x = -hexS := by
    intro x hx
    have : (x - hexS) * (x + hexS) = 0 := by nlinarith
    rcases mul_eq_zero.mp this with h | h
    · left; linarith
    · right; linarith
  interval_cases k
  · left
    refine mem _ _ (.inl ⟨.inr (by push_cast at hk; linarith), ?_⟩)
    have : c = -1 := by push_cast at hk; linarith
    rw [this] at hn; nlinarith
  · right
    have : c = -hexC := by rw [hexC_eq]; push_cast at hk; linarith
    refine memh _ _ ⟨.inr this, root _ ?_⟩
    rw [this, hexC_eq] at hn; linarith
  · left
    have : c = 0 := by push_cast at hk; linarith
    refine mem _ _ (.inr ⟨this, ?_⟩)
    rw [this] at hn
    have : (s - 1) * (s + 1) = 0 := by linarith
    rcases mul_eq_zero.mp this with h | h
    · left; linarith
    · right; linarith
  · right
    have : c = hexC := by rw [hexC_eq]; push_cast at hk; linarith
    refine memh _ _ ⟨.inl this, root _ ?_⟩
    rw [this, hexC_eq] at hn; linarith
  · left
    refine mem _ _ (.inl ⟨.inl (by push_cast at hk; linarith), ?_⟩)
    have : c = 1 := by push_cast at hk; linarith
    rw [this] at hn; nlinarith

theorem hex2d_mem_cases {Q : Matrix (Fin 2) (Fin 2) ℝ} (h : Q ∈ hex2dRot.map NMat.val) :
    Q = 1 ∨ Q = -1 ∨ ∃ M ∈ [(!![1, -1; 1, 0] : Matrix (Fin 2) (Fin 2) ℤ), !![0, -1; 1, -1],
      !![0, 1; -1, 1], !![-1, 1; -1, 0]], Q = conjB hexB2 M := by
  rw [hex2dRot_eq] at h
  obtain ⟨M, hM, rfl⟩ := List.mem_map.mp h
  simp only [hex2dInt, List.take, List.mem_cons, List.not_mem_nil, or_false] at hM
  have en : conjB hexB2 (-1) = -1 := by
    have : conjB hexB2 (-1) = -conjB hexB2 1 := by
      rw [conjB, conjB, toR_neg, Matrix.mul_neg, Matrix.neg_mul]
    rw [this, conjB_one hexB2_det]
  rcases hM with rfl | rfl | rfl | rfl | rfl | rfl
  · left
    rw [show (!![1, 0; 0, 1] : Matrix (Fin 2) (Fin 2) ℤ) = 1 by decide +kernel, conjB_one hexB2_det]
  · right; right; exact ⟨_, by simp, rfl⟩
  · right; right; exact ⟨_, by simp, rfl⟩
  · right; left
    rw [show (!![-1, 0; 0, -1] : Matrix (Fin 2) (Fin 2) ℤ) = -1 by decide +kernel, en]
  · right; right; exact ⟨_, by simp, rfl⟩
  · right; right; exact ⟨_, by simp, rfl⟩

/-- C73 in two dimensions: for every lattice, `Laue_group` is the full rotation group. -/
theorem C73_plane (t : Tol) (E : Matrix (Fin 2) (Fin 2) ℝ) (hE : E.det ≠ 0)
    (hr : Reliable t E candidates2) :
    ∃ g, Lat.laueGroup t ⟨2, E⟩ = .ok g ∧ IsFullLaueGroup E g := by
  classical
  obtain ⟨g', hg', hgr, hdet⟩ := C15_laue_group_2d t E hE hr
  refine ⟨g', hg', hgr.nodup, fun Q => ⟨fun hQ => ⟨hgr.sym Q hQ, hdet Q hQ⟩, ?_⟩⟩
  rintro ⟨hQ, hQd⟩
  have hrs : Reliable t E ((squareRot.map NMat.int).map NMat.val) := hr.mono (by
    intro Q hQ
    rw [map_int_val] at hQ
    obtain ⟨R, hR, rfl⟩ := List.mem_map.mp hQ
    exact List.mem_append_left _ (List.mem_map.mpr ⟨R, squareRot_sub R hR, rfl⟩))
  have hrh : Reliable t E (hex2dRot.map NMat.val) := hr.mono (by
    intro Q hQ
    obtain ⟨R, hR, rfl⟩ := List.mem_map.mp hQ
    exact List.mem_append_right _ (List.mem_map.mpr ⟨R, hex2dRot_sub R hR, rfl⟩))
  rw [laueGroup_two, select_sym hE hrs hrh, map_int_val] at hg'
  have h1 : InPointGroup E (toR !![1, 0; 0, 1]) := by
    have := inPointGroup_one E
    rwa [← toR_one, show (1 : Matrix (Fin 2) (Fin 2) ℤ) = !![1, 0; 0, 1] by decide +kernel] at this
  have hn1 : InPointGroup E (toR !![-1, 0; 0, -1]) := by
    have := inPointGroup_neg h1
    rwa [← toR_neg, show -(!![1, 0; 0, 1] : Matrix (Fin 2) (Fin 2) ℤ) = !![-1, 0; 0, -1] by
      decide +kernel] at this
  have hmul : ∀ A B C : Matrix (Fin 2) (Fin 2) ℤ, InPointGroup E (toR A) → InPointGroup E (toR B) →
      A * B = C → InPointGroup E (toR C) := by
    rintro A B _ hA hB rfl
    rw [toR_mul]; exact inPointGroup_mul hA hB
  have hmulH : ∀ A B C : Matrix (Fin 2) (Fin 2) ℤ, InPointGroup E (conjB hexB2 A) →
      InPointGroup E (conjB hexB2 B) → A * B = C → InPointGroup E (conjB hexB2 C) := by
    rintro A B _ hA hB rfl
    rw [conjB_mul hexB2_det]; exact inPointGroup_mul hA hB
  have e1 : toR !![1, 0; 0, 1] = conjB hexB2 !![1, 0; 0, 1] := by
    rw [show (!![1, 0; 0, 1] : Matrix (Fin 2) (Fin 2) ℤ) = 1 by decide +kernel, toR_one,
      conjB_one hexB2_det]
  have en1 : toR !![-1, 0; 0, -1] = conjB hexB2 !![-1, 0; 0, -1] := by
    have : conjB hexB2 (-1) = -conjB hexB2 1 := by
      rw [conjB, conjB, toR_neg, Matrix.mul_neg, Matrix.neg_mul]
    rw [show (!![-1, 0; 0, -1] : Matrix (Fin 2) (Fin 2) ℤ) = -1 by decide +kernel, this, toR_neg,
      toR_one, conjB_one hexB2_det]
  have c1 := e1 ▸ h1
  have cn1 := en1 ▸ hn1
  -- all members of the hexagonal table are symmetries if one of the non-trivial ones is
  have hexall : ∀ M ∈ [(!![1, -1; 1, 0] : Matrix (Fin 2) (Fin 2) ℤ), !![0, -1; 1, -1],
      !![0, 1; -1, 1], !![-1, 1; -1, 0]], InPointGroup E (conjB hexB2 M) →
      ∀ R ∈ hex2dInt.take 6, InPointGroup E (conjB hexB2 R) := by
    intro M hM hs
    have hh : InPointGroup E (conjB hexB2 !![1, -1; 1, 0]) := by
      simp only [List.mem_cons, List.not_mem_nil, or_false] at hM
      rcases hM with rfl | rfl | rfl | rfl
      · exact hs
      · have h2 := hmulH _ _ !![-1, 1; -1, 0] hs hs (by decide +kernel)
        exact hmulH _ _ _ cn1 h2 (by decide +kernel)
      · have h0 := hmulH _ _ !![0, -1; 1, -1] cn1 hs (by decide +kernel)
        have h2 := hmulH _ _ !![-1, 1; -1, 0] h0 h0 (by decide +kernel)
        exact hmulH _ _ _ cn1 h2 (by decide +kernel)
      · exact hmulH _ _ _ cn1 hs (by decide +kernel)
    have hh2 := hmulH _ _ !![0, -1; 1, -1] hh hh (by decide +kernel)
    have hh4 := hmulH _ _ !![0, 1; -1, 1] cn1 hh2 (by decide +kernel)
    have hh5 := hmulH _ _ !![-1, 1; -1, 0] cn1 hh (by decide +kernel)
    intro R hR
    simp only [hex2dInt, List.take, List.mem_cons, List.not_mem_nil, or_false] at hR
    rcases hR with rfl | rfl | rfl | rfl | rfl | rfl
    exacts [c1, hh, hh2, cn1, hh4, hh5]
  -- a quarter turn and a sixth of a turn do not go together
  have nomix : InPointGroup E (toR !![0, -1; 1, 0]) →
      ¬ InPointGroup E (conjB hexB2 !![1, -1; 1, 0]) := by
    intro ha hb
    obtain ⟨k, hk⟩ := trace_int hE (inPointGroup_mul ha hb)
    have eb : conjB hexB2 !![1, -1; 1, 0] = !![hexC, -hexS; hexS, hexC] := by
      symm
      apply eq_conjB hexB2_det
      have hs := hexS_sq
      ext i j
      fin_cases i <;> fin_cases j <;>
        simp [hexB2, toR, Matrix.mul_apply, Fin.sum_univ_two, hexC_eq] <;> nlinarith
    rw [eb] at hk
    simp [Matrix.trace, toR, Fin.sum_univ_two, Matrix.mul_apply] at hk
    have hk3 : (k : ℝ) ^ 2 = 3 := by rw [← hk]; nlinarith [hexS_sq]
    have hz : k ^ 2 = 3 := by exact_mod_cast hk3
    have : k < 2 := by nlinarith
    have : -2 < k := by nlinarith
    interval_cases k <;> omega
  -- membership in the square table
  have sq_cases : ∀ R, R ∈ squareRot.map toR → InPointGroup E R →
      R = 1 ∨ R = -1 ∨ InPointGroup E (toR !![0, -1; 1, 0]) := by
    intro R hR hs
    simp only [squareRot, squareExt, List.take, List.map_cons, List.map_nil, List.mem_cons,
      List.not_mem_nil, or_false] at hR
    rcases hR with rfl | rfl | rfl | rfl
    · left
      rw [show (!![1, 0; 0, 1] : Matrix (Fin 2) (Fin 2) ℤ) = 1 by decide +kernel, toR_one]
    · exact .inr (.inr hs)
    · exact .inr (.inr (hmul _ _ _ hn1 hs (by decide +kernel)))
    · right; left
      rw [show (!![-1, 0; 0, -1] : Matrix (Fin 2) (Fin 2) ℤ) = -1 by decide +kernel, toR_neg, toR_one]
  have sqlen : InPointGroup E (toR !![0, -1; 1, 0]) →
      ((squareRot.map toR).filter (fun Q => decide (InPointGroup E Q))).length = 4 := by
    intro hR
    rw [filter_all]
    · simp [squareRot, squareExt]
    · intro A hA
      obtain ⟨M, hM, rfl⟩ := List.mem_map.mp hA
      simp only [squareRot, squareExt, List.take, List.mem_cons, List.not_mem_nil, or_false] at hM
      apply decide_eq_true
      rcases hM with rfl | rfl | rfl | rfl
      exacts [h1, hR, hmul _ _ _ hn1 hR (by decide +kernel), hn1]
  have sqlen' : ¬ InPointGroup E (toR !![0, -1; 1, 0]) →
      ((squareRot.map toR).filter (fun Q => decide (InPointGroup E Q))).length = 2 := by
    intro hR
    have hR3 : ¬ InPointGroup E (toR !![0, 1; -1, 0]) :=
      fun h => hR (hmul _ _ _ hn1 h (by decide +kernel))
    simp [squareRot, squareExt, h1, hn1, hR, hR3]
  have m1 : (1 : Matrix (Fin 2) (Fin 2) ℝ) ∈ hex2dRot.map NMat.val := by
    rw [hex2dRot_eq]
    refine List.mem_map.mpr ⟨1, by decide +kernel, conjB_one hexB2_det⟩
  have mn1 : (-1 : Matrix (Fin 2) (Fin 2) ℝ) ∈ hex2dRot.map NMat.val := by
    rw [hex2dRot_eq]
    refine List.mem_map.mpr ⟨!![-1, 0; 0, -1], by decide +kernel, ?_⟩
    rw [← en1, show (!![-1, 0; 0, -1] : Matrix (Fin 2) (Fin 2) ℤ) = -1 by decide +kernel, toR_neg,
      toR_one]
  have s1 : (1 : Matrix (Fin 2) (Fin 2) ℝ) ∈ squareRot.map toR :=
    List.mem_map.mpr ⟨1, by decide +kernel, toR_one⟩
  have sn1 : (-1 : Matrix (Fin 2) (Fin 2) ℝ) ∈ squareRot.map toR :=
    List.mem_map.mpr ⟨-1, by decide +kernel, by rw [toR_neg, toR_one]⟩
  split_ifs at hg' with hc
  · cases hg'
    rw [List.mem_filter]
    refine ⟨?_, decide_eq_true hQ⟩
    rcases restriction hE hQ hQd with h | h
    · rcases sq_cases Q h hQ with rfl | rfl | hR
      · exact m1
      · exact mn1
      · have := sqlen hR; omega
    · exact h
  · cases hg'
    rw [List.mem_filter]
    refine ⟨?_, decide_eq_true hQ⟩
    rcases restriction hE hQ hQd with h | h
    · exact h
    · rcases hex2d_mem_cases h with rfl | rfl | ⟨M, hM, rfl⟩
      · exact s1
      · exact sn1
      · exfalso
        have hall := hexall M hM hQ
        have hno : ¬ InPointGroup E (toR !![0, -1; 1, 0]) :=
          fun hR => nomix hR (hall _ (by decide +kernel))
        apply hc
        refine ⟨sqlen' hno, ?_⟩
        rw [hex2dRot_eq, filter_all]
        · simp [hex2dInt]
        · intro A hA
          obtain ⟨R, hR, rfl⟩ := List.mem_map.mp hA
          exact decide_eq_true (hall R hR)

/-! ## Three dimensions: what suffices -/

theorem reliable_cubic {t : Tol} {E : Matrix (Fin 3) (Fin 3) ℝ} (hr : Reliable t E candidates3) :
    Reliable t E ((cubicLaue.map NMat.int).map NMat.val) := hr.mono (by
  intro Q hQ
  rw [map_int_val] at hQ
  exact List.mem_append_left _ hQ)

theorem reliable_hex {t : Tol} {E : Matrix (Fin 3) (Fin 3) ℝ} (hr : Reliable t E candidates3) :
    Reliable t E (hexLaue.map NMat.val) := hr.mono (fun _ hQ => List.mem_append_right _ hQ)

/-- If every rotation of the lattice is in the cubic table, `Laue_group` returns all of them. -/
theorem full_of_cubic (t : Tol) (E : Matrix (Fin 3) (Fin 3) ℝ) (hE : E.det ≠ 0)
    (hr : Reliable t E candidates3) (hc : ∀ Q, IsLatticeRotation E Q → Q ∈ cubicLaue.map toR) :
    ∃ g, Lat.laueGroup t ⟨3, E⟩ = .ok g ∧ IsFullLaueGroup E g := by
  classical
  obtain ⟨g', hg', hgr, hdet⟩ := C15_laue_group_3d t E hE hr
  refine ⟨g', hg', hgr.nodup, fun Q => ⟨fun hQ => ⟨hgr.sym Q hQ, hdet Q hQ⟩, fun hQ => ?_⟩⟩
  rw [laueGroup_three, select_sym hE (reliable_cubic hr) (reliable_hex hr), map_int_val] at hg'
  have hin : Q ∈ (cubicLaue.map toR).filter (fun Q => decide (InPointGroup E Q)) :=
    List.mem_filter.mpr ⟨hc Q hQ, decide_eq_true hQ.1⟩
  split_ifs at hg' with h
  · exfalso
    have hn : ((hexLaue.map NMat.val).filter (fun Q => decide (InPointGroup E Q))).Nodup :=
      hexLaue_nodup.filter _
    have hsub : ∀ R ∈ (hexLaue.map NMat.val).filter (fun Q => decide (InPointGroup E Q)),
        R ∈ (cubicLaue.map toR).filter (fun Q => decide (InPointGroup E Q)) := by
      intro R hR
      obtain ⟨h1, h2⟩ := List.mem_filter.mp hR
      have h2 := of_decide_eq_true h2
      exact List.mem_filter.mpr ⟨hc R ⟨h2, hexLaue_det R h1⟩, decide_eq_true h2⟩
    have := (hn.subperm hsub).length_le
    omega
  · cases hg'
    exact hin

/-- The members of the cubic table that are in the hexagonal table are the four diagonal ones. -/
theorem cubic_in_hex {Q : Matrix (Fin 3) (Fin 3) ℤ} (hQ : Q ∈ cubicLaue)
    (h : toR Q ∈ hexLaue.map NMat.val) : Q ∈ cubicLaue.take 4 := by
  have key : ∀ Q ∈ cubicLaue, (Q = !![1, 0, 0; 0, 1, 0; 0, 0, 1] ∨ Q = !![1, 0, 0; 0, -1, 0; 0, 0, -1] ∨
      Q = !![-1, 0, 0; 0, 1, 0; 0, 0, -1] ∨ Q = !![-1, 0, 0; 0, -1, 0; 0, 0, 1]) →
      Q ∈ cubicLaue.take 4 := by unfold cubicLaue; decide +kernel
  refine key Q hQ ?_
  have half : ∀ x : ℝ, (x = 1 / 2 ∨ x = -(1 / 2)) → ((Q 0 0 : ℤ) : ℝ) ≠ x := by
    rintro x (rfl | rfl) hx
    · have : (2 * Q 0 0 : ℤ) = 1 := by exact_mod_cast (by push_cast; linarith : ((2 * Q 0 0 : ℤ) : ℝ) = 1)
      omega
    · have : (2 * Q 0 0 : ℤ) = -1 := by
        exact_mod_cast (by push_cast; linarith : ((2 * Q 0 0 : ℤ) : ℝ) = -1)
      omega
  simp only [hexLaue, List.map_cons, List.map_nil, List.mem_cons, List.not_mem_nil, or_false,
    NMat.val] at h
  rcases h with h | h | h | h | h | h | h | h | h | h | h | h
  · left; exact toR_injective h
  · right; left; exact toR_injective h
  · right; right; left; exact toR_injective h
  · right; right; right; exact toR_injective h
  all_goals
    exfalso
    have h0 := congrFun (congrFun h 0) 0
    simp only [toR, Matrix.map_apply, Matrix.of_apply, Matrix.cons_val_zero, hexC_eq] at h0
    first
      | exact half _ (.inl rfl) h0
      | exact half _ (.inr rfl) h0

/-- If every rotation of the lattice is in the hexagonal table, and the half turns about the first and
the third axis are rotations of the lattice, `Laue_group` returns all of them. -/
theorem full_of_hex (t : Tol) (E : Matrix (Fin 3) (Fin 3) ℝ) (hE : E.det ≠ 0)
    (hr : Reliable t E candidates3) (hc : ∀ Q, IsLatticeRotation E Q → Q ∈ hexLaue.map NMat.val)
    (hx : IsLatticeRotation E (toR !![1, 0, 0; 0, -1, 0; 0, 0, -1]))
    (hz : IsLatticeRotation E (toR !![-1, 0, 0; 0, -1, 0; 0, 0, 1])) :
    ∃ g, Lat.laueGroup t ⟨3, E⟩ = .ok g ∧ IsFullLaueGroup E g := by
  classical
  obtain ⟨g', hg', hgr, hdet⟩ := C15_laue_group_3d t E hE hr
  refine ⟨g', hg', hgr.nodup, fun Q => ⟨fun hQ => ⟨hgr.sym Q hQ, hdet Q hQ⟩, fun hQ => ?_⟩⟩
  rw [laueGroup_three, select_sym hE (reliable_cubic hr) (reliable_hex hr), map_int_val] at hg'
  have hin : Q ∈ (hexLaue.map NMat.val).filter (fun Q => decide (InPointGroup E Q)) :=
    List.mem_filter.mpr ⟨hc Q hQ, decide_eq_true hQ.1⟩
  have hy : InPointGroup E (toR !![-1, 0, 0; 0, 1, 0; 0, 0, -1]) := by
    have := inPointGroup_mul hx.1 hz.1
    rwa [← toR_mul, show (!![1, 0, 0; 0, -1, 0; 0, 0, -1] : Matrix (Fin 3) (Fin 3) ℤ) *
      !![-1, 0, 0; 0, -1, 0; 0, 0, 1] = !![-1, 0, 0; 0, 1, 0; 0, 0, -1] by decide +kernel] at this
  have h1 : InPointGroup E (toR !![1, 0, 0; 0, 1, 0; 0, 0, 1]) := by
    have := inPointGroup_one E
    rwa [← toR_one, show (1 : Matrix (Fin 3) (Fin 3) ℤ) = !![1, 0, 0; 0, 1, 0; 0, 0, 1] by
      decide +kernel] at this
  have hcub : (cubicLaue.map toR).filter (fun Q => decide (InPointGroup E Q))
      = (cubicLaue.take 4).map toR := by
    conv_lhs => rw [← List.take_append_drop 4 cubicLaue, List.map_append, List.filter_append]
    rw [filter_all, List.filter_eq_nil_iff.mpr, List.append_nil]
    · intro A hA
      obtain ⟨R, hR, rfl⟩ := List.mem_map.mp hA
      intro hs
      have hs := of_decide_eq_true hs
      have hRm := List.mem_of_mem_drop hR
      have h4 := cubic_in_hex hRm (hc _ ⟨hs, by rw [toR_det, cubic_det R hRm, Int.cast_one]⟩)
      have : ∀ R ∈ cubicLaue.drop 4, R ∉ cubicLaue.take 4 := by unfold cubicLaue; decide +kernel
      exact this R hR h4
    · intro A hA
      obtain ⟨R, hR, rfl⟩ := List.mem_map.mp hA
      simp only [cubicLaue, List.take, List.mem_cons, List.not_mem_nil, or_false] at hR
      apply decide_eq_true
      rcases hR with rfl | rfl | rfl | rfl
      exacts [h1, hx.1, hy, hz.1]
  rw [hcub] at hg'
  split_ifs at hg' with h
  · cases hg'
    exact hin
  · cases hg'
    have hl : ((cubicLaue.take 4).map toR).length = 4 := by simp [cubicLaue]
    have hle : ((hexLaue.map NMat.val).filter (fun Q => decide (InPointGroup E Q))).length ≤ 4 := by
      by_contra hlt
      exact h ⟨hl, by omega⟩
    have hsub : ∀ R ∈ (cubicLaue.take 4).map toR,
        R ∈ (hexLaue.map NMat.val).filter (fun Q => decide (InPointGroup E Q)) := by
      intro A hA
      obtain ⟨R, hR, rfl⟩ := List.mem_map.mp hA
      have hs : InPointGroup E (toR R) := hgr.sym _ hA
      exact List.mem_filter.mpr ⟨hc _ ⟨hs, hdet _ hA⟩, decide_eq_true hs⟩
    have hsp := hgr.nodup.subperm hsub
    have := hsp.perm_of_length_le (by rw [hl]; exact hle)
    exact this.mem_iff.mpr hin

/-- An integral rotation is in the cubic table. -/
theorem integral_rotation {Q : Matrix (Fin 3) (Fin 3) ℝ} (h : Q * Qᵀ = 1) (hd : Q.det = 1)
    (hi : IsIntegral Q) : Q ∈ cubicLaue.map toR := by
  obtain ⟨R, rfl⟩ := (isIntegral_iff _).mp hi
  refine List.mem_map.mpr ⟨R, (C19_cubic_complete R).mpr ⟨?_, ?_⟩, rfl⟩
  · apply toR_injective
    rw [toR_mul, toR_transpose, h, toR_one]
  · rw [toR_det] at hd
    exact_mod_cast hd

/-- A symmetry of the lattice written in lattice coordinates: an integer matrix with an integer
inverse that preserves the scalar products of the base vectors. -/
theorem sym_coords {E Q : Matrix (Fin n) (Fin n) ℝ} (hE : E.det ≠ 0) (h : InPointGroup E Q) :
    ∃ M N : Matrix (Fin n) (Fin n) ℤ, Q * E = E * toR M ∧ M * N = 1 ∧
      (toR M)ᵀ * (Eᵀ * E) * toR M = Eᵀ * E := by
  obtain ⟨h1, h2⟩ := (inPointGroup_iff hE).mp h
  obtain ⟨M, hM⟩ := (isIntegral_iff _).mp h2
  have hu := isUnit_det_of_ne hE
  have hQE : Q * E = E * toR M := by
    rw [← hM, ← Matrix.mul_assoc, Matrix.mul_nonsing_inv _ hu, Matrix.one_mul]
  have hinv : InPointGroup E Qᵀ := inPointGroup_inv h h1
  obtain ⟨-, h2'⟩ := (inPointGroup_iff hE).mp hinv
  obtain ⟨N, hN⟩ := (isIntegral_iff _).mp h2'
  refine ⟨M, N, hQE, ?_, ?_⟩
  · apply toR_injective
    rw [toR_mul, toR_one, ← hM, ← hN]
    calc E⁻¹ * (Q * E) * (E⁻¹ * (Qᵀ * E)) = E⁻¹ * (Q * (E * E⁻¹) * Qᵀ) * E := by
          simp only [Matrix.mul_assoc]
      _ = 1 := by
          rw [Matrix.mul_nonsing_inv _ hu, Matrix.mul_one, h1, Matrix.mul_one,
            Matrix.nonsing_inv_mul _ hu]
  · have hQ' : Qᵀ * Q = 1 := mul_eq_one_comm.mp h1
    calc (toR M)ᵀ * (Eᵀ * E) * toR M = (E * toR M)ᵀ * (E * toR M) := by
          rw [Matrix.transpose_mul]; simp only [Matrix.mul_assoc]
      _ = (Q * E)ᵀ * (Q * E) := by rw [hQE]
      _ = Eᵀ * (Qᵀ * Q) * E := by rw [Matrix.transpose_mul]; simp only [Matrix.mul_assoc]
      _ = Eᵀ * E := by rw [hQ', Matrix.mul_one]

/-- Integer vectors as real vectors. -/
def vR (u : Fin n → ℤ) : Fin n → ℝ := fun i => (u i : ℝ)

theorem toR_mulVec (M : Matrix (Fin n) (Fin n) ℤ) (u : Fin n → ℤ) : toR M *ᵥ vR u = vR (M *ᵥ u) := by
  ext i
  simp [toR, vR, Matrix.mulVec, dotProduct]

/-- An irreducible base vector is mapped into one of two orthogonal summands. -/
theorem split_irreducible {G : Matrix (Fin n) (Fin n) ℝ} {M N : Matrix (Fin n) (Fin n) ℤ}
    (hG : (toR M)ᵀ * G * toR M = G) (hMN : M * N = 1) (j : Fin n) (S : Fin n → Prop) [DecidablePred S]
    (horth : ∀ i k, S i → ¬ S k → G i k = 0)
    (irr : ∀ u : Fin n → ℤ, vR u ⬝ᵥ (G *ᵥ vR u) = vR u ⬝ᵥ (G *ᵥ vR (Pi.single j 1)) →
      u = 0 ∨ u = Pi.single j 1) :
    (∀ i, S i → M i j = 0) ∨ ∀ i, ¬ S i → M i j = 0 := by
  have hB : ∀ u v : Fin n → ℤ, vR (M *ᵥ u) ⬝ᵥ (G *ᵥ vR (M *ᵥ v)) = vR u ⬝ᵥ (G *ᵥ vR v) := by
    intro u v
    conv_rhs => rw [← hG]
    rw [← toR_mulVec, ← toR_mulVec]
    simp only [← Matrix.mulVec_mulVec]
    rw [Matrix.dotProduct_mulVec (vR u), Matrix.vecMul_transpose]
  set u : Fin n → ℤ := fun i => if S i then M i j else 0 with hu
  have hMu : M *ᵥ (N *ᵥ u) = u := by rw [Matrix.mulVec_mulVec, hMN, Matrix.one_mulVec]
  have hMe : M *ᵥ Pi.single j 1 = fun i => M i j := by
    ext i; simp
  have hself : vR u ⬝ᵥ (G *ᵥ vR u) = vR u ⬝ᵥ (G *ᵥ vR (fun i => M i j)) := by
    simp only [dotProduct, Matrix.mulVec, dotProduct]
    apply Finset.sum_congr rfl
    intro i _
    by_cases hi : S i
    · congr 1
      apply Finset.sum_congr rfl
      intro k _
      by_cases hk : S k
      · simp [vR, hu, hk]
      · rw [horth i k hi hk]; simp
    · simp [vR, hu, hi]
  have h := irr (N *ᵥ u) (by
    rw [← hB (N *ᵥ u), ← hB (N *ᵥ u), hMu, hMe, hself])
  rcases h with h | h
  · left
    rw [h, Matrix.mulVec_zero] at hMu
    intro i hi
    have := congrFun hMu i
    simp only [hu, hi, if_true, Pi.zero_apply] at this
    exact this.symm
  · right
    rw [h, hMe] at hMu
    intro i hi
    have := congrFun hMu i
    simpa only [hu, hi, if_false] using this

/-! ## Three dimensions: the standard settings -/

/-- Lattices with an orthogonal cell along the coordinate axes: all rotations are integral. -/
theorem orthogonal_integral {s : Fin n → ℝ} (hs : ∀ i, 0 < s i) {Q : Matrix (Fin n) (Fin n) ℝ}
    (h : InPointGroup (Matrix.diagonal s) Q) : IsIntegral Q := by
  have hE : (Matrix.diagonal s).det ≠ 0 := by
    rw [Matrix.det_diagonal]
    exact Finset.prod_ne_zero_iff.mpr fun i _ => (hs i).ne'
  obtain ⟨M, N, hQE, hMN, hG⟩ := sym_coords hE h
  rw [Matrix.diagonal_transpose, Matrix.diagonal_mul_diagonal] at hG
  have ent : ∀ i j, Q i j * s j = s i * M i j := by
    intro i j
    have := congrFun (congrFun hQE i) j
    rw [Matrix.mul_diagonal, Matrix.diagonal_mul] at this
    simpa [toR] using this
  have col : ∀ i j, M i j = 0 ∨ ∀ k, k ≠ i → M k j = 0 := by
    intro i j
    have := split_irreducible hG hMN j (fun k => k = i) (by
      intro a b ha hb
      rw [Matrix.diagonal_apply_ne]
      rintro rfl
      exact hb ha) (by
      intro u hu
      simp only [Matrix.mulVec_diagonal, dotProduct, vR] at hu
      have hz : ∑ k, s k * s k * ((u k : ℝ) ^ 2 - (u k : ℝ) * ((Pi.single j 1 : Fin n → ℤ) k : ℝ)) = 0 := by
        rw [← sub_eq_zero, ← Finset.sum_sub_distrib] at hu
        rw [← hu]
        apply Finset.sum_congr rfl
        intro k _
        ring
      have hnn : ∀ k : Fin n, 0 ≤ (u k : ℝ) ^ 2 - (u k : ℝ) * ((Pi.single j 1 : Fin n → ℤ) k : ℝ) := by
        intro k
        by_cases hk : k = j
        · subst hk
          rw [Pi.single_eq_same]
          have : (0 : ℤ) ≤ u k ^ 2 - u k := by
            rcases le_or_gt (u k) 0 with h | h
            · nlinarith
            · nlinarith
          have : (0 : ℝ) ≤ ((u k ^ 2 - u k : ℤ) : ℝ) := by exact_mod_cast this
          push_cast at this
          simpa using this
        · rw [Pi.single_eq_of_ne hk]
          simpa using sq_nonneg ((u k : ℤ) : ℝ)
      have hall := (Finset.sum_eq_zero_iff_of_nonneg (fun k _ =>
        mul_nonneg (mul_pos (hs k) (hs k)).le (hnn k))).mp hz
      have hk : ∀ k, (u k : ℝ) ^ 2 - (u k : ℝ) * ((Pi.single j 1 : Fin n → ℤ) k : ℝ) = 0 := by
        intro k
        have := hall k (Finset.mem_univ k)
        exact (mul_eq_zero.mp this).resolve_left (mul_pos (hs k) (hs k)).ne'
      have hoff : ∀ k, k ≠ j → u k = 0 := by
        intro k hkj
        have := hk k
        rw [Pi.single_eq_of_ne hkj] at this
        simp only [Int.cast_zero, mul_zero, sub_zero] at this
        exact_mod_cast pow_eq_zero_iff (two_ne_zero) |>.mp this
      have hj := hk j
      rw [Pi.single_eq_same] at hj
      have hj' : (u j : ℝ) * ((u j : ℝ) - 1) = 0 := by push_cast at hj; linarith
      rcases mul_eq_zero.mp hj' with h0 | h0
      · left
        ext k
        by_cases hkj : k = j
        · subst hkj; exact_mod_cast h0
        · exact hoff k hkj
      · right
        ext k
        by_cases hkj : k = j
        · subst hkj
          rw [Pi.single_eq_same]
          have : (u k : ℝ) = 1 := by linarith
          exact_mod_cast this
        · rw [Pi.single_eq_of_ne hkj]; exact hoff k hkj)
    rcases this with h | h
    · exact .inl (h i rfl)
    · exact .inr h
  intro i j
  by_cases hij : Q i j = 0
  · exact ⟨0, by simp [hij]⟩
  have hMij : M i j ≠ 0 := by
    intro h0
    have := ent i j
    rw [h0, Int.cast_zero, mul_zero] at this
    exact hij ((mul_eq_zero.mp this).resolve_right (hs j).ne')
  have hother : ∀ k, k ≠ i → Q k j = 0 := by
    intro k hk
    have := ent k j
    rw [(col i j).resolve_left hMij k hk, Int.cast_zero, mul_zero] at this
    exact (mul_eq_zero.mp this).resolve_right (hs j).ne'
  have hcol : ∑ k, Q k j * Q k j = 1 := by
    have hQ' : Qᵀ * Q = 1 := mul_eq_one_comm.mp h.1
    have := congrFun (congrFun hQ' j) j
    simpa [Matrix.mul_apply] using this
  rw [Finset.sum_eq_single i (fun k _ hk => by rw [hother k hk, mul_zero]) (by simp)] at hcol
  have : (Q i j - 1) * (Q i j + 1) = 0 := by linarith
  rcases mul_eq_zero.mp this with h | h
  · exact ⟨1, by push_cast; linarith⟩
  · exact ⟨-1, by push_cast; linarith⟩

theorem ratio_of_smul {a : ℝ} (ha : a ≠ 0) {B M : Matrix (Fin 3) (Fin 3) ℤ}
    {Q : Matrix (Fin 3) (Fin 3) ℝ} (h : Q * (a • toR B) = (a • toR B) * toR M) :
    Q * toR B = toR (B * M) := by
  rw [Matrix.mul_smul, Matrix.smul_mul, ← toR_mul] at h
  ext i j
  have := congrFun (congrFun h i) j
  simp only [Matrix.smul_apply, smul_eq_mul] at this
  exact mul_left_cancel₀ ha this

/-- Face-centred and body-centred cubic lattices: all rotations are integral. -/
theorem centred_integral {a : ℝ} (ha : a ≠ 0) {B C : Matrix (Fin 3) (Fin 3) ℤ} (hBC : B * C = 2)
    (hmod : ∀ v : Fin 3 → ℤ, (∀ i, 2 ∣ ((Bᵀ * B) *ᵥ v) i) → ∀ i, 2 ∣ (B *ᵥ v) i)
    {Q : Matrix (Fin 3) (Fin 3) ℝ} (h : InPointGroup (a • toR B) Q) : IsIntegral Q := by
  have hE : (a • toR B).det ≠ 0 := by
    rw [Matrix.det_smul, toR_det]
    refine mul_ne_zero (pow_ne_zero _ ha) ?_
    have := congrArg Matrix.det hBC
    rw [Matrix.det_mul, show (2 : Matrix (Fin 3) (Fin 3) ℤ).det = 8 by decide +kernel] at this
    intro h0
    have h0 : B.det = 0 := by exact_mod_cast h0
    rw [h0] at this
    simp at this
  obtain ⟨M, N, hQE, hMN, hG⟩ := sym_coords hE h
  have hQB := ratio_of_smul ha hQE
  have hGz : Mᵀ * (Bᵀ * B) * M = Bᵀ * B := by
    apply toR_injective
    have e0 : (a • toR B)ᵀ * a • toR B = (a * a) • ((toR B)ᵀ * toR B) := by
      rw [Matrix.transpose_smul, Matrix.smul_mul, Matrix.mul_smul, smul_smul]
    rw [e0, Matrix.mul_smul, Matrix.smul_mul] at hG
    rw [toR_mul, toR_mul, toR_mul, toR_transpose, toR_transpose]
    ext i j
    have := congrFun (congrFun hG i) j
    simp only [Matrix.smul_apply, smul_eq_mul] at this
    exact mul_left_cancel₀ (mul_ne_zero ha ha) this
  have hGMC : (Bᵀ * B) * (M * C) = Nᵀ * Bᵀ * 2 := by
    have hNM : Nᵀ * Mᵀ = 1 := by rw [← Matrix.transpose_mul, hMN, Matrix.transpose_one]
    calc (Bᵀ * B) * (M * C) = (Nᵀ * Mᵀ) * ((Bᵀ * B) * (M * C)) := by rw [hNM, Matrix.one_mul]
      _ = Nᵀ * (Mᵀ * (Bᵀ * B) * M) * C := by simp only [Matrix.mul_assoc]
      _ = Nᵀ * Bᵀ * (B * C) := by rw [hGz]; simp only [Matrix.mul_assoc]
      _ = Nᵀ * Bᵀ * 2 := by rw [hBC]
  have h2 : ∀ (A : Matrix (Fin 3) (Fin 3) ℤ) (i j : Fin 3),
      (A * (2 : Matrix (Fin 3) (Fin 3) ℤ)) i j = 2 * A i j := by
    intro A i j
    rw [show (2 : Matrix (Fin 3) (Fin 3) ℤ) = (2 : ℤ) • (1 : Matrix (Fin 3) (Fin 3) ℤ) by decide +kernel,
      Matrix.mul_smul, Matrix.mul_one]
    simp
  have hdvd : ∀ i j, 2 ∣ (B * (M * C)) i j := by
    intro i j
    have := hmod (fun k => (M * C) k j) (by
      intro i
      have e : ((Bᵀ * B) *ᵥ fun k => (M * C) k j) i = ((Bᵀ * B) * (M * C)) i j := by
        simp [Matrix.mulVec, dotProduct, Matrix.mul_apply]
      rw [e, hGMC, h2]
      exact ⟨_, rfl⟩) i
    have e : (B *ᵥ fun k => (M * C) k j) i = (B * (M * C)) i j := by
      simp [Matrix.mulVec, dotProduct, Matrix.mul_apply]
    rwa [e] at this
  intro i j
  obtain ⟨z, hz⟩ := hdvd i j
  refine ⟨z, ?_⟩
  have e : Q * toR (B * C) = toR (B * (M * C)) := by
    rw [toR_mul, ← Matrix.mul_assoc, hQB, ← toR_mul, Matrix.mul_assoc]
  have e2 : Q * toR (B * C) = (2 : ℝ) • Q := by
    rw [hBC, show (2 : Matrix (Fin 3) (Fin 3) ℤ) = (2 : ℤ) • (1 : Matrix (Fin 3) (Fin 3) ℤ) by
      decide +kernel]
    have : toR ((2 : ℤ) • (1 : Matrix (Fin 3) (Fin 3) ℤ)) = (2 : ℝ) • (1 : Matrix (Fin 3) (Fin 3) ℝ) := by
      rw [← toR_one]
      ext i j
      rw [Matrix.smul_apply]
      simp only [toR, Matrix.map_apply, Matrix.smul_apply, smul_eq_mul, Int.cast_mul, Int.cast_ofNat]
    rw [this, Matrix.mul_smul, Matrix.mul_one]
  have := congrFun (congrFun (e2.symm.trans e) i) j
  simp only [Matrix.smul_apply, smul_eq_mul, toR, Matrix.map_apply, hz] at this
  push_cast at this
  linarith

/-- The rotations of the hexagonal lattice in the base of `BravaisLattice(4, [a, c])`, in the order of
`HEX_LAUE_GROUP`. -/
def hexRots : List (Matrix (Fin 3) (Fin 3) ℤ) := [
  !![1, 0, 0; 0, 1, 0; 0, 0, 1],
  !![1, 1, 0; 0, -1, 0; 0, 0, -1],
  !![-1, -1, 0; 0, 1, 0; 0, 0, -1],
  !![-1, 0, 0; 0, -1, 0; 0, 0, 1],
  !![0, -1, 0; 1, 1, 0; 0, 0, 1],
  !![1, 1, 0; -1, 0, 0; 0, 0, 1],
  !![-1, -1, 0; 1, 0, 0; 0, 0, 1],
  !![0, 1, 0; -1, -1, 0; 0, 0, 1],
  !![1, 0, 0; -1, -1, 0; 0, 0, -1],
  !![0, 1, 0; 1, 0, 0; 0, 0, -1],
  !![0, -1, 0; -1, 0, 0; 0, 0, -1],
  !![-1, 0, 0; 1, 1, 0; 0, 0, -1]]

/-- The base of `BravaisLattice(4, [a, c])`. -/
noncomputable def hexBase (a c : ℝ) : Matrix (Fin 3) (Fin 3) ℝ :=
  !![a, a / 2, 0; 0, a * hexS, 0; 0, 0, c]

theorem hexBase_det {a c : ℝ} (ha : 0 < a) (hc : 0 < c) : (hexBase a c).det ≠ 0 := by
  have := hexS_pos
  simp [hexBase, Matrix.det_fin_three, ha.ne', hc.ne', this.ne']

theorem hexBase_gram (a c : ℝ) : (hexBase a c)ᵀ * hexBase a c =
    !![a ^ 2, a ^ 2 / 2, 0; a ^ 2 / 2, a ^ 2, 0; 0, 0, c ^ 2] := by
  have := hexS_sq
  ext i j
  fin_cases i <;> fin_cases j <;>
    simp [hexBase, Matrix.mul_apply, Fin.sum_univ_three] <;> nlinarith

/-- The table and the rotations of the hexagonal lattice correspond. -/
theorem hex_table (a c : ℝ) : ∀ M ∈ hexRots, ∃ V ∈ hexLaue.map NMat.val,
    V * hexBase a c = hexBase a c * toR M := by
  have hs : hexS * (a * hexS) = 3 / 4 * a := by rw [← hexS_sq]; ring
  have key : List.Forall₂ (fun M V => V * hexBase a c = hexBase a c * toR M) hexRots
      (hexLaue.map NMat.val) := by
    simp only [hexRots, hexLaue, List.map_cons, List.map_nil, NMat.val, List.forall₂_cons,
      List.forall₂_nil_left_iff, and_true]
    refine ⟨?_, ?_, ?_, ?_, ?_, ?_, ?_, ?_, ?_, ?_, ?_, ?_⟩ <;>
    · ext i j
      fin_cases i <;> fin_cases j <;>
        simp [hexBase, toR, Matrix.mul_apply, Fin.sum_univ_three, hexC_eq] <;> linarith
  intro M hM
  obtain ⟨i, hi, rfl⟩ := List.getElem_of_mem hM
  have hl := key.length_eq
  exact ⟨_, List.getElem_mem (hl ▸ hi), key.get hi (hl ▸ hi)⟩

theorem sq_bound {x y : ℤ} (h : x * x + x * y + y * y = 1) :
    -1 ≤ x ∧ x ≤ 1 ∧ -1 ≤ y ∧ y ≤ 1 := by
  have h1 : 3 * (y * y) ≤ 4 := by nlinarith [mul_self_nonneg (2 * x + y)]
  have h2 : 3 * (x * x) ≤ 4 := by nlinarith [mul_self_nonneg (2 * y + x)]
  refine ⟨?_, ?_, ?_, ?_⟩ <;> nlinarith

/-- The integer rotations of the hexagonal form are the twelve listed. -/
theorem hexRots_complete {x y z w k : ℤ} (h1 : x * x + x * y + y * y = 1)
    (h2 : z * z + z * w + w * w = 1) (h3 : 2 * (x * z) + x * w + y * z + 2 * (y * w) = 1)
    (hd : (x * w - z * y) * k = 1) : !![x, z, 0; y, w, 0; 0, 0, k] ∈ hexRots := by
  obtain ⟨a1, a2, a3, a4⟩ := sq_bound h1
  obtain ⟨b1, b2, b3, b4⟩ := sq_bound h2
  have hk : k = 1 ∨ k = -1 := Int.isUnit_iff.mp (IsUnit.of_mul_eq_one_right _ hd)
  interval_cases x <;> interval_cases y <;> first | omega | skip
  all_goals
    interval_cases z <;> interval_cases w <;> first | omega | skip
  all_goals
    rcases hk with rfl | rfl <;> first | omega | (unfold hexRots; decide +kernel)

/-- Every rotation of the primitive hexagonal lattice is in the hexagonal table. -/
theorem hexagonal_table {a c : ℝ} (ha : 0 < a) (hc : 0 < c) {Q : Matrix (Fin 3) (Fin 3) ℝ}
    (h : IsLatticeRotation (hexBase a c) Q) : Q ∈ hexLaue.map NMat.val := by
  have hE := hexBase_det ha hc
  obtain ⟨M, N, hQE, hMN, hG⟩ := sym_coords hE h.1
  have hdet : M.det = 1 := by
    have h1 := congrArg Matrix.det hQE
    rw [Matrix.det_mul, Matrix.det_mul, h.2, one_mul, toR_det] at h1
    have : (M.det : ℝ) = 1 := mul_left_cancel₀ hE (by rw [← h1, mul_one])
    exact_mod_cast this
  rw [hexBase_gram] at hG
  have hA : 0 < a ^ 2 := by positivity
  have hC : 0 < c ^ 2 := by positivity
  have split : ∀ j, (∀ i, i ≠ 2 → M i j = 0) ∨ ∀ i, ¬ i ≠ 2 → M i j = 0 := by
    intro j
    refine split_irreducible hG hMN j (fun i => i ≠ 2) ?_ ?_
    · intro i k hi hk
      push Not at hk
      subst hk
      fin_cases i
      · simp
      · simp
      · exact absurd rfl hi
    · intro u hu
      have eu : u = ![u 0, u 1, u 2] := by ext i; fin_cases i <;> rfl
      generalize u 0 = p at eu
      generalize u 1 = q at eu
      generalize u 2 = r at eu
      subst eu
      have hpp : ∀ p : ℤ, 0 ≤ p * p - p := by
        intro p
        rcases le_or_gt p 0 with h | h <;> nlinarith
      have cases01 : ∀ p : ℤ, p * p - p = 0 → p = 0 ∨ p = 1 := by
        intro p hp
        have : p * (p - 1) = 0 := by linarith
        rcases mul_eq_zero.mp this with h | h
        · exact .inl h
        · right; omega
      have fin : ∀ X Y : ℤ, 0 ≤ X → 0 ≤ Y → ∀ A C : ℝ, 0 < A → 0 < C → A * X + C * Y = 0 →
          X = 0 ∧ Y = 0 := by
        intro X Y hX hY A C hA hC h0
        have hX' : (0 : ℝ) ≤ X := by exact_mod_cast hX
        have hY' : (0 : ℝ) ≤ Y := by exact_mod_cast hY
        have h1 := mul_nonneg hA.le hX'
        have h2 := mul_nonneg hC.le hY'
        have e1 : A * X = 0 := by linarith
        have e2 : C * Y = 0 := by linarith
        constructor
        · exact_mod_cast (mul_eq_zero.mp e1).resolve_left hA.ne'
        · exact_mod_cast (mul_eq_zero.mp e2).resolve_left hC.ne'
      fin_cases j
      · simp [vR, dotProduct, Matrix.mulVec, Fin.sum_univ_three] at hu
        obtain ⟨e1, e2⟩ := fin (p * p - p + ((p + q) * (p + q) - (p + q)) + q * q) (2 * (r * r))
          (by nlinarith [hpp p, hpp (p + q), mul_self_nonneg q]) (by nlinarith [mul_self_nonneg r])
          (a ^ 2) (c ^ 2) hA hC (by push_cast; linarith)
        have hq : q = 0 := by nlinarith [hpp p, hpp (p + q), mul_self_nonneg q]
        have hr : r = 0 := by nlinarith [mul_self_nonneg r]
        subst hq hr
        rcases cases01 p (by nlinarith [hpp p]) with rfl | rfl
        · left; decide
        · right; decide
      · simp [vR, dotProduct, Matrix.mulVec, Fin.sum_univ_three] at hu
        obtain ⟨e1, e2⟩ := fin (q * q - q + ((p + q) * (p + q) - (p + q)) + p * p) (2 * (r * r))
          (by nlinarith [hpp q, hpp (p + q), mul_self_nonneg p]) (by nlinarith [mul_self_nonneg r])
          (a ^ 2) (c ^ 2) hA hC (by push_cast; linarith)
        have hp : p = 0 := by nlinarith [hpp q, hpp (p + q), mul_self_nonneg p]
        have hr : r = 0 := by nlinarith [mul_self_nonneg r]
        subst hp hr
        rcases cases01 q (by nlinarith [hpp q]) with rfl | rfl
        · left; decide
        · right; decide
      · simp [vR, dotProduct, Matrix.mulVec, Fin.sum_univ_three] at hu
        obtain ⟨e1, e2⟩ := fin (p * p + p * q + q * q) (r * r - r)
          (by nlinarith [mul_self_nonneg p, mul_self_nonneg q, mul_self_nonneg (p + q)]) (hpp r)
          (a ^ 2) (c ^ 2) hA hC (by push_cast; linarith)
        have hp : p = 0 := by nlinarith [mul_self_nonneg p, mul_self_nonneg q, mul_self_nonneg (p + q)]
        have hq : q = 0 := by nlinarith [mul_self_nonneg p, mul_self_nonneg q, mul_self_nonneg (p + q)]
        subst hp hq
        rcases cases01 r e2 with rfl | rfl
        · left; decide
        · right; decide
  have entry : ∀ i j, ((toR M)ᵀ * !![a ^ 2, a ^ 2 / 2, 0; a ^ 2 / 2, a ^ 2, 0; 0, 0, c ^ 2] * toR M) i j
      = (!![a ^ 2, a ^ 2 / 2, 0; a ^ 2 / 2, a ^ 2, 0; 0, 0, c ^ 2] : Matrix (Fin 3) (Fin 3) ℝ) i j := by
    intro i j; rw [hG]
  have e00 := entry 0 0
  have e01 := entry 0 1
  have e11 := entry 1 1
  simp [Matrix.mul_apply, Fin.sum_univ_three, toR] at e00 e01 e11
  rw [Matrix.det_fin_three] at hdet
  have z20 : M 2 0 = 0 := by
    rcases split 0 with h0 | h0
    · exfalso
      have m00 := h0 0 (by decide)
      have m10 := h0 1 (by decide)
      rcases split 1 with h1 | h1
      · rw [m00, m10, h1 0 (by decide), h1 1 (by decide)] at hdet
        simp at hdet
      · rw [m00, m10, h1 2 (by decide)] at e01
        simp at e01
        linarith
    · exact h0 2 (by decide)
  have z21 : M 2 1 = 0 := by
    rcases split 1 with h0 | h0
    · exfalso
      rw [h0 0 (by decide), h0 1 (by decide), z20] at e01
      simp at e01
      linarith
    · exact h0 2 (by decide)
  have z2 : M 0 2 = 0 ∧ M 1 2 = 0 := by
    rcases split 2 with h0 | h0
    · exact ⟨h0 0 (by decide), h0 1 (by decide)⟩
    · exfalso
      rw [z20, z21, h0 2 (by decide)] at hdet
      simp at hdet
  obtain ⟨z02, z12⟩ := z2
  rw [z20, z21, z02, z12] at hdet
  rw [z20] at e00
  rw [z20, z21] at e01
  rw [z21] at e11
  have cancel : ∀ X Y : ℤ, a ^ 2 * (X : ℝ) = a ^ 2 * Y → X = Y := by
    intro X Y hXY
    exact_mod_cast mul_left_cancel₀ hA.ne' hXY
  have hM : !![M 0 0, M 0 1, 0; M 1 0, M 1 1, 0; 0, 0, M 2 2] ∈ hexRots := by
    refine hexRots_complete (cancel _ _ ?_) (cancel _ _ ?_) (cancel _ _ ?_) (by linarith)
    · push_cast; push_cast at e00; linarith
    · push_cast; push_cast at e11; linarith
    · push_cast; push_cast at e01; linarith
  have eM : M = !![M 0 0, M 0 1, 0; M 1 0, M 1 1, 0; 0, 0, M 2 2] := by
    ext i j
    fin_cases i <;> fin_cases j <;> simp [z20, z21, z02, z12]
  rw [← eM] at hM
  obtain ⟨V, hV, hVE⟩ := hex_table a c M hM
  have : Q = V := by
    have h1 := hQE.trans hVE.symm
    have h2 := congrArg (· * (hexBase a c)⁻¹) h1
    simpa only [Matrix.mul_assoc, Matrix.mul_nonsing_inv _ (isUnit_det_of_ne hE), Matrix.mul_one]
      using h2
  rw [this]; exact hV

/-- Every member of the hexagonal table is a rotation of the primitive hexagonal lattice. -/
theorem hexagonal_sym {a c : ℝ} (ha : 0 < a) (hc : 0 < c) {M : Matrix (Fin 3) (Fin 3) ℤ}
    {V : Matrix (Fin 3) (Fin 3) ℝ} (hV : V ∈ hexLaue.map NMat.val)
    (h : V * hexBase a c = hexBase a c * toR M) : IsLatticeRotation (hexBase a c) V := by
  refine ⟨(inPointGroup_iff (hexBase_det ha hc)).mpr ⟨hexLaue_ortho V hV, ?_⟩, hexLaue_det V hV⟩
  rw [h, ← Matrix.mul_assoc, Matrix.nonsing_inv_mul _ (isUnit_det_of_ne (hexBase_det ha hc)),
    Matrix.one_mul]
  exact isIntegral_toR M

theorem primBase_of_new {py : Py} {id : ℤ} {arg : PArg} {E : Matrix (Fin 3) (Fin 3) ℝ} {x : Nums}
    {C : Matrix (Fin 3) (Fin 3) ℝ} (h : BLat.new py id arg 3 = .ok ⟨3, some E, id, x, C⟩) :
    primBase3 py x.isInt id x.get = some E := by
  unfold BLat.new at h
  split at h
  · cases h
  rename_i y hy
  rw [if_pos rfl] at h
  split_ifs at h with hid hlen
  dsimp only at h
  split at h
  · cases h
  injection h with h
  injection h with _ h1 _ h2 _
  subst h2
  exact h1

theorem get_pos {x : Nums} (h : ∀ v ∈ x.vals, 0 < v) {i : ℕ} (hi : i < x.vals.length) :
    0 < x.get i := by
  unfold Nums.get
  have e : x.vals.getD i 0 = x.vals[i] := by simp [List.getD, hi]
  rw [e]
  exact h _ (List.getElem_mem hi)

/-- C73 in three dimensions, for the types whose rotations are always in the tables: primitive,
face-centred and body-centred cubic, hexagonal, primitive tetragonal and primitive orthorhombic.  For
all parameters `Laue_group` is the full rotation group.
Missing: the other eight types, for which the statement is false (`C73_types_fail`). -/
theorem C73_standard_partial (t : Tol) (py : Py) (id : ℤ)
    (hid : id = 1 ∨ id = 2 ∨ id = 3 ∨ id = 4 ∨ id = 6 ∨ id = 8) (arg : PArg)
    (E C : Matrix (Fin 3) (Fin 3) ℝ) (x : Nums)
    (h : BLat.new py id arg 3 = .ok ⟨3, some E, id, x, C⟩) (hr : Reliable t E candidates3) :
    ∃ g, Lat.laueGroup t ⟨3, E⟩ = .ok g ∧ IsFullLaueGroup E g := by
  obtain ⟨-, hpos, -, hlen, hdet⟩ := C21_accepted py id arg 3 _ h
  have hE : E.det ≠ 0 := hdet E rfl
  have hb := primBase_of_new h
  replace hlen : x.vals.length = paramCount3 id := by
    rcases hlen with h | h
    · exact h.2.2.2.2
    · exact absurd h.1 (by decide)
  simp only [BLat.latParams] at hpos
  have int_case : (∀ Q, InPointGroup E Q → IsIntegral Q) →
      ∃ g, Lat.laueGroup t ⟨3, E⟩ = .ok g ∧ IsFullLaueGroup E g := fun hi =>
    full_of_cubic t E hE hr fun Q hQ => integral_rotation hQ.1.1 hQ.2 (hi Q hQ.1)
  have diag_case : ∀ a b c : ℝ, 0 < a → 0 < b → 0 < c → E = Matrix.diagonal ![a, b, c] →
      ∃ g, Lat.laueGroup t ⟨3, E⟩ = .ok g ∧ IsFullLaueGroup E g := by
    rintro a b c ha hb hc rfl
    refine int_case fun Q hQ => orthogonal_integral ?_ hQ
    intro i
    fin_cases i <;> simpa
  rcases hid with rfl | rfl | rfl | rfl | rfl | rfl
  · have h0 := get_pos hpos (i := 0) (by rw [hlen]; decide)
    simp only [primBase3, if_pos, Option.some.injEq] at hb
    refine diag_case _ _ _ h0 h0 h0 ?_
    rw [← hb]
    ext i j
    fin_cases i <;> fin_cases j <;> simp
  · have h0 := get_pos hpos (i := 0) (by rw [hlen]; decide)
    simp [primBase3] at hb
    have e : E = (x.get 0 / 2) • toR !![1, 0, 1; 1, 1, 0; 0, 1, 1] := by
      rw [← hb]
      ext i j
      fin_cases i <;> fin_cases j <;> simp [toR] <;> ring
    refine int_case fun Q hQ => ?_
    rw [e] at hQ
    refine centred_integral (by positivity) (C := !![1, 1, -1; -1, 1, 1; 1, -1, 1])
      (by decide +kernel) ?_ hQ
    intro v hv i
    have h0 := hv 0
    have h1 := hv 1
    have h2 := hv 2
    simp [Matrix.mulVec, dotProduct, Fin.sum_univ_three, Matrix.mul_apply] at h0 h1 h2
    fin_cases i <;> simp [Matrix.mulVec, dotProduct, Fin.sum_univ_three] <;> omega
  · have h0 := get_pos hpos (i := 0) (by rw [hlen]; decide)
    simp [primBase3] at hb
    have e : E = (x.get 0 / 2) • toR !![1, -1, -1; 1, 1, -1; 1, 1, 1] := by
      rw [← hb]
      ext i j
      fin_cases i <;> fin_cases j <;> simp [toR] <;> ring
    refine int_case fun Q hQ => ?_
    rw [e] at hQ
    refine centred_integral (by positivity) (C := !![1, 0, 1; -1, 1, 0; 0, -1, 1])
      (by decide +kernel) ?_ hQ
    intro v hv i
    have h0 := hv 0
    have h1 := hv 1
    have h2 := hv 2
    simp [Matrix.mulVec, dotProduct, Fin.sum_univ_three, Matrix.mul_apply] at h0 h1 h2
    fin_cases i <;> simp [Matrix.mulVec, dotProduct, Fin.sum_univ_three] <;> omega
  · have h0 := get_pos hpos (i := 0) (by rw [hlen]; decide)
    have h1 := get_pos hpos (i := 1) (by rw [hlen]; decide)
    simp [primBase3] at hb
    have e : E = hexBase (x.get 0) (x.get 1) := by
      rw [← hb]
      ext i j
      fin_cases i <;> fin_cases j <;>
        simp [hexBase, hexS, Real.sin_pi_div_three] <;> ring
    subst e
    refine full_of_hex t _ hE hr (fun Q hQ => hexagonal_table h0 h1 hQ) ?_ ?_
    · refine hexagonal_sym h0 h1 (M := !![1, 1, 0; 0, -1, 0; 0, 0, -1]) ?_ ?_
      · simp [hexLaue, NMat.val, toR]
      · ext i j
        fin_cases i <;> fin_cases j <;>
          simp [hexBase, toR, Matrix.mul_apply, Fin.sum_univ_three] <;> ring
    · refine hexagonal_sym h0 h1 (M := !![-1, 0, 0; 0, -1, 0; 0, 0, 1]) ?_ ?_
      · simp [hexLaue, NMat.val, toR]
      · ext i j
        fin_cases i <;> fin_cases j <;>
          simp [hexBase, toR, Matrix.mul_apply, Fin.sum_univ_three]
  · have h0 := get_pos hpos (i := 0) (by rw [hlen]; decide)
    have h1 := get_pos hpos (i := 1) (by rw [hlen]; decide)
    simp [primBase3] at hb
    refine diag_case _ _ _ h0 h0 h1 ?_
    rw [← hb]
    ext i j
    fin_cases i <;> fin_cases j <;> simp
  · have h0 := get_pos hpos (i := 0) (by rw [hlen]; decide)
    have h1 := get_pos hpos (i := 1) (by rw [hlen]; decide)
    have h2 := get_pos hpos (i := 2) (by rw [hlen]; decide)
    simp [primBase3] at hb
    refine diag_case _ _ _ h0 h1 h2 ?_
    rw [← hb]
    ext i j
    fin_cases i <;> fin_cases j <;> simp

/-! ## Three dimensions: where it fails -/

/-- Whatever the tolerances, `Laue_group` returns members of its tables. -/
theorem laue_sub {t : Tol} {E : Matrix (Fin 3) (Fin 3) ℝ} (hE : E.det ≠ 0)
    {g : List (Matrix (Fin 3) (Fin 3) ℝ)} (h : Lat.laueGroup t ⟨3, E⟩ = .ok g) :
    ∀ Q ∈ g, Q ∈ cubicLaue.map toR ∨ Q ∈ hexLaue.map NMat.val := by
  rw [laueGroup_three] at h
  obtain ⟨T, hT, h'⟩ := select_ok t hE (cubicLaue.map .int) hexLaue 4
  rw [h'] at h
  cases h
  intro Q hQ
  obtain ⟨R, hR, rfl⟩ := List.mem_map.mp hQ
  have hR := (List.mem_filter.mp hR).1
  rcases hT with rfl | rfl
  · left
    rw [← map_int_val]
    exact List.mem_map.mpr ⟨R, hR, rfl⟩
  · right
    exact List.mem_map.mpr ⟨R, hR, rfl⟩

/-- A matrix that is in neither table: its first entry is not an integer and its last entry of the first
row does not vanish. -/
theorem missed {Q : Matrix (Fin 3) (Fin 3) ℝ} (h0 : 0 < Q 0 0 ^ 2 ∧ Q 0 0 ^ 2 < 1) (h2 : Q 0 2 ≠ 0) :
    ¬ (Q ∈ cubicLaue.map toR ∨ Q ∈ hexLaue.map NMat.val) := by
  rintro (h | h)
  · obtain ⟨R, -, rfl⟩ := List.mem_map.mp h
    obtain ⟨h0, h1⟩ := h0
    simp only [toR, Matrix.map_apply] at h0 h1
    have h0 : 0 < R 0 0 ^ 2 := by exact_mod_cast h0
    have h1 : R 0 0 ^ 2 < 1 := by exact_mod_cast h1
    omega
  · simp only [hexLaue, List.map_cons, List.map_nil, List.mem_cons, List.not_mem_nil, or_false,
      NMat.val] at h
    rcases h with h | h | h | h | h | h | h | h | h | h | h | h <;>
    · rw [h] at h2
      exact h2 (by simp)

/-- `Laue_group` of the lattice misses a rotation, whatever the tolerances. -/
def Misses (E : Matrix (Fin 3) (Fin 3) ℝ) : Prop :=
  ∃ Q, IsLatticeRotation E Q ∧ ∀ t g, Lat.laueGroup t ⟨3, E⟩ = .ok g → Q ∉ g

theorem misses_of {E Q : Matrix (Fin 3) (Fin 3) ℝ} {M : Matrix (Fin 3) (Fin 3) ℤ} (hE : E.det ≠ 0)
    (hQ : Q * Qᵀ = 1) (hd : Q.det = 1) (hM : Q * E = E * toR M)
    (h0 : 0 < Q 0 0 ^ 2 ∧ Q 0 0 ^ 2 < 1) (h2 : Q 0 2 ≠ 0) : Misses E := by
  refine ⟨Q, ⟨(inPointGroup_iff hE).mpr ⟨hQ, ?_⟩, hd⟩, fun t g hg hmem =>
    missed h0 h2 (laue_sub hE hg Q hmem)⟩
  rw [hM, ← Matrix.mul_assoc, Matrix.nonsing_inv_mul _ (isUnit_det_of_ne hE), Matrix.one_mul]
  exact isIntegral_toR M

/-- A half turn about the diagonal of a turned cube. -/
noncomputable def turn2 : Matrix (Fin 3) (Fin 3) ℝ :=
  !![-1 / 2, 1 / 2, Real.sqrt 2 / 2; 1 / 2, -1 / 2, Real.sqrt 2 / 2;
    Real.sqrt 2 / 2, Real.sqrt 2 / 2, 0]

theorem turn2_rot : turn2 * turn2ᵀ = 1 ∧ turn2.det = 1 := by
  have h := Real.mul_self_sqrt (show (0 : ℝ) ≤ 2 by norm_num)
  constructor
  · ext i j
    fin_cases i <;> fin_cases j <;>
      simp [turn2, Matrix.mul_apply, Fin.sum_univ_three] <;> nlinarith
  · simp [turn2, Matrix.det_fin_three]
    nlinarith

theorem turn2_ent : (0 < turn2 0 0 ^ 2 ∧ turn2 0 0 ^ 2 < 1) ∧ turn2 0 2 ≠ 0 := by
  refine ⟨?_, ?_⟩
  · simp [turn2]; norm_num
  · simp [turn2]

/-- A sixth of a turn about the second axis. -/
noncomputable def turn6 : Matrix (Fin 3) (Fin 3) ℝ :=
  !![1 / 2, 0, -hexS; 0, 1, 0; hexS, 0, 1 / 2]

/-- A quarter turn about the first base vector of the rhombohedral lattice with right angles. -/
noncomputable def turn4 : Matrix (Fin 3) (Fin 3) ℝ :=
  !![4 / 9, 7 / 9, 4 / 9; 1 / 9, 4 / 9, -8 / 9; -8 / 9, 4 / 9, 1 / 9]

/-- Body-centred, `a = b = 1`, `c = √2`. -/
noncomputable def bcBase : Matrix (Fin 3) (Fin 3) ℝ :=
  !![1 / 2, -1 / 2, -1 / 2; 1 / 2, 1 / 2, -1 / 2; Real.sqrt 2 / 2, Real.sqrt 2 / 2, Real.sqrt 2 / 2]

theorem sqrt2_sq : Real.sqrt 2 * Real.sqrt 2 = 2 := Real.mul_self_sqrt (by norm_num)

theorem sqrt2_pos : 0 < Real.sqrt 2 := by positivity

theorem bcBase_misses : bcBase.det ≠ 0 ∧ Misses bcBase := by
  have hd : bcBase.det ≠ 0 := by
    have := sqrt2_pos
    simp [bcBase, Matrix.det_fin_three]
    intro h
    nlinarith
  refine ⟨hd, misses_of (M := !![1, 1, 0; 0, -1, 0; 0, 0, -1]) hd turn2_rot.1 turn2_rot.2 ?_
    turn2_ent.1 turn2_ent.2⟩
  have := sqrt2_sq
  ext i j
  fin_cases i <;> fin_cases j <;>
    simp [bcBase, turn2, toR, Matrix.mul_apply, Fin.sum_univ_three] <;> nlinarith

/-- Base-centred, `a = b = √2`, `c = 1`. -/
noncomputable def cBase : Matrix (Fin 3) (Fin 3) ℝ :=
  !![Real.sqrt 2 / 2, -(Real.sqrt 2 / 2), 0; Real.sqrt 2 / 2, Real.sqrt 2 / 2, 0; 0, 0, 1]

theorem cBase_misses : cBase.det ≠ 0 ∧ Misses cBase := by
  have hs := sqrt2_sq
  have hd : cBase.det ≠ 0 := by
    simp [cBase, Matrix.det_fin_three]
  refine ⟨hd, misses_of (M := !![0, 0, 1; 0, -1, 0; 1, 0, 0]) hd turn2_rot.1 turn2_rot.2 ?_
    turn2_ent.1 turn2_ent.2⟩
  ext i j
  fin_cases i <;> fin_cases j <;>
    simp [cBase, turn2, toR, Matrix.mul_apply, Fin.sum_univ_three] <;> nlinarith

/-- Face-centred, `a = b = √2`, `c = 1`. -/
noncomputable def fBase : Matrix (Fin 3) (Fin 3) ℝ :=
  !![Real.sqrt 2 / 2, 0, Real.sqrt 2 / 2; Real.sqrt 2 / 2, Real.sqrt 2 / 2, 0; 0, 1 / 2, 1 / 2]

theorem fBase_misses : fBase.det ≠ 0 ∧ Misses fBase := by
  have hs := sqrt2_sq
  have hd : fBase.det ≠ 0 := by
    simp [fBase, Matrix.det_fin_three]
  refine ⟨hd, misses_of (M := !![-1, 0, 0; 1, 0, 1; 1, 1, 0]) hd turn2_rot.1 turn2_rot.2 ?_
    turn2_ent.1 turn2_ent.2⟩
  ext i j
  fin_cases i <;> fin_cases j <;>
    simp [fBase, turn2, toR, Matrix.mul_apply, Fin.sum_univ_three] <;> nlinarith

/-- Monoclinic, unit edges, `β = 60`. -/
noncomputable def mBase : Matrix (Fin 3) (Fin 3) ℝ :=
  !![1, 0, 1 / 2; 0, 1, 0; 0, 0, hexS]

theorem mBase_misses : mBase.det ≠ 0 ∧ Misses mBase := by
  have hs := hexS_sq
  have hp := hexS_pos
  have hd : mBase.det ≠ 0 := by
    simp [mBase, Matrix.det_fin_three, hp.ne']
  refine ⟨hd, misses_of (Q := turn6) (M := !![0, 0, -1; 0, 1, 0; 1, 0, 1]) hd ?_ ?_ ?_ ?_ ?_⟩
  · ext i j
    fin_cases i <;> fin_cases j <;>
      simp [turn6, Matrix.mul_apply, Fin.sum_univ_three] <;> nlinarith
  · simp [turn6, Matrix.det_fin_three]
    nlinarith
  · ext i j
    fin_cases i <;> fin_cases j <;>
      simp [mBase, turn6, toR, Matrix.mul_apply, Fin.sum_univ_three] <;> nlinarith
  · simp [turn6]; norm_num
  · simp [turn6, hp.ne']

/-- Rhombohedral, unit edges, right angles. -/
noncomputable def rBase : Matrix (Fin 3) (Fin 3) ℝ :=
  !![-1 / 3, 2 / 3, 2 / 3; 2 / 3, -1 / 3, 2 / 3; 2 / 3, 2 / 3, -1 / 3]

theorem rBase_misses : rBase.det ≠ 0 ∧ Misses rBase := by
  have hd : rBase.det ≠ 0 := by
    simp [rBase, Matrix.det_fin_three]; norm_num
  refine ⟨hd, misses_of (Q := turn4) (M := !![0, -1, 0; 1, 0, 0; 0, 0, 1]) hd ?_ ?_ ?_ ?_ ?_⟩
  · ext i j
    fin_cases i <;> fin_cases j <;>
      simp [turn4, Matrix.mul_apply, Fin.sum_univ_three] <;> norm_num
  · simp [turn4, Matrix.det_fin_three]; norm_num
  · ext i j
    fin_cases i <;> fin_cases j <;>
      simp [rBase, turn4, toR, Matrix.mul_apply, Fin.sum_univ_three] <;> norm_num
  · simp [turn4]; norm_num
  · simp [turn4]

theorem new_of_prim {py : Py} {id : ℤ} {l : List ℝ} {E : Matrix (Fin 3) (Fin 3) ℝ}
    (hpos : ∀ v ∈ l, 0 < v) (h1 : 1 ≤ id) (h2 : id < 15)
    (hlen : l.length = paramLen3.getD (id - 1).toNat 0)
    (hE : primBase3 py false id (Nums.float l).get = some E) (hd : E.det ≠ 0) :
    ∃ C, BLat.new py id (.list (.float l)) 3 = .ok ⟨3, some E, id, .float l, C⟩ := by
  refine ⟨(centring3 id)⁻¹, ?_⟩
  simp only [BLat.new, checkParam_list (x := .float l) hpos, Nums.isInt, hE, initBase_some, if_neg hd]
  rw [if_pos trivial, if_neg (by simp [h1, h2]), if_neg (by simp [Nums.vals, hlen])]

/-- C73 fails for each of the other eight types of three-dimensional Bravais lattices: there are
parameters the constructor accepts for which a rotation preserving the lattice is missing from
`Laue_group`. -/
theorem C73_types_fail (py : Py) (id : ℤ) (hid : id = 5 ∨ id = 7 ∨ 9 ≤ id ∧ id ≤ 14) :
    ∃ (l : List ℝ) (E C : Matrix (Fin 3) (Fin 3) ℝ),
      BLat.new py id (.list (.float l)) 3 = .ok ⟨3, some E, id, .float l, C⟩ ∧ Misses E := by
  have hs := sqrt2_sq
  have hp := sqrt2_pos
  have c90 : Real.cos (radians 90) = 0 := by
    rw [radians, show (90 : ℝ) * Real.pi / 180 = Real.pi / 2 by ring, Real.cos_pi_div_two]
  have s90 : Real.sin (radians 90) = 1 := by
    rw [radians, show (90 : ℝ) * Real.pi / 180 = Real.pi / 2 by ring, Real.sin_pi_div_two]
  have c60 : Real.cos (radians 60) = 1 / 2 := by
    rw [radians, show (60 : ℝ) * Real.pi / 180 = Real.pi / 3 by ring, Real.cos_pi_div_three]
  have s60 : Real.sin (radians 60) = hexS := by
    rw [radians, show (60 : ℝ) * Real.pi / 180 = Real.pi / 3 by ring, hexS]
  have dv : ∀ x y : ℝ, npdiv py false x y = x / y := by intro x y; simp [npdiv]
  have go : ∀ (l : List ℝ) (E : Matrix (Fin 3) (Fin 3) ℝ), E.det ≠ 0 ∧ Misses E →
      (∀ v ∈ l, 0 < v) → l.length = paramLen3.getD (id - 1).toNat 0 →
      primBase3 py false id (Nums.float l).get = some E → 1 ≤ id → id < 15 →
      ∃ (l : List ℝ) (E C : Matrix (Fin 3) (Fin 3) ℝ),
        BLat.new py id (.list (.float l)) 3 = .ok ⟨3, some E, id, .float l, C⟩ ∧ Misses E := by
    intro l E hE hpos hlen hb h1 h2
    obtain ⟨C, hC⟩ := new_of_prim hpos h1 h2 hlen hb hE.1
    exact ⟨l, E, C, hC, hE.2⟩
  have hcases : id = 5 ∨ id = 7 ∨ id = 9 ∨ id = 10 ∨ id = 11 ∨ id = 12 ∨ id = 13 ∨ id = 14 := by omega
  rcases hcases with rfl | rfl | rfl | rfl | rfl | rfl | rfl | rfl
  · refine go [1, 90] rBase rBase_misses (by simp) rfl ?_ (by decide) (by decide)
    have e1 : (Nums.float [1, 90]).get 0 = 1 := rfl
    have e2 : (Nums.float [1, 90]).get 1 = 90 := rfl
    have h3 : Real.sqrt 3 ≠ 0 := by positivity
    have h33 : Real.sqrt 3 * Real.sqrt 3 = 3 := Real.mul_self_sqrt (by norm_num)
    have ez : Real.sqrt ((1 + 2 * 0) / 3) = Real.sqrt 3 / 3 := by
      rw [show ((1 : ℝ) + 2 * 0) / 3 = (Real.sqrt 3 / 3) ^ 2 by nlinarith, Real.sqrt_sq (by positivity)]
    have ey : Real.sqrt ((1 - 0) / 6) = Real.sqrt 2 * Real.sqrt 3 / 6 := by
      rw [show ((1 : ℝ) - 0) / 6 = (Real.sqrt 2 * Real.sqrt 3 / 6) ^ 2 by
        rw [div_pow, mul_pow, Real.sq_sqrt (by norm_num), Real.sq_sqrt (by norm_num)]; norm_num,
        Real.sqrt_sq (by positivity)]
    have eu : Real.sqrt 3 / 3 - 2 * Real.sqrt 2 * (Real.sqrt 2 * Real.sqrt 3 / 6) = -(Real.sqrt 3 / 3) := by
      have : 2 * Real.sqrt 2 * (Real.sqrt 2 * Real.sqrt 3 / 6)
        = (Real.sqrt 2 * Real.sqrt 2) * Real.sqrt 3 / 3 := by ring
      rw [this, hs]; ring
    have ev : Real.sqrt 3 / 3 + Real.sqrt 2 * (Real.sqrt 2 * Real.sqrt 3 / 6) = 2 * Real.sqrt 3 / 3 := by
      have : Real.sqrt 2 * (Real.sqrt 2 * Real.sqrt 3 / 6)
        = (Real.sqrt 2 * Real.sqrt 2) * Real.sqrt 3 / 6 := by ring
      rw [this, hs]; ring
    simp only [primBase3, e1, e2, c90, ez, ey, eu, ev]
    norm_num
    ext i j
    fin_cases i <;> fin_cases j <;> simp [rBase] <;> field_simp
  · refine go [1, Real.sqrt 2] bcBase bcBase_misses (by simp) rfl ?_ (by decide) (by decide)
    have e1 : (Nums.float [1, Real.sqrt 2]).get 0 = 1 := rfl
    have e2 : (Nums.float [1, Real.sqrt 2]).get 1 = Real.sqrt 2 := rfl
    simp only [primBase3, e1, e2, dv]
    norm_num
    ext i j
    fin_cases i <;> fin_cases j <;> simp [bcBase] <;> ring
  · refine go [Real.sqrt 2, Real.sqrt 2, 1] cBase cBase_misses (by simp) rfl ?_ (by decide) (by decide)
    have e1 : (Nums.float [Real.sqrt 2, Real.sqrt 2, 1]).get 0 = Real.sqrt 2 := rfl
    have e2 : (Nums.float [Real.sqrt 2, Real.sqrt 2, 1]).get 1 = Real.sqrt 2 := rfl
    have e3 : (Nums.float [Real.sqrt 2, Real.sqrt 2, 1]).get 2 = 1 := rfl
    simp only [primBase3, e1, e2, e3, dv]
    norm_num
    ext i j
    fin_cases i <;> fin_cases j <;> simp [cBase] <;> ring
  · refine go [Real.sqrt 2, Real.sqrt 2, 1] fBase fBase_misses (by simp) rfl ?_ (by decide) (by decide)
    have e1 : (Nums.float [Real.sqrt 2, Real.sqrt 2, 1]).get 0 = Real.sqrt 2 := rfl
    have e2 : (Nums.float [Real.sqrt 2, Real.sqrt 2, 1]).get 1 = Real.sqrt 2 := rfl
    have e3 : (Nums.float [Real.sqrt 2, Real.sqrt 2, 1]).get 2 = 1 := rfl
    simp only [primBase3, e1, e2, e3, dv]
    norm_num
    ext i j
    fin_cases i <;> fin_cases j <;> simp [fBase]
  · refine go [1, 1, Real.sqrt 2] bcBase bcBase_misses (by simp) rfl ?_ (by decide) (by decide)
    have e1 : (Nums.float [1, 1, Real.sqrt 2]).get 0 = 1 := rfl
    have e2 : (Nums.float [1, 1, Real.sqrt 2]).get 1 = 1 := rfl
    have e3 : (Nums.float [1, 1, Real.sqrt 2]).get 2 = Real.sqrt 2 := rfl
    simp only [primBase3, e1, e2, e3, dv]
    norm_num
    ext i j
    fin_cases i <;> fin_cases j <;> simp [bcBase] <;> ring
  · refine go [1, 1, 1, 60] mBase mBase_misses (by simp) rfl ?_ (by decide) (by decide)
    have e1 : (Nums.float [1, 1, 1, 60]).get 0 = 1 := rfl
    have e2 : (Nums.float [1, 1, 1, 60]).get 1 = 1 := rfl
    have e3 : (Nums.float [1, 1, 1, 60]).get 2 = 1 := rfl
    have e4 : (Nums.float [1, 1, 1, 60]).get 3 = 60 := rfl
    simp only [primBase3, e1, e2, e3, e4, c60, s60]
    norm_num
    ext i j
    fin_cases i <;> fin_cases j <;> simp [mBase]
  · refine go [Real.sqrt 2, Real.sqrt 2, 1, 90] cBase cBase_misses (by simp) rfl ?_ (by decide) (by decide)
    have e1 : (Nums.float [Real.sqrt 2, Real.sqrt 2, 1, 90]).get 0 = Real.sqrt 2 := rfl
    have e2 : (Nums.float [Real.sqrt 2, Real.sqrt 2, 1, 90]).get 1 = Real.sqrt 2 := rfl
    have e3 : (Nums.float [Real.sqrt 2, Real.sqrt 2, 1, 90]).get 2 = 1 := rfl
    have e4 : (Nums.float [Real.sqrt 2, Real.sqrt 2, 1, 90]).get 3 = 90 := rfl
    simp only [primBase3, e1, e2, e3, e4, c90, s90, dv]
    norm_num
    ext i j
    fin_cases i <;> fin_cases j <;> simp [cBase] <;> ring
  · refine go [1, 1, 1, 90, 60, 90] mBase mBase_misses (by simp) rfl ?_ (by decide) (by decide)
    have e1 : (Nums.float [1, 1, 1, 90, 60, 90]).get 0 = 1 := rfl
    have e2 : (Nums.float [1, 1, 1, 90, 60, 90]).get 1 = 1 := rfl
    have e3 : (Nums.float [1, 1, 1, 90, 60, 90]).get 2 = 1 := rfl
    have e4 : (Nums.float [1, 1, 1, 90, 60, 90]).get 3 = 90 := rfl
    have e5 : (Nums.float [1, 1, 1, 90, 60, 90]).get 4 = 60 := rfl
    have e6 : (Nums.float [1, 1, 1, 90, 60, 90]).get 5 = 90 := rfl
    have ew : Real.sqrt (1 + 2 * 0 * (1 / 2) * 0 - 0 ^ 2 - (1 / 2) ^ 2 - 0 ^ 2) = hexS := by
      rw [show (1 + 2 * 0 * (1 / 2) * 0 - 0 ^ 2 - (1 / 2) ^ 2 - 0 ^ 2 : ℝ) = hexS * hexS by
        rw [hexS_sq]; norm_num, Real.sqrt_mul_self hexS_pos.le]
    simp only [primBase3, e1, e2, e3, e4, e5, e6, c60, c90, s90, ew]
    norm_num
    ext i j
    fin_cases i <;> fin_cases j <;> simp [mBase]

/-- The rhombohedral lattice with its threefold axis along the third coordinate axis. -/
noncomputable def triBase : Matrix (Fin 3) (Fin 3) ℝ :=
  !![1, -1 / 2, -1 / 2; 0, hexS, -hexS; 1, 1, 1]

theorem triBase_inv : triBase⁻¹ =
    !![2 / 3, 0, 1 / 3; -1 / 3, 2 / 3 * hexS, 1 / 3; -1 / 3, -(2 / 3 * hexS), 1 / 3] := by
  have hs := hexS_sq
  apply Matrix.inv_eq_left_inv
  ext i j
  fin_cases i <;> fin_cases j <;>
    simp [triBase, Matrix.mul_apply, Fin.sum_univ_three] <;> nlinarith

theorem triBase_det : triBase.det ≠ 0 := by
  have := hexS_pos
  simp [triBase, Matrix.det_fin_three]
  intro h
  nlinarith

theorem sixth_far {m : ℤ} (hb : -12 ≤ m ∧ m ≤ 12) (hm : ¬ 6 ∣ m) {x : ℝ} (hx : x = m / 6) (z : ℤ) :
    1 / 10 ^ 8 + 1 / 10 ^ 5 * |(z : ℝ)| < |x - z| := by
  have h1 : 6 * (m / 6) + 1 ≤ m := by omega
  have h2 : m ≤ 6 * (m / 6) + 5 := by omega
  have h1' : 6 * ((m / 6 : ℤ) : ℝ) + 1 ≤ m := by exact_mod_cast h1
  have h2' : (m : ℝ) ≤ 6 * ((m / 6 : ℤ) : ℝ) + 5 := by exact_mod_cast h2
  refine far_of_between (m / 6) ?_ (by rw [hx]; linarith) (by rw [hx]; linarith) z
  rw [← Int.cast_abs]
  have : |m / 6| ≤ 5 := by rw [abs_le]; omega
  exact_mod_cast this

/-- Of the cubic table only the identity and the half turn about the second axis pass. -/
theorem tri_passes {t : Tol} (ht : t = .code ∨ t = .exact) (Q : Matrix (Fin 3) (Fin 3) ℤ)
    (hQ : Q ∈ cubicLaue)
    (hne : Q ∉ [(!![1, 0, 0; 0, 1, 0; 0, 0, 1] : Matrix (Fin 3) (Fin 3) ℤ),
      !![-1, 0, 0; 0, 1, 0; 0, 0, -1]]) : passes t triBase (.int Q) = false := by
  have key : ∀ Q ∈ cubicLaue, Q ∉ [(!![1, 0, 0; 0, 1, 0; 0, 0, 1] : Matrix (Fin 3) (Fin 3) ℤ),
      !![-1, 0, 0; 0, 1, 0; 0, 0, -1]] →
      ((-12 ≤ 4 * (Q 0 0 + Q 0 2) + 2 * (Q 2 0 + Q 2 2) ∧
        4 * (Q 0 0 + Q 0 2) + 2 * (Q 2 0 + Q 2 2) ≤ 12) ∧
        ¬ 6 ∣ 4 * (Q 0 0 + Q 0 2) + 2 * (Q 2 0 + Q 2 2)) ∨
      ((Q 0 1 = 0 ∧ Q 2 1 = 0) ∧ (-12 ≤ -2 * Q 0 0 + 4 * Q 0 2 - Q 2 0 + 2 * Q 2 2 ∧
        -2 * Q 0 0 + 4 * Q 0 2 - Q 2 0 + 2 * Q 2 2 ≤ 12) ∧
        ¬ 6 ∣ -2 * Q 0 0 + 4 * Q 0 2 - Q 2 0 + 2 * Q 2 2) := by
    unfold cubicLaue; decide +kernel
  have hp : eqTest t triBase (toR Q * triBase) = false → passes t triBase (.int Q) = false := by
    intro h; simp [passes, h]
  apply hp
  rcases key Q hQ hne with ⟨hb, hm⟩ | ⟨⟨h01, h21⟩, hb, hm⟩
  · refine eqTest_of_far ht (i := 0) (j := 0) (sixth_far hb hm ?_)
    rw [triBase_inv]
    simp [triBase, toR, Matrix.mul_apply, Fin.sum_univ_three]
    ring
  · refine eqTest_of_far ht (i := 0) (j := 1) (sixth_far hb hm ?_)
    rw [triBase_inv]
    simp [triBase, toR, Matrix.mul_apply, Fin.sum_univ_three, h01, h21]
    ring

/-- C73 fails even for a lattice all of whose rotations are in the tables: a rhombohedral lattice in the
hexagonal setting.  Only two rotations of the cubic table preserve it, so the hexagonal table, which
is consulted only if exactly four do, is never looked at, and the threefold rotations are missing. -/
theorem C73_hexagonal_setting_fails (t : Tol) (ht : t = .code ∨ t = .exact) :
    ∃ Q ∈ hexLaue.map NMat.val, IsLatticeRotation triBase Q ∧
      ∃ g, Lat.laueGroup t ⟨3, triBase⟩ = .ok g ∧ Q ∉ g := by
  have hs := hexS_sq
  set V : Matrix (Fin 3) (Fin 3) ℝ := !![-hexC, -hexS, 0; hexS, -hexC, 0; 0, 0, 1] with hV
  have hmem : V ∈ hexLaue.map NMat.val := by
    simp only [hexLaue, List.map_cons, List.map_nil, List.mem_cons, NMat.val]
    tauto
  refine ⟨V, hmem, ⟨(inPointGroup_iff triBase_det).mpr ⟨hexLaue_ortho V hmem, ?_⟩,
    hexLaue_det V hmem⟩, ?_⟩
  · have e : V * triBase = triBase * toR !![0, 0, 1; 1, 0, 0; 0, 1, 0] := by
      ext i j
      fin_cases i <;> fin_cases j <;>
        simp [hV, triBase, toR, Matrix.mul_apply, Fin.sum_univ_three, hexC_eq] <;> nlinarith
    rw [e, ← Matrix.mul_assoc, Matrix.nonsing_inv_mul _ (isUnit_det_of_ne triBase_det), Matrix.one_mul]
    exact isIntegral_toR _
  · have hlen : ((cubicLaue.map NMat.int).filter (passes t triBase)).length ≠ 4 := by
      have hnd : ((cubicLaue.filter (fun Q => passes t triBase (.int Q)))).Nodup := cubic_nodup.filter _
      have hsub : ∀ Q ∈ cubicLaue.filter (fun Q => passes t triBase (.int Q)),
          Q ∈ [(!![1, 0, 0; 0, 1, 0; 0, 0, 1] : Matrix (Fin 3) (Fin 3) ℤ),
            !![-1, 0, 0; 0, 1, 0; 0, 0, -1]] := by
        intro Q hQ
        obtain ⟨h1, h2⟩ := List.mem_filter.mp hQ
        by_contra hne
        rw [tri_passes ht Q h1 hne] at h2
        cases h2
      have := (hnd.subperm hsub).length_le
      rw [List.filter_map, List.length_map]
      intro h4
      simp only [Function.comp_def, List.length_cons, List.length_nil] at h4 this
      omega
    refine ⟨((cubicLaue.map NMat.int).filter (passes t triBase)).map NMat.val, ?_, ?_⟩
    · rw [laueGroup_three]
      simp only [Lat.select, filter_ok t triBase_det]
      rw [if_neg (by rw [List.length_map]; exact hlen)]
    · intro h
      obtain ⟨R, hR, hRV⟩ := List.mem_map.mp h
      obtain ⟨M, -, rfl⟩ := List.mem_map.mp (List.mem_filter.mp hR).1
      have h0 := congrFun (congrFun hRV 0) 0
      simp [NMat.val, hV, hexC_eq] at h0
      have : (2 * M 0 0 : ℤ) = -1 := by
        exact_mod_cast (by push_cast; linarith : ((2 * M 0 0 : ℤ) : ℝ) = -1)
      omega

/-! ## Consequences and examples -/

/-- C73: for every plane lattice `special_lattice_group` holds exactly the integer matrices of
determinant 1 that preserve the scalar products of the base vectors. -/
theorem C73_plane_lattice_group (t : Tol) (E : Matrix (Fin 2) (Fin 2) ℝ) (hE : E.det ≠ 0)
    (hr : Reliable t E candidates2) :
    ∃ g, Lat.specialLatticeGroup t ⟨2, E⟩ = .ok g ∧ g.Nodup ∧
      ∀ M : Matrix (Fin 2) (Fin 2) ℤ, M ∈ g ↔
        (toR M)ᵀ * (Eᵀ * E) * toR M = Eᵀ * E ∧ M.det = 1 := by
  obtain ⟨g, hg, hnd, hfull⟩ := C73_plane t E hE hr
  have hu := isUnit_det_of_ne hE
  have hu' : IsUnit Eᵀ.det := by rw [Matrix.det_transpose]; exact hu
  have hspec : ∀ Q ∈ g, E * toR (Lat.conj ⟨2, E⟩ Q) = Q * E := by
    intro Q hQ
    have hi := ((inPointGroup_iff hE).mp ((hfull Q).mp hQ).1).2
    have : toR (Lat.conj ⟨2, E⟩ Q) = E⁻¹ * (Q * E) := (isIntegral_iff_rint _).mp hi
    rw [this, ← Matrix.mul_assoc, Matrix.mul_nonsing_inv _ hu, Matrix.one_mul]
  refine ⟨g.map (Lat.conj ⟨2, E⟩), by simp only [Lat.specialLatticeGroup, hg], ?_, ?_⟩
  · refine List.Nodup.map_on ?_ hnd
    intro A hA B hB hAB
    have h1 := hspec A hA
    rw [hAB, hspec B hB] at h1
    have h2 := congrArg (· * E⁻¹) h1
    simpa only [Matrix.mul_assoc, Matrix.mul_nonsing_inv _ hu, Matrix.mul_one] using h2.symm
  · intro M
    constructor
    · intro hM
      obtain ⟨Q, hQ, rfl⟩ := List.mem_map.mp hM
      have hr := (hfull Q).mp hQ
      have hQ' : Qᵀ * Q = 1 := mul_eq_one_comm.mp hr.1.1
      refine ⟨?_, ?_⟩
      · calc (toR (Lat.conj ⟨2, E⟩ Q))ᵀ * (Eᵀ * E) * toR (Lat.conj ⟨2, E⟩ Q)
            = (E * toR (Lat.conj ⟨2, E⟩ Q))ᵀ * (E * toR (Lat.conj ⟨2, E⟩ Q)) := by
              rw [Matrix.transpose_mul]; simp only [Matrix.mul_assoc]
          _ = (Q * E)ᵀ * (Q * E) := by rw [hspec Q hQ]
          _ = Eᵀ * (Qᵀ * Q) * E := by rw [Matrix.transpose_mul]; simp only [Matrix.mul_assoc]
          _ = Eᵀ * E := by rw [hQ', Matrix.mul_one]
      · have h1 := congrArg Matrix.det (hspec Q hQ)
        rw [Matrix.det_mul, Matrix.det_mul, hr.2, one_mul, toR_det] at h1
        have : ((Lat.conj ⟨2, E⟩ Q).det : ℝ) = 1 := mul_left_cancel₀ hE (by rw [h1, mul_one])
        exact_mod_cast this
    · rintro ⟨hG, hd⟩
      obtain ⟨Q, hQE⟩ : ∃ Q : Matrix (Fin 2) (Fin 2) ℝ, Q * E = E * toR M :=
        ⟨E * toR M * E⁻¹, by rw [Matrix.mul_assoc, Matrix.nonsing_inv_mul _ hu, Matrix.mul_one]⟩
      have hort : Qᵀ * Q = 1 := by
        have h1 : Eᵀ * (Qᵀ * Q) * E = Eᵀ * E := by
          calc Eᵀ * (Qᵀ * Q) * E = (Q * E)ᵀ * (Q * E) := by
                rw [Matrix.transpose_mul]; simp only [Matrix.mul_assoc]
            _ = (E * toR M)ᵀ * (E * toR M) := by rw [hQE]
            _ = (toR M)ᵀ * (Eᵀ * E) * toR M := by
                rw [Matrix.transpose_mul]; simp only [Matrix.mul_assoc]
            _ = Eᵀ * E := hG
        have h2 := congrArg (fun X => Eᵀ⁻¹ * X * E⁻¹) h1
        have e1 : Eᵀ⁻¹ * (Eᵀ * (Qᵀ * Q) * E) * E⁻¹ = Qᵀ * Q := by
          calc Eᵀ⁻¹ * (Eᵀ * (Qᵀ * Q) * E) * E⁻¹ = (Eᵀ⁻¹ * Eᵀ) * (Qᵀ * Q) * (E * E⁻¹) := by
                simp only [Matrix.mul_assoc]
            _ = Qᵀ * Q := by
                rw [Matrix.nonsing_inv_mul _ hu', Matrix.mul_nonsing_inv _ hu, Matrix.one_mul,
                  Matrix.mul_one]
        have e2 : Eᵀ⁻¹ * (Eᵀ * E) * E⁻¹ = 1 := by
          calc Eᵀ⁻¹ * (Eᵀ * E) * E⁻¹ = (Eᵀ⁻¹ * Eᵀ) * (E * E⁻¹) := by simp only [Matrix.mul_assoc]
            _ = 1 := by
                rw [Matrix.nonsing_inv_mul _ hu', Matrix.mul_nonsing_inv _ hu, Matrix.one_mul]
        rw [e1, e2] at h2
        exact h2
      have hint : E⁻¹ * (Q * E) = toR M := by
        rw [hQE, ← Matrix.mul_assoc, Matrix.nonsing_inv_mul _ hu, Matrix.one_mul]
      have hmem : Q ∈ g := by
        refine (hfull Q).mpr ⟨(inPointGroup_iff hE).mpr ⟨mul_eq_one_comm.mp hort, ?_⟩, ?_⟩
        · rw [hint]; exact isIntegral_toR M
        · have h1 := congrArg Matrix.det hQE
          rw [Matrix.det_mul, Matrix.det_mul, toR_det, hd, Int.cast_one, mul_one] at h1
          exact mul_right_cancel₀ hE (by rw [h1, one_mul])
      refine List.mem_map.mpr ⟨Q, hmem, ?_⟩
      show rintMat (E⁻¹ * (Q * E)) = M
      rw [hint, rintMat_toR]

-- an oblique plane lattice meets the hypotheses of `C73_plane`
example : (!![1, 3 / 10; 0, 1] : Matrix (Fin 2) (Fin 2) ℝ).det ≠ 0 ∧
    Reliable .exact (!![1, 3 / 10; 0, 1] : Matrix (Fin 2) (Fin 2) ℝ) candidates2 :=
  ⟨by simp, .inl rfl⟩

-- an orthorhombic lattice meets the hypotheses of `C73_standard_partial`
example : ∃ (E C : Matrix (Fin 3) (Fin 3) ℝ) (x : Nums),
    BLat.new .py3 8 (.list (.float [2, 3, 4])) 3 = .ok ⟨3, some E, 8, x, C⟩ := by
  have hd : (!![(2 : ℝ), 0, 0; 0, 3, 0; 0, 0, 4]ᵀ).det ≠ 0 := by
    simp [Matrix.det_fin_three]
  obtain ⟨C, hC⟩ := new_of_prim (py := .py3) (id := 8) (l := [2, 3, 4])
    (E := !![(2 : ℝ), 0, 0; 0, 3, 0; 0, 0, 4]ᵀ) (by simp) (by decide) (by decide) rfl (by
      simp only [primBase3]
      norm_num
      exact ⟨rfl, rfl, rfl⟩) hd
  exact ⟨_, C, _, hC⟩

end Verif.Props
