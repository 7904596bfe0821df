import Verif.Props.Direct

/-!
# Property C34: exactly which checkpoints `vec_generator` resumes correctly
-/

namespace Verif.Props

open Matrix Verif.Model Verif.Spec Verif.Lemmas

theorem before_of_nonzero {d : ℕ} {xs : List ℤ} (hl : xs.length = d) (h : ∃ y ∈ xs, y ≠ 0) :
    before (List.replicate d 0) xs := by
  rcases before_trichotomy (List.replicate d 0) xs with hb | hb | hb
  · exact hb
  · obtain ⟨y, hy, h0⟩ := h
    rw [← hb] at hy
    exact absurd (List.eq_of_mem_replicate hy) h0
  · exact absurd hb (before_zero hl)

/-- The checkpoint itself comes first. -/
theorem resume_head (d : ℕ) : ∀ (R : ℝ) (x0 : List ℤ), x0 ∈ vecGen0 d R none →
    x0 ∈ vecGen0 d R (some x0) := by
  induction d with
  | zero =>
    intro R x0 h
    exact h
  | succ d ih =>
    intro R x0 hx
    obtain ⟨f, h1, h2⟩ := (mem_full_iff_block d R x0).mp hx
    obtain ⟨xs, h3, rfl⟩ := mem_block.mp h2
    have hfR : (f : ℝ) ≤ R := by
      refine le_trans ?_ h1
      rw [Nat.cast_natAbs]
      push_cast
      exact le_abs_self _
    rw [vecGen0_cons, if_pos hfR, List.append_assoc, List.mem_append]
    exact Or.inl (mem_block.mpr ⟨xs, ih _ _ h3, rfl⟩)

/-- A checkpoint with a positive coordinate followed by a non-zero one loses a vector that comes later. -/
theorem resume_lost (d : ℕ) : ∀ (R : ℝ) (x0 : List ℤ), x0 ∈ vecGen0 d R none → ¬ GoodStart x0 →
    ∃ v ∈ vecGen0 d R none, before x0 v ∧ v ∉ vecGen0 d R (some x0) := by
  induction d with
  | zero =>
    intro R x0 h hg
    rw [vecGen0, List.mem_singleton] at h
    subst h
    exact absurd trivial hg
  | succ d ih =>
    intro R x0 hx hg
    obtain ⟨f, h1, h2⟩ := (mem_full_iff_block d R x0).mp hx
    obtain ⟨xs, h3, rfl⟩ := mem_block.mp h2
    have hlen : xs.length = d := ((mem_vecGen0 d _ _ (subR_nonneg _ _)).mp h3).1
    unfold GoodStart at hg
    push Not at hg
    obtain ⟨hg1, hg2⟩ := hg
    have hfR : (f : ℝ) ≤ R := by
      refine le_trans ?_ h1
      rw [Nat.cast_natAbs]
      push_cast
      exact le_abs_self _
    by_cases hf : f ≤ 0
    · obtain ⟨w, hw1, hw2, hw3⟩ := ih _ _ h3 (hg1 hf)
      refine ⟨f :: w, (mem_full_iff_block d R _).mpr ⟨f, h1, mem_block.mpr ⟨w, hw1, rfl⟩⟩, Or.inr ⟨rfl, hw2⟩, ?_⟩
      rw [vecGen0_cons, if_pos hfR, if_neg (by omega), List.append_nil, List.mem_append]
      rintro (h | h)
      · obtain ⟨w', hw', he⟩ := mem_block.mp h
        rw [List.cons.injEq] at he
        rw [he.2] at hw3
        exact hw3 hw'
      · obtain ⟨g, g1, -, g2⟩ := (mem_tailFrom (by omega)).mp h
        obtain ⟨w', -, he⟩ := mem_block.mp g2
        rw [List.cons.injEq] at he
        rw [← he.1] at g1
        omega
    · refine ⟨-f :: List.replicate d 0, (mem_full_iff_block d R _).mpr ⟨-f, by simpa using h1,
        mem_block.mpr ⟨_, (mem_vecGen0 d _ _ (subR_nonneg _ _)).mpr ⟨by simp, ?_⟩, rfl⟩⟩,
        Or.inl (rank_pos_neg (by omega)), ?_⟩
      · have : sumsq (List.replicate d (0 : ℤ)) = 0 := by simp [sumsq]
        rw [this]
        push_cast
        exact sq_nonneg _
      · rw [vecGen0_cons, if_pos hfR, if_pos (by omega), List.mem_append, List.mem_append]
        rintro ((h | h) | h)
        · obtain ⟨w', -, he⟩ := mem_block.mp h
          rw [List.cons.injEq] at he
          omega
        · obtain ⟨w', hw', he⟩ := mem_block.mp h
          rw [List.cons.injEq] at he
          rw [← he.2] at hw'
          exact (resume_ge d _ xs _ hlen hw').2 (before_of_nonzero hlen hg2)
        · obtain ⟨g, g1, -, g2⟩ := (mem_tailFrom (by omega)).mp h
          obtain ⟨w', -, he⟩ := mem_block.mp g2
          rw [List.cons.injEq] at he
          rw [← he.1] at g1
          omega

theorem spec_of_goodStart {v : List ℤ} (h : GoodStart v) : PositiveThenZero v := by
  unfold PositiveThenZero
  induction v with
  | nil => exact List.Pairwise.nil
  | cons f v ih =>
    rw [List.pairwise_cons]
    rcases h with ⟨h1, h2⟩ | h
    · exact ⟨fun y _ hf => absurd hf (by omega), ih h2⟩
    · exact ⟨fun y hy _ => h y hy, ih (goodStart_zero h)⟩

/-- **C34**, exactly: for every dimension, radius and checkpoint in the ball, resuming there gives the rest of the
full enumeration if and only if the positive coordinates of the checkpoint are followed by zeros only. -/
theorem C34_resume_iff (dim : ℕ) (hd : 1 ≤ dim) (maxlen : ℝ) (x0 : List ℤ)
    (hx : x0 ∈ vecGen dim maxlen none) :
    (∃ done, vecGen dim maxlen none = done ++ vecGen dim maxlen (some x0)) ↔ PositiveThenZero x0 := by
  constructor
  · rintro ⟨done, h⟩
    obtain ⟨d, rfl⟩ : ∃ d, dim = d + 1 := ⟨dim - 1, by omega⟩
    rw [vecGen_eq] at hx
    rw [vecGen_eq, vecGen_eq] at h
    by_contra hg
    obtain ⟨v, v1, v2, v3⟩ := resume_lost (d + 1) maxlen x0 hx (fun h' => hg (spec_of_goodStart h'))
    have hp := pairwise_vecGen0 (d + 1) maxlen none
    rw [h] at hp v1
    have hv : v ∈ done := (List.mem_append.mp v1).resolve_right v3
    have := (List.pairwise_append.mp hp).2.2 v hv x0 (resume_head (d + 1) maxlen x0 hx)
    exact before_irrefl _ (before_trans v2 this)
  · intro hg
    obtain ⟨done, h, -⟩ := C34_resume_partial dim hd maxlen x0 hx hg
    exact ⟨done, h⟩

/-- both sides occur -/
example : (∃ x0, x0 ∈ vecGen 2 3 none ∧ PositiveThenZero x0 ∧ x0 ≠ [0, 0]) ∧
    ∃ x0, x0 ∈ vecGen 2 3 none ∧ ¬ PositiveThenZero x0 := by
  refine ⟨⟨[-1, 2], ?_, by simp [PositiveThenZero], by decide⟩, ⟨[1, 1], ?_, by simp [PositiveThenZero]⟩⟩ <;>
  · rw [vecGen_eqZ _ _ _ (by norm_num)]
    norm_num
    decide

end Verif.Props
