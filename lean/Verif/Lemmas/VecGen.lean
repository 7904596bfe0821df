import Verif.Model.VecGen
import Mathlib.Data.List.Range
import Mathlib.Tactic.Linarith
import Mathlib.Tactic.Positivity

/-!
# Lemmas about `vec_generator`
-/

namespace Verif.Lemmas

open Verif.Model

/-- radius left after the first coordinate -/
noncomputable def subR (R : ℝ) (f : ℤ) : ℝ := Real.sqrt (max 0 (R ^ 2 - (f : ℝ) ^ 2))

/-- the vectors with first coordinate `f` -/
noncomputable def block (sub : ℝ → Option (List ℤ) → List (List ℤ)) (R : ℝ) (f : ℤ)
    (xs : Option (List ℤ)) : List (List ℤ) := (sub (subR R f) xs).map (fun w => f :: w)

theorem subR_neg (R : ℝ) (f : ℤ) : subR R (-f) = subR R f := by
  unfold subR; push_cast; ring_nf

/-- all vectors whose first coordinate has absolute value at least `k`, in the order of the code -/
noncomputable def tailFrom (sub : ℝ → Option (List ℤ) → List (List ℤ)) (R : ℝ) (k : ℕ) :
    List (List ℤ) :=
  (List.range' k (⌊R⌋₊ + 1 - k)).flatMap
    (fun j : ℕ => block sub R j none ++ block sub R (-(j : ℤ)) none)

theorem tailFrom_succ (sub : ℝ → Option (List ℤ) → List (List ℤ)) (R : ℝ) (k : ℕ)
    (hk : k ≤ ⌊R⌋₊) :
    tailFrom sub R k = block sub R k none ++ block sub R (-(k : ℤ)) none ++ tailFrom sub R (k + 1) := by
  unfold tailFrom
  rw [show ⌊R⌋₊ + 1 - k = (⌊R⌋₊ + 1 - (k + 1)) + 1 by omega, List.range'_succ, List.flatMap_cons]

theorem tailFrom_nil (sub : ℝ → Option (List ℤ) → List (List ℤ)) (R : ℝ) (k : ℕ)
    (hk : ⌊R⌋₊ < k) : tailFrom sub R k = [] := by
  unfold tailFrom
  rw [show ⌊R⌋₊ + 1 - k = 0 by omega]
  rfl

theorem vecLoop_pos (sub : ℝ → Option (List ℤ) → List (List ℤ)) (R : ℝ) : ∀ (fuel k : ℕ), 1 ≤ k →
    ⌊R⌋₊ + 1 ≤ fuel + k - 1 → vecLoop sub R fuel k none = tailFrom sub R k := by
  intro fuel
  induction fuel with
  | zero =>
    intro k hk hf
    rw [tailFrom_nil _ _ _ (by omega)]
    rfl
  | succ fuel ih =>
    intro k hk hf
    unfold vecLoop
    by_cases h : k ≤ ⌊R⌋₊
    · have hR : ((k : ℤ) : ℝ) ≤ R := by
        have := (Nat.le_floor_iff' (by omega)).mp h
        exact_mod_cast this
      rw [if_pos hR, if_pos (by exact_mod_cast hk), tailFrom_succ _ _ _ h]
      have e : |((k : ℕ) : ℤ)| + 1 = ((k + 1 : ℕ) : ℤ) := by
        rw [abs_of_nonneg (by positivity)]; push_cast; ring
      rw [e, ih (k + 1) (by omega) (by omega)]
      unfold block
      rw [subR_neg]
      rfl
    · have hR : ¬ ((k : ℤ) : ℝ) ≤ R := by
        intro h'
        apply h
        rw [Nat.le_floor_iff' (by omega)]
        exact_mod_cast h'
      rw [if_neg hR, tailFrom_nil _ _ _ (by omega)]

/-- What the loop yields, without fuel. -/
theorem vecLoop_eq (sub : ℝ → Option (List ℤ) → List (List ℤ)) (R : ℝ) (f : ℤ)
    (xs : Option (List ℤ)) :
    vecLoop sub R (vecFuel R) f xs =
      if (f : ℝ) ≤ R then
        block sub R f xs ++ (if f > 0 then block sub R (-f) xs else []) ++ tailFrom sub R (f.natAbs + 1)
      else [] := by
  unfold vecFuel
  rw [vecLoop]
  split_ifs with h1 h2
  · have e : |f| + 1 = ((f.natAbs + 1 : ℕ) : ℤ) := by
      push_cast
      rw [Int.abs_eq_natAbs]
    rw [e, vecLoop_pos sub R _ _ (by omega) (by omega)]
    unfold block
    rw [subR_neg]
    rfl
  · have e : |f| + 1 = ((f.natAbs + 1 : ℕ) : ℤ) := by
      push_cast
      rw [Int.abs_eq_natAbs]
    rw [e, vecLoop_pos sub R _ _ (by omega) (by omega)]
    rfl
  · rfl

/-- `dim = 1` as the same loop over the trivial generator -/
noncomputable def vecGen0 : ℕ → ℝ → Option (List ℤ) → List (List ℤ)
  | 0, _, _ => [[]]
  | d + 1, R, x0 =>
    vecLoop (vecGen0 d) R (vecFuel R) ((x0.getD (List.replicate (d + 1) 0)).headD 0)
      (some (x0.getD (List.replicate (d + 1) 0)).tail)

theorem vec1Loop_eq (R : ℝ) : ∀ (fuel : ℕ) (f : ℤ) (xs : Option (List ℤ)),
    vec1Loop R fuel f = vecLoop (vecGen0 0) R fuel f xs := by
  intro fuel
  induction fuel with
  | zero => intro f xs; rfl
  | succ fuel ih =>
    intro f xs
    unfold vec1Loop vecLoop
    rw [ih _ none]
    rfl

theorem vecGen_eq (d : ℕ) (R : ℝ) (x0 : Option (List ℤ)) : vecGen (d + 1) R x0 = vecGen0 (d + 1) R x0 := by
  induction d generalizing R x0 with
  | zero =>
    unfold vecGen vecGen0
    exact vec1Loop_eq R _ _ _
  | succ d ih =>
    have e : vecGen (d + 1) = vecGen0 (d + 1) := by funext R x0; exact ih R x0
    unfold vecGen
    rw [vecGen0, e]

theorem vecGen0_none (d : ℕ) (R : ℝ) :
    vecGen0 d R (some (List.replicate d 0)) = vecGen0 d R none := by
  cases d with
  | zero => rfl
  | succ d => rfl

theorem vecGen0_cons (d : ℕ) (R : ℝ) (f : ℤ) (xs : List ℤ) :
    vecGen0 (d + 1) R (some (f :: xs)) =
      if (f : ℝ) ≤ R then
        block (vecGen0 d) R f (some xs) ++ (if f > 0 then block (vecGen0 d) R (-f) (some xs) else [])
          ++ tailFrom (vecGen0 d) R (f.natAbs + 1)
      else [] := by
  rw [vecGen0, vecLoop_eq]
  rfl

theorem vecGen0_full (d : ℕ) (R : ℝ) :
    vecGen0 (d + 1) R none =
      if 0 ≤ R then block (vecGen0 d) R 0 none ++ tailFrom (vecGen0 d) R 1 else [] := by
  rw [← vecGen0_none]
  rw [List.replicate_succ, vecGen0_cons]
  have : block (vecGen0 d) R 0 (some (List.replicate d 0)) = block (vecGen0 d) R 0 none := by
    unfold block
    rw [vecGen0_none]
  rw [this]
  simp

/-! ### membership in the full enumeration -/

theorem mem_block {sub : ℝ → Option (List ℤ) → List (List ℤ)} {R : ℝ} {f : ℤ}
    {xs : Option (List ℤ)} {v : List ℤ} :
    v ∈ block sub R f xs ↔ ∃ w ∈ sub (subR R f) xs, v = f :: w := by
  unfold block
  rw [List.mem_map]
  constructor
  · rintro ⟨w, h, rfl⟩; exact ⟨w, h, rfl⟩
  · rintro ⟨w, h, rfl⟩; exact ⟨w, h, rfl⟩

theorem mem_tailFrom {sub : ℝ → Option (List ℤ) → List (List ℤ)} {R : ℝ} {k : ℕ} (hk : 1 ≤ k)
    {v : List ℤ} :
    v ∈ tailFrom sub R k ↔ ∃ f : ℤ, k ≤ f.natAbs ∧ (f.natAbs : ℝ) ≤ R ∧ v ∈ block sub R f none := by
  unfold tailFrom
  rw [List.mem_flatMap]
  constructor
  · rintro ⟨j, hj, hv⟩
    rw [List.mem_range'_1] at hj
    have hjR : (j : ℝ) ≤ R := (Nat.le_floor_iff' (by omega)).mp (by omega)
    rcases List.mem_append.mp hv with h | h
    · exact ⟨j, by simpa using hj.1, by simpa using hjR, h⟩
    · exact ⟨-j, by simpa using hj.1, by simpa using hjR, h⟩
  · rintro ⟨f, h1, h2, h3⟩
    refine ⟨f.natAbs, ?_, ?_⟩
    · rw [List.mem_range'_1]
      have := (Nat.le_floor_iff' (a := R) (n := f.natAbs) (by omega)).mpr h2
      omega
    · rw [List.mem_append]
      rcases Int.natAbs_eq f with h | h
      · left; rw [← h]; exact h3
      · right; rw [← h]; exact h3

/-- sum of squares -/
def sumsq (v : List ℤ) : ℤ := (v.map (fun x => x ^ 2)).sum

theorem sumsq_cons (f : ℤ) (w : List ℤ) : sumsq (f :: w) = f ^ 2 + sumsq w := by simp [sumsq]

theorem sumsq_nonneg (v : List ℤ) : 0 ≤ sumsq v := by
  unfold sumsq
  apply List.sum_nonneg
  intro x hx
  obtain ⟨y, -, rfl⟩ := List.mem_map.mp hx
  positivity

theorem subR_nonneg (R : ℝ) (f : ℤ) : 0 ≤ subR R f := Real.sqrt_nonneg _

theorem subR_sq (R : ℝ) (f : ℤ) : subR R f ^ 2 = max 0 (R ^ 2 - (f : ℝ) ^ 2) := by
  unfold subR
  rw [Real.sq_sqrt (le_max_left _ _)]

theorem natAbs_le_iff (R : ℝ) (f : ℤ) : (f.natAbs : ℝ) ≤ R ↔ 0 ≤ R ∧ (f : ℝ) ^ 2 ≤ R ^ 2 := by
  have e : (f.natAbs : ℝ) = |(f : ℝ)| := by
    rw [Nat.cast_natAbs]; push_cast; rfl
  rw [e]
  constructor
  · intro h
    have h0 : 0 ≤ R := (abs_nonneg _).trans h
    exact ⟨h0, sq_le_sq.mpr (by rwa [abs_of_nonneg h0])⟩
  · rintro ⟨h0, h⟩
    have := sq_le_sq.mp h
    rwa [abs_of_nonneg h0] at this

theorem mem_full_iff_block (d : ℕ) (R : ℝ) (v : List ℤ) :
    v ∈ vecGen0 (d + 1) R none ↔ ∃ f : ℤ, (f.natAbs : ℝ) ≤ R ∧ v ∈ block (vecGen0 d) R f none := by
  rw [vecGen0_full]
  split_ifs with h0
  · rw [List.mem_append, mem_tailFrom le_rfl]
    constructor
    · rintro (h | ⟨f, -, h1, h2⟩)
      · exact ⟨0, by simpa using h0, h⟩
      · exact ⟨f, h1, h2⟩
    · rintro ⟨f, h1, h2⟩
      by_cases hf : f = 0
      · left; rw [← hf]; exact h2
      · right; exact ⟨f, by omega, h1, h2⟩
  · simp only [List.not_mem_nil, false_iff, not_exists, not_and]
    intro f h
    exact absurd ((Nat.cast_nonneg _).trans h) h0

theorem mem_vecGen0 (d : ℕ) : ∀ (R : ℝ) (v : List ℤ), 0 ≤ R →
    (v ∈ vecGen0 d R none ↔ v.length = d ∧ (sumsq v : ℝ) ≤ R ^ 2) := by
  induction d with
  | zero =>
    intro R v hR
    rw [vecGen0, List.mem_singleton]
    constructor
    · rintro rfl
      simp [sumsq]
      positivity
    · rintro ⟨h, -⟩
      exact List.length_eq_zero_iff.mp h
  | succ d ih =>
    intro R v hR
    rw [mem_full_iff_block]
    constructor
    · rintro ⟨f, h1, h2⟩
      obtain ⟨w, hw, rfl⟩ := mem_block.mp h2
      obtain ⟨h3, h4⟩ := (ih _ _ (subR_nonneg R f)).mp hw
      obtain ⟨-, h5⟩ := (natAbs_le_iff R f).mp h1
      rw [subR_sq, max_eq_right (by linarith)] at h4
      refine ⟨by simp [h3], ?_⟩
      rw [sumsq_cons]
      push_cast
      linarith
    · rintro ⟨h1, h2⟩
      cases v with
      | nil => simp at h1
      | cons f w =>
        rw [sumsq_cons] at h2
        push_cast at h2
        have h3 : (0 : ℝ) ≤ (sumsq w : ℝ) := by exact_mod_cast sumsq_nonneg w
        refine ⟨f, (natAbs_le_iff R f).mpr ⟨hR, by linarith⟩, mem_block.mpr ⟨w, ?_, rfl⟩⟩
        rw [ih _ _ (subR_nonneg R f), subR_sq, max_eq_right (by nlinarith)]
        exact ⟨by simpa using h1, by linarith⟩

/-! ### order -/

/-- position of a digit in `0, 1, -1, 2, -2, ...` -/
def rank (n : ℤ) : ℕ := if 0 < n then 2 * n.natAbs - 1 else 2 * n.natAbs

theorem rank_inj {m n : ℤ} (h : rank m = rank n) : m = n := by
  unfold rank at h
  split_ifs at h <;> omega

/-- the order of the enumeration: lexicographic with respect to `rank` -/
def before : List ℤ → List ℤ → Prop
  | [], [] => False
  | [], _ :: _ => True
  | _ :: _, [] => False
  | a :: v, b :: w => rank a < rank b ∨ (a = b ∧ before v w)

theorem before_irrefl : ∀ v, ¬ before v v := by
  intro v
  induction v with
  | nil => simp [before]
  | cons a v ih => simp [before, ih]

theorem before_trans : ∀ {u v w : List ℤ}, before u v → before v w → before u w := by
  intro u
  induction u with
  | nil =>
    intro v w h1 h2
    cases v with
    | nil => simp [before] at h1
    | cons b v => cases w with
      | nil => simp [before] at h2
      | cons c w => simp [before]
  | cons a u ih =>
    intro v w h1 h2
    cases v with
    | nil => simp [before] at h1
    | cons b v =>
      cases w with
      | nil => simp [before] at h2
      | cons c w =>
        simp only [before] at h1 h2 ⊢
        rcases h1 with h1 | ⟨rfl, h1⟩
        · rcases h2 with h2 | ⟨rfl, h2⟩
          · left; omega
          · left; exact h1
        · rcases h2 with h2 | ⟨rfl, h2⟩
          · left; exact h2
          · right; exact ⟨rfl, ih h1 h2⟩

theorem before_trichotomy : ∀ (u v : List ℤ), before u v ∨ u = v ∨ before v u := by
  intro u
  induction u with
  | nil => intro v; cases v <;> simp [before]
  | cons a u ih =>
    intro v
    cases v with
    | nil => simp [before]
    | cons b v =>
      simp only [before, List.cons.injEq]
      rcases Nat.lt_trichotomy (rank a) (rank b) with h | h | h
      · exact Or.inl (Or.inl h)
      · have := rank_inj h
        subst this
        rcases ih v with h' | h' | h'
        · exact Or.inl (Or.inr ⟨rfl, h'⟩)
        · exact Or.inr (Or.inl ⟨rfl, h'⟩)
        · exact Or.inr (Or.inr (Or.inr ⟨rfl, h'⟩))
      · exact Or.inr (Or.inr (Or.inl h))

theorem rank_pos_neg {f : ℤ} (h : f > 0) : rank f < rank (-f) := by
  unfold rank; split_ifs <;> omega

theorem rank_lt_of_natAbs {f g : ℤ} (h : f.natAbs < g.natAbs) : rank f < rank g := by
  unfold rank; split_ifs <;> omega

theorem pairwise_block {sub : ℝ → Option (List ℤ) → List (List ℤ)} {R : ℝ} {f : ℤ}
    {xs : Option (List ℤ)} (h : (sub (subR R f) xs).Pairwise before) :
    (block sub R f xs).Pairwise before := by
  unfold block
  rw [List.pairwise_map]
  exact h.imp (fun h => Or.inr ⟨rfl, h⟩)

theorem before_of_rank {sub : ℝ → Option (List ℤ) → List (List ℤ)} {R : ℝ} {f g : ℤ}
    {xs ys : Option (List ℤ)} (h : rank f < rank g) {u v : List ℤ} (hu : u ∈ block sub R f xs)
    (hv : v ∈ block sub R g ys) : before u v := by
  obtain ⟨w, -, rfl⟩ := mem_block.mp hu
  obtain ⟨w', -, rfl⟩ := mem_block.mp hv
  exact Or.inl h

theorem pairwise_tailFrom {sub : ℝ → Option (List ℤ) → List (List ℤ)} {R : ℝ}
    (h : ∀ f, (sub (subR R f) none).Pairwise before) : ∀ (m k : ℕ), 1 ≤ k → ⌊R⌋₊ + 1 - k = m →
    (tailFrom sub R k).Pairwise before := by
  intro m
  induction m with
  | zero => intro k _ hm; rw [tailFrom_nil _ _ _ (by omega)]; simp
  | succ m ih =>
    intro k hk hm
    rw [tailFrom_succ _ _ _ (by omega), List.append_assoc, List.pairwise_append, List.pairwise_append]
    refine ⟨pairwise_block (h _), ⟨pairwise_block (h _), ih (k + 1) (by omega) (by omega), ?_⟩, ?_⟩
    · intro u hu v hv
      obtain ⟨f, h1, -, h2⟩ := (mem_tailFrom (by omega)).mp hv
      exact before_of_rank (rank_lt_of_natAbs (by simp; omega)) hu h2
    · intro u hu v hv
      rcases List.mem_append.mp hv with hv | hv
      · exact before_of_rank (rank_pos_neg (by omega)) hu hv
      · obtain ⟨f, h1, -, h2⟩ := (mem_tailFrom (by omega)).mp hv
        exact before_of_rank (rank_lt_of_natAbs (by simp; omega)) hu h2

/-- Whatever the checkpoint, the vectors come in strictly increasing order. -/
theorem pairwise_vecGen0 (d : ℕ) : ∀ (R : ℝ) (x0 : Option (List ℤ)),
    (vecGen0 d R x0).Pairwise before := by
  induction d with
  | zero => intro R x0; simp [vecGen0]
  | succ d ih =>
    intro R x0
    rw [vecGen0, vecLoop_eq]
    generalize (x0.getD (List.replicate (d + 1) 0)).headD 0 = f
    generalize some (x0.getD (List.replicate (d + 1) 0)).tail = xs
    have ht := pairwise_tailFrom (sub := vecGen0 d) (R := R) (fun f => ih _ _) _ (f.natAbs + 1)
      (by omega) rfl
    split_ifs with h1 h2
    · rw [List.append_assoc, List.pairwise_append, List.pairwise_append]
      refine ⟨pairwise_block (ih _ _), ⟨pairwise_block (ih _ _), ht, ?_⟩, ?_⟩
      · intro u hu v hv
        obtain ⟨g, h3, -, h4⟩ := (mem_tailFrom (by omega)).mp hv
        exact before_of_rank (rank_lt_of_natAbs (by simp; omega)) hu h4
      · intro u hu v hv
        rcases List.mem_append.mp hv with hv | hv
        · exact before_of_rank (rank_pos_neg h2) hu hv
        · obtain ⟨g, h3, -, h4⟩ := (mem_tailFrom (by omega)).mp hv
          exact before_of_rank (rank_lt_of_natAbs (by omega)) hu h4
    · rw [List.append_nil, List.pairwise_append]
      refine ⟨pairwise_block (ih _ _), ht, ?_⟩
      intro u hu v hv
      obtain ⟨g, h3, -, h4⟩ := (mem_tailFrom (by omega)).mp hv
      exact before_of_rank (rank_lt_of_natAbs (by omega)) hu h4
    · simp

theorem nodup_of_before {l : List (List ℤ)} (h : l.Pairwise before) : l.Nodup := by
  refine List.Pairwise.imp ?_ h
  rintro a b hab rfl
  exact before_irrefl a hab

/-- Checkpoints from which the enumeration resumes correctly: every positive coordinate is followed by
zeros only. -/
def GoodStart : List ℤ → Prop
  | [] => True
  | f :: xs => (f ≤ 0 ∧ GoodStart xs) ∨ (∀ y ∈ xs, y = 0)

theorem eq_replicate_of_zero {xs : List ℤ} {d : ℕ} (hl : xs.length = d) (h : ∀ y ∈ xs, y = 0) :
    xs = List.replicate d 0 := List.eq_replicate_iff.mpr ⟨hl, h⟩

theorem goodStart_zero {xs : List ℤ} (h : ∀ y ∈ xs, y = 0) : GoodStart xs := by
  cases xs with
  | nil => trivial
  | cons f xs => exact Or.inr (fun y hy => h y (by simp [hy]))

theorem tailFrom_suffix (sub : ℝ → Option (List ℤ) → List (List ℤ)) (R : ℝ) : ∀ (j k : ℕ),
    tailFrom sub R (k + j) <:+ tailFrom sub R k := by
  intro j
  induction j with
  | zero => intro k; exact List.suffix_refl _
  | succ j ih =>
    intro k
    by_cases h : k ≤ ⌊R⌋₊
    · rw [tailFrom_succ _ _ k h, show k + (j + 1) = (k + 1) + j by omega]
      exact (ih (k + 1)).trans (List.suffix_append _ _)
    · rw [tailFrom_nil _ _ (k + (j + 1)) (by omega)]
      exact List.nil_suffix

theorem suffix_append_right {σ : Type} {a b : List σ} (c : List σ) (h : a <:+ b) : a ++ c <:+ b ++ c := by
  obtain ⟨t, rfl⟩ := h
  exact ⟨t, by simp⟩

theorem block_suffix {sub : ℝ → Option (List ℤ) → List (List ℤ)} {R : ℝ} {f : ℤ}
    {xs : Option (List ℤ)} (h : sub (subR R f) xs <:+ sub (subR R f) none) :
    block sub R f xs <:+ block sub R f none := by
  obtain ⟨t, ht⟩ := h
  unfold block
  rw [← ht, List.map_append]
  exact List.suffix_append _ _

theorem block_zeros (d : ℕ) (R : ℝ) (f : ℤ) {xs : List ℤ} (hl : xs.length = d)
    (h : ∀ y ∈ xs, y = 0) : block (vecGen0 d) R f (some xs) = block (vecGen0 d) R f none := by
  unfold block
  rw [eq_replicate_of_zero hl h, vecGen0_none]

/-- resuming from a good checkpoint inside the ball: a suffix of the full enumeration -/
theorem resume_suffix (d : ℕ) : ∀ (R : ℝ) (x0 : List ℤ), x0 ∈ vecGen0 d R none → 0 ≤ R → GoodStart x0 →
    vecGen0 d R (some x0) <:+ vecGen0 d R none ∧ (vecGen0 d R (some x0)).head? = some x0 := by
  induction d with
  | zero =>
    intro R x0 h _ _
    rw [vecGen0, List.mem_singleton] at h
    subst h
    simp [vecGen0]
  | succ d ih =>
    intro R x0 hx hR hg
    obtain ⟨f, h1, h2⟩ := (mem_full_iff_block d R x0).mp hx
    obtain ⟨xs, h3, rfl⟩ := mem_block.mp h2
    have hlen : xs.length = d := ((mem_vecGen0 d _ _ (subR_nonneg _ _)).mp h3).1
    have hgx : GoodStart xs := by
      rcases hg with ⟨-, h⟩ | h
      · exact h
      · exact goodStart_zero h
    obtain ⟨h4, h5⟩ := ih _ _ h3 (subR_nonneg _ _) hgx
    have hfR : (f : ℝ) ≤ R := by
      refine le_trans ?_ h1
      rw [Nat.cast_natAbs]
      push_cast
      exact le_abs_self _
    have hhead : ∀ rest, (block (vecGen0 d) R f (some xs) ++ rest).head? = some (f :: xs) := by
      intro rest
      unfold block
      cases hc : vecGen0 d (subR R f) (some xs) with
      | nil => rw [hc] at h5; simp at h5
      | cons a l => rw [hc] at h5; simp at h5; simp [h5]
    rw [vecGen0_cons, if_pos hfR]
    refine ⟨?_, by rw [List.append_assoc]; exact hhead _⟩
    rw [vecGen0_full, if_pos hR]
    rcases lt_trichotomy f 0 with hf | hf | hf
    · -- negative
      rw [if_neg (by omega), List.append_nil]
      have hk : f.natAbs ≤ ⌊R⌋₊ := (Nat.le_floor_iff' (by omega)).mpr h1
      have e : tailFrom (vecGen0 d) R f.natAbs <:+
          block (vecGen0 d) R 0 none ++ tailFrom (vecGen0 d) R 1 := by
        have := tailFrom_suffix (vecGen0 d) R (f.natAbs - 1) 1
        rw [show 1 + (f.natAbs - 1) = f.natAbs by omega] at this
        exact this.trans (List.suffix_append _ _)
      refine List.IsSuffix.trans ?_ e
      rw [tailFrom_succ _ _ _ hk, show -((f.natAbs : ℕ) : ℤ) = f by omega, List.append_assoc]
      exact (suffix_append_right _ (block_suffix h4)).trans (List.suffix_append _ _)
    · subst hf
      rw [if_neg (by omega), List.append_nil]
      exact suffix_append_right _ (block_suffix h4)
    · -- positive
      have hz : ∀ y ∈ xs, y = 0 := by
        rcases hg with ⟨h, -⟩ | h
        · omega
        · exact h
      rw [if_pos hf, block_zeros d R f hlen hz, block_zeros d R (-f) hlen hz]
      have hk : f.natAbs ≤ ⌊R⌋₊ := (Nat.le_floor_iff' (by omega)).mpr h1
      have e : tailFrom (vecGen0 d) R f.natAbs <:+
          block (vecGen0 d) R 0 none ++ tailFrom (vecGen0 d) R 1 := by
        have := tailFrom_suffix (vecGen0 d) R (f.natAbs - 1) 1
        rw [show 1 + (f.natAbs - 1) = f.natAbs by omega] at this
        exact this.trans (List.suffix_append _ _)
      rw [tailFrom_succ _ _ _ hk, show ((f.natAbs : ℕ) : ℤ) = f by omega] at e
      exact e

/-- Every vector in the ball that is not before the checkpoint is produced, except possibly those
with the opposite first coordinate. -/
theorem resume_complete (d : ℕ) : ∀ (R : ℝ) (x0 v : List ℤ), x0.length = d → 0 ≤ R → v.length = d →
    (sumsq v : ℝ) ≤ R ^ 2 → ¬ before v x0 → GoodStart x0 → v ∈ vecGen0 d R (some x0) := by
  induction d with
  | zero =>
    intro R x0 v _ _ hv _ _ _
    rw [vecGen0, List.mem_singleton]
    exact List.length_eq_zero_iff.mp hv
  | succ d ih =>
    intro R x0 v hx0 hR hv hn hb hg
    cases x0 with
    | nil => simp at hx0
    | cons f xs =>
      cases v with
      | nil => simp at hv
      | cons g w =>
        rw [sumsq_cons] at hn
        push_cast at hn
        have hw0 : (0 : ℝ) ≤ (sumsq w : ℝ) := by exact_mod_cast sumsq_nonneg w
        have hgR : (g.natAbs : ℝ) ≤ R := (natAbs_le_iff R g).mpr ⟨hR, by linarith⟩
        have hwl : w.length = d := by simpa using hv
        have hxl : xs.length = d := by simpa using hx0
        have hwn : (sumsq w : ℝ) ≤ subR R g ^ 2 := by
          rw [subR_sq, max_eq_right (by linarith)]
          linarith
        have hwfull : w ∈ vecGen0 d (subR R g) none :=
          (mem_vecGen0 d _ _ (subR_nonneg _ _)).mpr ⟨hwl, hwn⟩
        simp only [before, not_or, not_and, not_lt] at hb
        obtain ⟨hb1, hb2⟩ := hb
        have hfg : f.natAbs ≤ g.natAbs := by
          by_contra hlt
          have := rank_lt_of_natAbs (not_le.mp hlt)
          omega
        have hfR : (f : ℝ) ≤ R := by
          refine le_trans ?_ hgR
          refine le_trans ?_ (Nat.cast_le.mpr hfg)
          rw [Nat.cast_natAbs]
          push_cast
          exact le_abs_self _
        rw [vecGen0_cons, if_pos hfR]
        by_cases he : g = f
        · subst he
          rw [List.append_assoc, List.mem_append]
          left
          refine mem_block.mpr ⟨w, ?_, rfl⟩
          have hgx : GoodStart xs := by
            rcases hg with ⟨-, h⟩ | h
            · exact h
            · exact goodStart_zero h
          exact ih _ xs w hxl (subR_nonneg _ _) hwl hwn (hb2 rfl) hgx
        · by_cases hlt : f.natAbs < g.natAbs
          · rw [List.mem_append]
            right
            rw [mem_tailFrom (by omega)]
            exact ⟨g, hlt, hgR, mem_block.mpr ⟨w, hwfull, rfl⟩⟩
          · have hgf : g = -f := by omega
            have hf : f > 0 := by
              by_contra hf
              have : rank g < rank f := by
                rw [show f = - g by omega]
                exact rank_pos_neg (by omega)
              omega
            have hz : ∀ y ∈ xs, y = 0 := by
              rcases hg with ⟨h, -⟩ | h
              · omega
              · exact h
            rw [if_pos hf, List.mem_append, List.mem_append]
            left; right
            rw [block_zeros d R _ hxl hz, hgf.symm]
            exact mem_block.mpr ⟨w, hwfull, rfl⟩

/-- With an arbitrary first coordinate (and a good rest) only vectors with the opposite first
coordinate and a rest before that of the checkpoint can be missed. -/
theorem resume_complete_sym (d : ℕ) (R : ℝ) (f g : ℤ) (xs w : List ℤ) (hx : xs.length = d) (hR : 0 ≤ R)
    (hw : w.length = d) (hn : (sumsq (g :: w) : ℝ) ≤ R ^ 2) (hb : ¬ before (g :: w) (f :: xs))
    (hg : GoodStart xs) :
    (g :: w) ∈ vecGen0 (d + 1) R (some (f :: xs)) ∨ (0 < f ∧ g = -f ∧ before w xs) := by
  rw [sumsq_cons] at hn
  push_cast at hn
  have hw0 : (0 : ℝ) ≤ (sumsq w : ℝ) := by exact_mod_cast sumsq_nonneg w
  have hgR : (g.natAbs : ℝ) ≤ R := (natAbs_le_iff R g).mpr ⟨hR, by linarith⟩
  have hwn : (sumsq w : ℝ) ≤ subR R g ^ 2 := by
    rw [subR_sq, max_eq_right (by linarith)]
    linarith
  have hwfull : w ∈ vecGen0 d (subR R g) none :=
    (mem_vecGen0 d _ _ (subR_nonneg _ _)).mpr ⟨hw, hwn⟩
  simp only [before, not_or, not_and, not_lt] at hb
  obtain ⟨hb1, hb2⟩ := hb
  have hfg : f.natAbs ≤ g.natAbs := by
    by_contra hlt
    have := rank_lt_of_natAbs (not_le.mp hlt)
    omega
  have hfR : (f : ℝ) ≤ R := by
    refine le_trans ?_ hgR
    refine le_trans ?_ (Nat.cast_le.mpr hfg)
    rw [Nat.cast_natAbs]
    push_cast
    exact le_abs_self _
  rw [vecGen0_cons, if_pos hfR]
  by_cases he : g = f
  · subst he
    left
    rw [List.append_assoc, List.mem_append]
    left
    exact mem_block.mpr ⟨w, resume_complete d _ xs w hx (subR_nonneg _ _) hw hwn (hb2 rfl) hg, rfl⟩
  · by_cases hlt : f.natAbs < g.natAbs
    · left
      rw [List.mem_append]
      right
      rw [mem_tailFrom (by omega)]
      exact ⟨g, hlt, hgR, mem_block.mpr ⟨w, hwfull, rfl⟩⟩
    · have hgf : g = -f := by omega
      have hf : f > 0 := by
        by_contra hf
        have : rank g < rank f := by
          rw [show f = - g by omega]
          exact rank_pos_neg (by omega)
        omega
      by_cases hbw : before w xs
      · exact Or.inr ⟨hf, hgf, hbw⟩
      · left
        rw [if_pos hf, List.mem_append, List.mem_append]
        left; right
        rw [hgf.symm]
        exact mem_block.mpr ⟨w, resume_complete d _ xs w hx (subR_nonneg _ _) hw hwn hbw hg, rfl⟩

/-- Nothing before the checkpoint is produced, and all vectors have the right length. -/
theorem resume_ge (d : ℕ) : ∀ (R : ℝ) (x0 v : List ℤ), x0.length = d → v ∈ vecGen0 d R (some x0) →
    v.length = d ∧ ¬ before v x0 := by
  induction d with
  | zero =>
    intro R x0 v hx hv
    rw [vecGen0, List.mem_singleton] at hv
    subst hv
    rw [List.length_eq_zero_iff.mp hx]
    simp [before]
  | succ d ih =>
    intro R x0 v hx hv
    cases x0 with
    | nil => simp at hx
    | cons f xs =>
      have hxl : xs.length = d := by simpa using hx
      rw [vecGen0_cons] at hv
      have key : ∀ g ys, ys.length = d → (rank f < rank g ∨ (g = f ∧ ys = xs)) →
          v ∈ block (vecGen0 d) R g (some ys) → v.length = d + 1 ∧ ¬ before v (f :: xs) := by
        intro g ys hys hr hv
        obtain ⟨w, hw, rfl⟩ := mem_block.mp hv
        obtain ⟨h1, h2⟩ := ih _ ys w hys hw
        refine ⟨by simp [h1], ?_⟩
        simp only [before, not_or, not_and, not_lt]
        rcases hr with hr | ⟨rfl, rfl⟩
        · refine ⟨hr.le, ?_⟩
          rintro rfl
          exact absurd hr (lt_irrefl _)
        · exact ⟨le_rfl, fun _ => h2⟩
      split_ifs at hv with h1 h2
      · rw [List.mem_append, List.mem_append] at hv
        rcases hv with (hv | hv) | hv
        · exact key f xs hxl (Or.inr ⟨rfl, rfl⟩) hv
        · exact key (-f) xs hxl (Or.inl (rank_pos_neg h2)) hv
        · obtain ⟨g, hg, -, hb⟩ := (mem_tailFrom (by omega)).mp hv
          refine key g (List.replicate d 0) (by simp) (Or.inl (rank_lt_of_natAbs (by omega))) ?_
          unfold block at hb ⊢
          rw [vecGen0_none]
          exact hb
      · rw [List.append_nil, List.mem_append] at hv
        rcases hv with hv | hv
        · exact key f xs hxl (Or.inr ⟨rfl, rfl⟩) hv
        · obtain ⟨g, hg, -, hb⟩ := (mem_tailFrom (by omega)).mp hv
          refine key g (List.replicate d 0) (by simp) (Or.inl (rank_lt_of_natAbs (by omega))) ?_
          unfold block at hb ⊢
          rw [vecGen0_none]
          exact hb
      · simp at hv

end Verif.Lemmas
