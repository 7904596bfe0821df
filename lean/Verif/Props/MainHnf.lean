import Mathlib.Tactic.NormNum
import Verif.Lemmas.MainHnf

/-!
# C09, C10, C42: the sublattice part of `lat_cor` (`main_hnf.py`)
-/

namespace Verif.Props

open Matrix Verif.Spec Verif.Model Verif.Lemmas

/-! ## C09 -/

/-- C09: for every list of HNFs and every finite matrix group, `reduce_hnfs` ends without an exception
and returns exactly one member of every symmetry class that occurs in the list. -/
theorem C09_reduce_hnfs (n : ℕ) (hnfs lg : List (Matrix (Fin (n + 1)) (Fin (n + 1)) ℤ))
    (hh : ∀ h ∈ hnfs, IsHNF h) (hg : IsMatGroup lg) :
    ∃ r, reduceHnfs .py3 hnfs lg = .ok r ∧ OnePerClass lg hnfs r := by
  obtain ⟨r, hr, h⟩ := reduceLoop_spec hg hnfs [] [] hh (by simp) ⟨by simp, by simp, by simp⟩
  exact ⟨r, hr, by simpa using h⟩

/-- The rotations of the square by multiples of 90 degrees. -/
def rot4 : List (Matrix (Fin 2) (Fin 2) ℤ) := [1, -1, !![0, -1; 1, 0], !![0, 1; -1, 0]]

theorem rot4_group : IsMatGroup rot4 := by
  refine ⟨by decide +kernel, ?_, ?_⟩
  · unfold rot4; decide +kernel
  · unfold rot4; decide +kernel

/-- The seven HNFs of determinant 4. -/
def hnf4 : List (Matrix (Fin 2) (Fin 2) ℤ) :=
  [!![1, 0; 0, 4], !![1, 0; -1, 4], !![1, 0; -2, 4], !![1, 0; -3, 4], !![2, 0; 0, 2], !![2, 0; -1, 2],
    !![4, 0; 0, 1]]

theorem hnf4_enum : hnfFromDet 4 2 = .ok hnf4 := by decide +kernel

theorem hnf4_isHNF : ∀ h ∈ hnf4, IsHNF h := by
  intro h hh
  obtain ⟨l, hl, -, hmem⟩ := hnfFromDet_spec 4 (by decide) 1
  have : l = hnf4 := by
    have := hl.symm.trans hnf4_enum
    simpa using this
  exact ((hmem h).mp (this ▸ hh)).1

-- the reduction of the seven sublattices of index 4 by the rotations: four classes
example : reduceHnfs .py3 hnf4 rot4 =
    .ok [!![1, 0; 0, 4], !![1, 0; -1, 4], !![1, 0; -2, 4], !![2, 0; 0, 2]] := by decide +kernel

/-- C09 fails under Python 2 (see C08): with floor division two sublattices related by
a rotation are both kept. -/
theorem C09_python2_fails :
    ∃ r h k, reduceHnfs .py2 hnf4 rot4 = .ok r ∧ h ∈ r ∧ k ∈ r ∧ h ≠ k ∧ SymRelated rot4 h k := by
  refine ⟨[!![1, 0; 0, 4], !![1, 0; -1, 4], !![1, 0; -2, 4], !![2, 0; 0, 2], !![2, 0; -1, 2]],
    !![1, 0; -2, 4], !![2, 0; -1, 2], by decide +kernel, by decide +kernel, by decide +kernel,
    by decide +kernel, !![0, -1; 1, 0], by decide +kernel, !![-1, 2; -1, 1], ?_, ?_⟩
  · left; decide +kernel
  · decide +kernel

/-! ## C10 -/

/-- C10, first half: for every list and every positive chunk size `divide_work` returns consecutive
chunks (their concatenation is the list), none of them empty and none larger than `size`. -/
theorem C10_divide_work {α : Type} (W : List α) (size : ℕ) (hs : 0 < size) :
    ∃ sub, divideWork W size = .ok sub ∧ sub.flatten = W ∧
      ∀ c ∈ sub, 0 < c.length ∧ c.length ≤ size := by
  refine ⟨_, by rw [divideWork, if_neg hs.ne'], ?_, ?_⟩
  · rw [flatten_windows]
    apply List.take_of_length_le
    have := Nat.lt_mul_div_succ (W.length + size - 1) hs
    have e : size * ((W.length + size - 1) / size + 1)
        = (W.length + size - 1) / size * size + size := by ring
    omega
  · intro c hc
    obtain ⟨g, hg, rfl⟩ := List.mem_map.mp hc
    have hg := List.mem_range.mp hg
    have h1 : (g + 1) * size ≤ W.length + size - 1 :=
      le_trans (Nat.mul_le_mul_right _ hg) (Nat.div_mul_le_self _ _)
    have e : (g + 1) * size = g * size + size := by ring
    rw [e] at h1 ⊢
    simp only [List.length_take, List.length_drop]
    omega

example : divideWork [1, 2, 3, 4, 5, 6, 7] 3 = .ok [[1, 2, 3], [4, 5, 6], [7]] := by decide

/-- C10, number of chunks: the printed number of groups is the number of processors.  Under Python 3 no
more chunks than processors are made, under Python 2 at least as many. -/
theorem C10_groups {α : Type} (W : List α) (poolsize : ℕ) (hp : 0 < poolsize)
    (hW : poolsize * 20 < W.length) :
    (∃ sub, divideWork W (chunkSize .py3 W.length poolsize) = .ok sub ∧ sub.length ≤ poolsize) ∧
    (∃ sub, divideWork W (chunkSize .py2 W.length poolsize) = .ok sub ∧ poolsize ≤ sub.length) := by
  have h3 : 0 < chunkSize .py3 W.length poolsize := by
    simp only [chunkSize]
    exact Nat.div_pos (by omega) hp
  have h2 : 0 < chunkSize .py2 W.length poolsize := by
    simp only [chunkSize]
    exact Nat.div_pos (by omega) hp
  refine ⟨⟨_, by rw [divideWork, if_neg h3.ne'], ?_⟩, ⟨_, by rw [divideWork, if_neg h2.ne'], ?_⟩⟩
  · simp only [List.length_map, List.length_range]
    refine Nat.lt_succ_iff.mp ((Nat.div_lt_iff_lt_mul h3).mpr ?_)
    have h : W.length ≤ chunkSize .py3 W.length poolsize * poolsize := by
      simp only [chunkSize]
      have := Nat.lt_div_mul_add (a := W.length + poolsize - 1) hp
      omega
    rw [Nat.succ_mul, Nat.mul_comm]
    omega
  · simp only [List.length_map, List.length_range]
    refine (Nat.le_div_iff_mul_le h2).mpr ?_
    have h : chunkSize .py2 W.length poolsize * poolsize ≤ W.length := by
      simp only [chunkSize]
      exact Nat.div_mul_le_self _ _
    rw [Nat.mul_comm]
    omega

/-- C10: the printed number of groups is not always made, under either interpreter: 41 sublattices and two
processors give three chunks under Python 2, 2001 and 100 processors give 96 under Python 3. -/
theorem C10_groups_fails :
    (∃ sub, divideWork (List.range 41) (chunkSize .py2 41 2) = .ok sub ∧ sub.length = 3) ∧
    (∃ sub, divideWork (List.range 2001) (chunkSize .py3 2001 100) = .ok sub ∧ sub.length = 96) := by
  constructor
  · exact ⟨_, by rw [divideWork, if_neg (by decide)], by
      simp only [List.length_map, List.length_range, chunkSize]⟩
  · exact ⟨_, by rw [divideWork, if_neg (by decide)], by
      simp only [List.length_map, List.length_range, chunkSize]⟩

/-- C10, second half: however the list is cut into chunks, and whatever representatives the workers
choose for their chunk, reducing the concatenated results once more leaves exactly one
representative of every class of the whole list. -/
theorem C10_reduce_twice (n : ℕ) (sub red : List (List (Matrix (Fin (n + 1)) (Fin (n + 1)) ℤ)))
    (lg : List (Matrix (Fin (n + 1)) (Fin (n + 1)) ℤ)) (hg : IsMatGroup lg)
    (hh : ∀ h ∈ sub.flatten, IsHNF h) (hred : List.Forall₂ (OnePerClass lg) sub red) :
    ∃ r, reduceHnfs .py3 red.flatten lg = .ok r ∧ OnePerClass lg sub.flatten r := by
  have h1 : ∀ h ∈ red.flatten, h ∈ sub.flatten := by
    clear hh
    induction hred with
    | nil => simp
    | cons hab _ ih =>
      intro h hm
      simp only [List.flatten_cons, List.mem_append] at hm ⊢
      exact hm.imp (hab.1 h) (ih h)
  have h2 : ∀ h ∈ sub.flatten, ∃ k ∈ red.flatten, SymRelated lg h k := by
    clear hh h1
    induction hred with
    | nil => simp
    | cons hab _ ih =>
      intro h hm
      simp only [List.flatten_cons, List.mem_append] at hm ⊢
      rcases hm with hm | hm
      · obtain ⟨k, ⟨hk, hr⟩, -⟩ := hab.2.2 h hm
        exact ⟨k, .inl hk, hr⟩
      · obtain ⟨k, hk, hr⟩ := ih h hm
        exact ⟨k, .inr hk, hr⟩
  obtain ⟨r, hr, o1, o2, o3⟩ := C09_reduce_hnfs n red.flatten lg (fun h hm => hh h (h1 h hm)) hg
  refine ⟨r, hr, fun h hm => h1 h (o1 h hm), o2, ?_⟩
  intro h hm
  obtain ⟨k, hk, hhk⟩ := h2 h hm
  obtain ⟨m, ⟨hm1, hm2⟩, hu⟩ := o3 k hk
  refine ⟨m, ⟨hm1, symRelated_trans hg hhk hm2⟩, ?_⟩
  rintro y ⟨hy1, hy2⟩
  exact hu y ⟨hy1, symRelated_trans hg (symRelated_symm hg hhk) hy2⟩

/-- C10 for the code as a whole: with a worker that runs `reduce_hnfs` on its chunk, the parallel
branch gives one representative of every class, for every number of workers, and so it returns
as many normal forms as the serial branch. -/
theorem C10_parallel (n poolsize : ℕ) (hp : 0 < poolsize)
    (hnfs lg : List (Matrix (Fin (n + 1)) (Fin (n + 1)) ℤ))
    (hh : ∀ h ∈ hnfs, IsHNF h) (hg : IsMatGroup lg) :
    ∃ r, reduceStepPar .py3 poolsize (fun c => reduceHnfs .py3 c lg) hnfs lg = .ok r ∧
      OnePerClass lg hnfs r := by
  unfold reduceStepPar
  split
  · rename_i hlen
    have hcs : 0 < chunkSize .py3 hnfs.length poolsize := by
      simp only [chunkSize]
      exact Nat.div_pos (by omega) hp
    obtain ⟨sub, hsub, hflat, -⟩ := C10_divide_work hnfs _ hcs
    obtain ⟨red, hred, hP⟩ := mapExcept_ok (f := fun c => reduceHnfs .py3 c lg)
      (P := OnePerClass lg) sub (by
        intro c hc
        apply C09_reduce_hnfs n c lg _ hg
        intro h hm
        apply hh
        rw [← hflat]
        exact List.mem_flatten.mpr ⟨c, hc, hm⟩)
    obtain ⟨r, hr, ho⟩ := C10_reduce_twice n sub red lg hg (by rw [hflat]; exact hh) hP
    exact ⟨r, by simp [hsub, hred, hr], hflat ▸ ho⟩
  · exact C09_reduce_hnfs n hnfs lg hh hg

/-- Two systems of representatives of the same list have the same length: the parallel and the
serial reduction agree on the number of independent sublattices. -/
theorem C10_same_count (n : ℕ) (l r s lg : List (Matrix (Fin (n + 1)) (Fin (n + 1)) ℤ))
    (hg : IsMatGroup lg) (hr : OnePerClass lg l r) (hs : OnePerClass lg l s) : r.length = s.length := by
  have key : ∀ r s : List (Matrix (Fin (n + 1)) (Fin (n + 1)) ℤ), OnePerClass lg l r →
      OnePerClass lg l s → r.length ≤ s.length := by
    intro r s hr hs
    have hex : ∀ h ∈ r, ∃ k ∈ s, SymRelated lg h k := fun h hm => by
      obtain ⟨k, ⟨hk, hk'⟩, -⟩ := hs.2.2 h (hr.1 h hm)
      exact ⟨k, hk, hk'⟩
    choose! f hf hf' using hex
    have hinj : ∀ x ∈ r, ∀ y ∈ r, f x = f y → x = y := by
      intro x hx y hy hxy
      obtain ⟨u, -, hu⟩ := hr.2.2 x (hr.1 x hx)
      have hxy' : SymRelated lg x y :=
        symRelated_trans hg (hf' x hx) (hxy ▸ symRelated_symm hg (hf' y hy))
      rw [hu x ⟨hx, symRelated_refl hg x⟩, hu y ⟨hy, hxy'⟩]
    have hnd : (r.map f).Nodup := (List.nodup_map_iff_inj_on hr.2.1).mpr hinj
    have hsub : r.map f ⊆ s := by
      intro k hk
      obtain ⟨x, hx, rfl⟩ := List.mem_map.mp hk
      exact hf x hx
    simpa using (List.subperm_of_subset hnd hsub).length_le
  exact le_antisymm (key r s hr hs) (key s r hs hr)

-- non-vacuity: a run that really takes the parallel branch (one worker, 21 > 20 normal forms)
example : 1 * 20 < (hnf4 ++ hnf4 ++ hnf4).length ∧
    reduceStepPar .py3 1 (fun c => reduceHnfs .py3 c rot4) (hnf4 ++ hnf4 ++ hnf4) rot4 =
      .ok [!![1, 0; 0, 4], !![1, 0; -1, 4], !![1, 0; -2, 4], !![2, 0; 0, 2]] := by decide +kernel
example : List.Forall₂ (OnePerClass [1]) [[!![2]], [!![2], !![3]]] [[!![2]], [!![2], !![3]]] := by
  have one : ∀ l : List (Matrix (Fin 1) (Fin 1) ℤ), l.Nodup → (∀ h ∈ l, IsHNF h) →
      OnePerClass [1] l l := by
    intro l hl hh
    refine ⟨fun _ h => h, hl, fun h hm => ⟨h, ⟨hm, 1, by simp, 1, unimodular_one, by simp⟩, ?_⟩⟩
    rintro y ⟨hy, M, hM, A, hA, rfl⟩
    rw [List.mem_singleton.mp hM, Matrix.one_mul] at hy ⊢
    exact (hnf_unique (hh h hm) (hh _ hy) ⟨A, hA, rfl⟩).symm
  have hn : ∀ a : ℤ, 0 < a → IsHNF (!![a] : Matrix (Fin 1) (Fin 1) ℤ) := by
    intro a ha
    refine ⟨fun i j h => ?_, fun i => by simpa using ha, fun i j h => ?_⟩ <;> omega
  refine .cons (one _ (by decide +kernel) ?_) (.cons (one _ (by decide +kernel) ?_) .nil)
  · simp only [List.mem_singleton, forall_eq]; exact hn 2 (by decide)
  · simp only [List.mem_cons, List.not_mem_nil, or_false, forall_eq_or_imp, forall_eq]
    exact ⟨hn 2 (by decide), hn 3 (by decide)⟩

/-- The tuples built in the parallel branch (`zip(subhnfs, [LG_A]*len(subhnfs))`) have two items:
`reduce_hnfs` itself cannot be used as the worker, it raises `IndexError`. -/
theorem C10_plain_worker_fails : reduceArgs 2 = .error .indexError := rfl

/-! ## C42 -/

theorem mem_arange (a b k : ℤ) : k ∈ arange a b ↔ a ≤ k ∧ k < b := by
  simp only [arange, List.mem_map, List.mem_range]
  constructor
  · rintro ⟨i, hi, rfl⟩; omega
  · rintro ⟨h1, h2⟩; exact ⟨(k - a).toNat, by omega, by omega⟩

theorem roundEven_near (x : ℝ) : |(roundEven x : ℝ) - x| ≤ 1 / 2 := by
  unfold roundEven
  have hfr := Int.self_sub_floor x
  split_ifs with h h'
  · rw [h] at hfr
    have : (⌊x⌋ : ℝ) - x = -(1 / 2) := by linarith
    rw [this]; norm_num [abs_of_pos]
  · rw [h] at hfr
    have : ((⌊x⌋ + 1 : ℤ) : ℝ) - x = 1 / 2 := by push_cast; linarith
    rw [this]; norm_num
  · rw [abs_sub_comm]; exact abs_sub_round x

/-- C42: the sizes are exactly the integers of the window, in increasing order; if the window contains
no integer there is exactly one size, an integer nearest to `r`. -/
theorem C42_sizes (volTh r : ℝ) :
    (sizes volTh r).Pairwise (· < ·) ∧
    ((∃ k : ℤ, (1 - volTh) * r ≤ k ∧ (k : ℝ) ≤ (1 + volTh) * r) →
      ∀ k : ℤ, k ∈ sizes volTh r ↔ (1 - volTh) * r ≤ k ∧ (k : ℝ) ≤ (1 + volTh) * r) ∧
    ((¬ ∃ k : ℤ, (1 - volTh) * r ≤ k ∧ (k : ℝ) ≤ (1 + volTh) * r) →
      ∃ k : ℤ, sizes volTh r = [k] ∧ ∀ j : ℤ, |(k : ℝ) - r| ≤ |(j : ℝ) - r|) := by
  have hmem : ∀ k : ℤ, k ∈ arange ⌈(1 - volTh) * r⌉ (⌊(1 + volTh) * r⌋ + 1) ↔
      (1 - volTh) * r ≤ k ∧ (k : ℝ) ≤ (1 + volTh) * r := by
    intro k
    rw [mem_arange, Int.lt_add_one_iff, Int.ceil_le, Int.le_floor]
  refine ⟨?_, ?_, ?_⟩
  · simp only [sizes]
    split
    · simp
    · rw [arange, List.pairwise_map]
      exact List.pairwise_lt_range.imp (by intro a b h; omega)
  · rintro ⟨k, hk⟩ j
    have : (arange ⌈(1 - volTh) * r⌉ (⌊(1 + volTh) * r⌋ + 1)).length ≠ 0 := by
      intro h0
      rw [List.length_eq_zero_iff] at h0
      have := (hmem k).mpr hk
      rw [h0] at this
      simp at this
    simp only [sizes, if_neg this]
    exact hmem j
  · intro hno
    have : (arange ⌈(1 - volTh) * r⌉ (⌊(1 + volTh) * r⌋ + 1)).length = 0 := by
      rw [List.length_eq_zero_iff, List.eq_nil_iff_forall_not_mem]
      exact fun k hk => hno ⟨k, (hmem k).mp hk⟩
    refine ⟨roundEven r, by simp only [sizes, if_pos this], ?_⟩
    intro j
    rcases eq_or_ne j (roundEven r) with rfl | hne
    · exact le_rfl
    · have h1 := roundEven_near r
      have h2 : (1 : ℝ) ≤ |(j : ℝ) - roundEven r| := by
        rw [← Int.cast_sub, ← Int.cast_abs]
        exact_mod_cast Int.one_le_abs (sub_ne_zero.mpr hne)
      have h3 : |(j : ℝ) - roundEven r| ≤ |(j : ℝ) - r| + |(roundEven r : ℝ) - r| := by
        rw [abs_sub_comm (roundEven r : ℝ) r]
        exact abs_sub_le _ _ _
      linarith

-- both branches are inhabited
example : ∃ k : ℤ, (1 - (1 / 10 : ℝ)) * (41 / 10) ≤ k ∧ (k : ℝ) ≤ (1 + 1 / 10) * (41 / 10) :=
  ⟨4, by norm_num, by norm_num⟩
example : ¬ ∃ k : ℤ, (1 - (1 / 10 : ℝ)) * (3 / 2) ≤ k ∧ (k : ℝ) ≤ (1 + 1 / 10) * (3 / 2) := by
  rintro ⟨k, h1, h2⟩
  have a : (1 : ℝ) < k := by linarith
  have b : (k : ℝ) < 2 := by linarith
  have a' : 1 < k := by exact_mod_cast a
  have b' : k < 2 := by exact_mod_cast b
  omega

/-- Below `r = 1/2` the fallback size is `0`: the only "sublattice" is the zero matrix, and the
reduction of the normal forms raises. -/
theorem C42_size_zero_fails :
    sizes (1 / 10) (1 / 3) = [0] ∧ ∃ l, allHnfs 2 [0] = .ok l ∧
      reduceHnfs .py3 l rot4 = .error .valueError := by
  constructor
  · obtain ⟨k, hk, hn⟩ := (C42_sizes (1 / 10) (1 / 3)).2.2 (by
      rintro ⟨k, h1, h2⟩
      have a : (0 : ℝ) < k := by linarith
      have b : (k : ℝ) < 1 := by linarith
      have a' : 0 < k := by exact_mod_cast a
      have b' : k < 1 := by exact_mod_cast b
      omega)
    have h0 := hn 0
    rw [show |((0 : ℤ) : ℝ) - 1 / 3| = 1 / 3 by norm_num [abs_of_pos]] at h0
    have := abs_le.mp h0
    have a : (-1 : ℝ) < k := by linarith [this.1]
    have b : (k : ℝ) < 1 := by linarith [this.2]
    have a' : -1 < k := by exact_mod_cast a
    have b' : k < 1 := by exact_mod_cast b
    rw [hk, show k = 0 by omega]
  · exact ⟨[0], by decide +kernel, by decide +kernel⟩

/-! ## C67: the search space -/

theorem allHnfs_spec (N : ℕ) (vf : List ℤ) (hv : ∀ k ∈ vf, 0 < k) :
    ∃ l, allHnfs (N + 1) vf = .ok l ∧ ∀ H, H ∈ l ↔ IsHNF H ∧ H.det ∈ vf := by
  obtain ⟨ls, hls, hP⟩ := mapExcept_ok (f := fun i => hnfFromDet i (N + 1))
    (P := fun i l => ∀ H, H ∈ l ↔ IsHNF H ∧ H.det = i) vf (by
      intro i hi
      obtain ⟨l, hl, -, hm⟩ := hnfFromDet_spec i (hv i hi) N
      exact ⟨l, hl, hm⟩)
  refine ⟨ls.flatten, by simp [allHnfs, hls], ?_⟩
  clear hls hv
  induction hP with
  | nil => simp
  | cons hab _ ih =>
    intro H
    simp only [List.flatten_cons, List.mem_append, hab H, ih H, List.mem_cons]
    tauto

/-- C67: for a positive volume ratio whose window contains an integer (and a threshold below 1), the
list of normal forms that `lat_cor` searches contains, for every sublattice of `ℤ^N` whose index
lies in the window, exactly one normal form related to it by the symmetry group. -/
theorem C67_search_space (N : ℕ) (volTh r : ℝ) (hr : 0 < r) (hv : volTh < 1)
    (hw : ∃ k : ℤ, (1 - volTh) * r ≤ k ∧ (k : ℝ) ≤ (1 + volTh) * r)
    (lg : List (Matrix (Fin (N + 1)) (Fin (N + 1)) ℤ)) (hg : IsMatGroup lg) :
    ∃ l, allHnfs (N + 1) (sizes volTh r) = .ok l ∧ ∃ red, reduceHnfs .py3 l lg = .ok red ∧
      (∀ h ∈ red, IsHNF h ∧ (1 - volTh) * r ≤ h.det ∧ (h.det : ℝ) ≤ (1 + volTh) * r) ∧
      ∀ M : Matrix (Fin (N + 1)) (Fin (N + 1)) ℤ, (1 - volTh) * r ≤ |M.det| →
        ((|M.det| : ℤ) : ℝ) ≤ (1 + volTh) * r → ∃! h, h ∈ red ∧ SymRelated lg M h := by
  have hs := (C42_sizes volTh r).2.1 hw
  have hlow : 0 < (1 - volTh) * r := mul_pos (by linarith) hr
  have hpos : ∀ k ∈ sizes volTh r, 0 < k := by
    intro k hk
    have : (0 : ℝ) < k := lt_of_lt_of_le hlow ((hs k).mp hk).1
    exact_mod_cast this
  obtain ⟨l, hl, hmem⟩ := allHnfs_spec N _ hpos
  obtain ⟨red, hred, o1, o2, o3⟩ := C09_reduce_hnfs N l lg (fun h hh => ((hmem h).mp hh).1) hg
  refine ⟨l, hl, red, hred, ?_, ?_⟩
  · intro h hh
    have := (hmem h).mp (o1 h hh)
    exact ⟨this.1, (hs _).mp this.2⟩
  · intro M h1 h2
    have hM : M.det ≠ 0 := by
      intro h0
      rw [h0] at h1
      simp at h1
      linarith
    obtain ⟨H, L, -, -, h3, h4, h5⟩ := C05_hnfd N M hM
    have hdetH : H.det = |M.det| := by
      have hp : 0 < H.det := by
        rw [det_isHNF h3]
        exact Finset.prod_pos (fun i _ => h3.diag i)
      rw [← h5, Matrix.det_mul]
      rcases h4 with h | h <;> rw [h] <;> simp [abs_of_pos hp]
    have hHl : H ∈ l := (hmem H).mpr ⟨h3, by rw [hdetH]; exact (hs _).mpr ⟨by exact_mod_cast h1, h2⟩⟩
    obtain ⟨V, hV, hLV, -⟩ := unimodular_exists_inv h4
    have hMH : SymRelated lg M H :=
      ⟨1, hg.one_mem, V, hV, by rw [← h5, Matrix.one_mul, Matrix.mul_assoc, hLV, Matrix.mul_one]⟩
    obtain ⟨k, ⟨hk1, hk2⟩, hu⟩ := o3 H hHl
    refine ⟨k, ⟨hk1, symRelated_trans hg hMH hk2⟩, ?_⟩
    rintro y ⟨hy1, hy2⟩
    exact hu y ⟨hy1, symRelated_trans hg (symRelated_symm hg hMH) hy2⟩

example : (0 : ℝ) < 41 / 10 ∧ (1 / 10 : ℝ) < 1 := by norm_num

end Verif.Props
