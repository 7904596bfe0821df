import Verif.Spec.TopN
import Mathlib.Data.Finset.Max
import Mathlib.Data.List.Perm.Subperm
import Mathlib.Data.List.Sort

/-! # Lemmas about `topN` and about sorted insertion and truncation -/

namespace Verif.Lemmas

open Verif.Spec

variable {β D : Type} [DecidableEq β] [LinearOrder D]

theorem mem_topN {n : ℕ} {S : Finset (β × D)} {x : β × D} :
    x ∈ topN n S ↔ x ∈ S ∧ (S.filter (fun y => y.2 < x.2)).card < n := by
  simp [topN]

theorem topN_subset (n : ℕ) (S : Finset (β × D)) : topN n S ⊆ S := Finset.filter_subset _ _

/-- If `S` has at least `n` members below `x`, and `T` contains `topN n S`, so has `T`. -/
theorem count_topN {n : ℕ} {S T : Finset (β × D)} (hT : topN n S ⊆ T) {R : Finset (β × D)}
    (hR : R ⊆ S ∪ T) (x : D) (h : n ≤ (R.filter (fun y => y.2 < x)).card) :
    n ≤ (T.filter (fun y => y.2 < x)).card := by
  by_cases hsub : R.filter (fun y => y.2 < x) ⊆ T
  · refine h.trans (Finset.card_le_card ?_)
    intro y hy
    exact Finset.mem_filter.mpr ⟨hsub hy, (Finset.mem_filter.mp hy).2⟩
  · -- a member of `S` below `x` that is not in `T`, with minimal score
    have hne : (S.filter (fun y => y.2 < x ∧ y ∉ T)).Nonempty := by
      rw [Finset.not_subset] at hsub
      obtain ⟨y, hy, hyT⟩ := hsub
      rw [Finset.mem_filter] at hy
      refine ⟨y, Finset.mem_filter.mpr ⟨?_, hy.2, hyT⟩⟩
      rcases Finset.mem_union.mp (hR hy.1) with h' | h'
      · exact h'
      · exact absurd h' hyT
    obtain ⟨y0, hy0, hmin⟩ := Finset.exists_min_image _ (fun y => y.2) hne
    rw [Finset.mem_filter] at hy0
    have hcount : n ≤ (S.filter (fun y => y.2 < y0.2)).card := by
      by_contra hlt
      exact hy0.2.2 (hT (mem_topN.mpr ⟨hy0.1, by omega⟩))
    refine hcount.trans (Finset.card_le_card ?_)
    intro y hy
    rw [Finset.mem_filter] at hy
    have hyx : y.2 < x := hy.2.trans hy0.2.1
    refine Finset.mem_filter.mpr ⟨?_, hyx⟩
    by_contra hyT
    exact absurd (hmin y (Finset.mem_filter.mpr ⟨hy.1, hyx, hyT⟩)) (not_le.mpr hy.2)

theorem topN_card {n : ℕ} {S : Finset (β × D)} (h : n ≤ S.card) : n ≤ (topN n S).card := by
  by_cases hsub : S ⊆ topN n S
  · exact h.trans (Finset.card_le_card hsub)
  · rw [Finset.not_subset] at hsub
    obtain ⟨x, hx, hnot⟩ := hsub
    have hc : n ≤ (S.filter (fun y => y.2 < x.2)).card := by
      by_contra h'
      exact hnot (mem_topN.mpr ⟨hx, by omega⟩)
    exact (count_topN (T := topN n S) (Finset.Subset.refl _) (R := S) Finset.subset_union_left
      x.2 hc).trans (Finset.card_le_card (Finset.filter_subset _ _))

/-- Any set between `topN n (S ∪ S')` and `S ∪ S'` made of `topN` parts has the same `topN`. -/
theorem topN_union (n : ℕ) (S C : Finset (β × D)) :
    topN n (topN n S ∪ C) = topN n (S ∪ C) := by
  ext x
  rw [mem_topN, mem_topN]
  constructor
  · rintro ⟨hx, hc⟩
    refine ⟨Finset.union_subset_union_left (topN_subset n S) hx, ?_⟩
    by_contra hge
    have := count_topN (T := topN n S ∪ C) Finset.subset_union_left
      (R := S ∪ C) (by
        intro y hy
        rcases Finset.mem_union.mp hy with h | h
        · exact Finset.mem_union_left _ h
        · exact Finset.mem_union_right _ (Finset.mem_union_right _ h)) x.2 (not_lt.mp hge)
    omega
  · rintro ⟨hx, hc⟩
    refine ⟨?_, lt_of_le_of_lt (Finset.card_le_card (Finset.filter_subset_filter _
      (Finset.union_subset_union_left (topN_subset n S)))) hc⟩
    rcases Finset.mem_union.mp hx with h | h
    · refine Finset.mem_union_left _ (mem_topN.mpr ⟨h, lt_of_le_of_lt (Finset.card_le_card
        (Finset.filter_subset_filter _ Finset.subset_union_left)) hc⟩)
    · exact Finset.mem_union_right _ h

theorem topN_idem (n : ℕ) (S : Finset (β × D)) : topN n (topN n S) = topN n S := by
  have := topN_union n S ∅
  simpa using this

/-- Items that already have `n` strictly better ones may be dropped. -/
theorem topN_union_of_worse (n : ℕ) (S C : Finset (β × D))
    (h : ∀ x ∈ C, n ≤ (S.filter (fun y => y.2 < x.2)).card) : topN n (S ∪ C) = topN n S := by
  ext x
  rw [mem_topN, mem_topN]
  constructor
  · rintro ⟨hx, hc⟩
    have hle : (S.filter (fun y => y.2 < x.2)).card ≤ ((S ∪ C).filter (fun y => y.2 < x.2)).card :=
      Finset.card_le_card (Finset.filter_subset_filter _ Finset.subset_union_left)
    refine ⟨?_, lt_of_le_of_lt hle hc⟩
    rcases Finset.mem_union.mp hx with h' | h'
    · exact h'
    · have := h x h'; omega
  · rintro ⟨hx, hc⟩
    refine ⟨Finset.mem_union_left _ hx, ?_⟩
    have : (S ∪ C).filter (fun y => y.2 < x.2) = S.filter (fun y => y.2 < x.2) := by
      ext y
      simp only [Finset.mem_filter, Finset.mem_union]
      constructor
      · rintro ⟨h1 | h1, h2⟩
        · exact ⟨h1, h2⟩
        · exfalso
          have h3 := h y h1
          have h4 : (S.filter (fun z => z.2 < y.2)).card ≤ (S.filter (fun z => z.2 < x.2)).card :=
            Finset.card_le_card (fun z hz => by
              rw [Finset.mem_filter] at hz ⊢
              exact ⟨hz.1, hz.2.trans h2⟩)
          omega
      · rintro ⟨h1, h2⟩
        exact ⟨Or.inl h1, h2⟩
    rw [this]
    exact hc

/-- A set with at most `n` members is its own `topN`. -/
theorem topN_of_card_le {n : ℕ} {S : Finset (β × D)} (h : S.card ≤ n) : topN n S = S := by
  ext x
  rw [mem_topN]
  refine ⟨fun h => h.1, fun hx => ⟨hx, ?_⟩⟩
  refine lt_of_lt_of_le (Finset.card_lt_card ?_) h
  refine ⟨Finset.filter_subset _ _, fun hsub => ?_⟩
  have := hsub hx
  rw [Finset.mem_filter] at this
  exact lt_irrefl _ this.2

/-! ### sorted lists -/

variable {σ : Type} (key : σ → D)

/-- Insert before the first entry that is not smaller. -/
def insertLeft (s : σ) (l : List σ) : List σ :=
  l.takeWhile (fun x => decide (key x < key s)) ++ s :: l.dropWhile (fun x => decide (key x < key s))

theorem insertLeft_perm (s : σ) (l : List σ) : (insertLeft key s l).Perm (s :: l) := by
  unfold insertLeft
  refine List.perm_middle.trans ?_
  rw [List.takeWhile_append_dropWhile]

theorem insertLeft_length (s : σ) (l : List σ) : (insertLeft key s l).length = l.length + 1 := by
  rw [(insertLeft_perm key s l).length_eq]; simp

theorem insertLeft_sorted (s : σ) (l : List σ) (hl : l.Pairwise (fun a b => key a ≤ key b)) :
    (insertLeft key s l).Pairwise (fun a b => key a ≤ key b) := by
  unfold insertLeft
  rw [List.pairwise_append]
  have h1 := List.Pairwise.sublist (List.takeWhile_sublist (fun x => decide (key x < key s))) hl
  have h2 := List.Pairwise.sublist (List.dropWhile_sublist (fun x => decide (key x < key s))) hl
  have h3 : ∀ a ∈ l.takeWhile (fun x => decide (key x < key s)), key a < key s := by
    intro a ha
    have := List.all_takeWhile (p := fun x => decide (key x < key s)) (l := l)
    rw [List.all_eq_true] at this
    simpa using this a ha
  have h4 : ∀ b ∈ l.dropWhile (fun x => decide (key x < key s)), key s ≤ key b := by
    intro b hb
    cases hd : l.dropWhile (fun x => decide (key x < key s)) with
    | nil => rw [hd] at hb; simp at hb
    | cons c cs =>
      have hc : key s ≤ key c := by
        have := List.head?_dropWhile_not (fun x => decide (key x < key s)) l
        rw [hd] at this
        simpa using this
      rw [hd] at hb h2
      rw [List.pairwise_cons] at h2
      rcases List.mem_cons.mp hb with rfl | hb
      · exact hc
      · exact hc.trans (h2.1 b hb)
  refine ⟨h1, ?_, ?_⟩
  · rw [List.pairwise_cons]
    exact ⟨h4, h2⟩
  · intro a ha b hb
    rcases List.mem_cons.mp hb with rfl | hb
    · exact (h3 a ha).le
    · exact ((h3 a ha).trans_le (h4 b hb)).le

/-- Drop the entries worse than the `n`-th. -/
def truncN (n : ℕ) (l : List σ) : List σ :=
  if n < l.length then
    match l[n - 1]? with
    | some r => l.filter (fun x => decide (key x ≤ key r))
    | none => l
  else l

theorem truncN_sublist (n : ℕ) (l : List σ) : (truncN key n l).Sublist l := by
  unfold truncN
  split_ifs
  · split
    · exact List.filter_sublist
    · exact List.Sublist.refl _
  · exact List.Sublist.refl _

/-- In a sorted list, being at most as large as the `n`-th entry means having fewer than `n`
strictly smaller entries. -/
theorem sorted_count {n : ℕ} (hn : 1 ≤ n) (l : List σ) (hl : l.Pairwise (fun a b => key a ≤ key b))
    (h : n - 1 < l.length) (x : σ) :
    key x ≤ key l[n - 1] ↔ (l.filter (fun y => decide (key y < key x))).length < n := by
  have hg : ∀ i j (hi : i < l.length) (hj : j < l.length), i ≤ j → key l[i] ≤ key l[j] := by
    intro i j hi hj hij
    rcases Nat.lt_or_eq_of_le hij with h' | h'
    · exact List.pairwise_iff_getElem.mp hl i j hi hj h'
    · subst h'; exact le_rfl
  constructor
  · intro hx
    have e : l.filter (fun y => decide (key y < key x))
        = (l.take (n - 1)).filter (fun y => decide (key y < key x)) := by
      conv_lhs => rw [← List.take_append_drop (n - 1) l]
      rw [List.filter_append]
      have : (l.drop (n - 1)).filter (fun y => decide (key y < key x)) = [] := by
        rw [List.filter_eq_nil_iff]
        intro y hy
        simp only [decide_eq_true_eq, not_lt]
        obtain ⟨i, hi, rfl⟩ := List.mem_iff_getElem.mp hy
        rw [List.getElem_drop]
        refine hx.trans (hg _ _ _ _ (by omega))
      rw [this, List.append_nil]
    rw [e]
    refine lt_of_le_of_lt (List.length_filter_le _ _) ?_
    rw [List.length_take]
    omega
  · intro hc
    by_contra hx
    rw [not_le] at hx
    have : ((l.take n).filter (fun y => decide (key y < key x))).length ≤
        (l.filter (fun y => decide (key y < key x))).length :=
      List.Sublist.length_le ((List.take_sublist n l).filter _)
    have e : (l.take n).filter (fun y => decide (key y < key x)) = l.take n := by
      rw [List.filter_eq_self]
      intro y hy
      simp only [decide_eq_true_eq]
      obtain ⟨i, hi, rfl⟩ := List.mem_iff_getElem.mp hy
      rw [List.getElem_take]
      refine lt_of_le_of_lt (hg _ _ _ _ ?_) hx
      rw [List.length_take] at hi
      omega
    rw [e, List.length_take] at this
    omega

/-- Truncation of a sorted list of distinct classes computes `topN`. -/
theorem truncN_topN {n : ℕ} (hn : 1 ≤ n) (l : List σ)
    (hl : l.Pairwise (fun a b => key a ≤ key b)) (c : σ → β × D) (hc : ∀ s, (c s).2 = key s)
    (hnd : (l.map c).Nodup) :
    ((truncN key n l).map c).toFinset = topN n (l.map c).toFinset := by
  have hcount : ∀ x : D, ((l.map c).toFinset.filter (fun y => y.2 < x)).card
      = (l.filter (fun y => decide (key y < x))).length := by
    intro x
    have e : (l.map c).toFinset.filter (fun y => y.2 < x)
        = ((l.map c).filter (fun y => decide (y.2 < x))).toFinset := by
      ext y; simp
    rw [e, List.toFinset_card_of_nodup (hnd.filter _)]
    rw [List.filter_map, List.length_map]
    congr 1
    apply List.filter_congr
    intro y _
    simp [hc]
  unfold truncN
  split_ifs with h
  · have h' : n - 1 < l.length := by omega
    rw [List.getElem?_eq_getElem h']
    simp only
    ext x
    rw [mem_topN, hcount]
    simp only [List.mem_toFinset, List.mem_map, List.mem_filter, decide_eq_true_eq]
    constructor
    · rintro ⟨s, ⟨hs, hk⟩, rfl⟩
      refine ⟨⟨s, hs, rfl⟩, ?_⟩
      rw [hc]
      exact (sorted_count key hn l hl h' s).mp hk
    · rintro ⟨⟨s, hs, rfl⟩, hk⟩
      rw [hc] at hk
      exact ⟨s, ⟨hs, (sorted_count key hn l hl h' s).mpr hk⟩, rfl⟩
  · symm
    apply topN_of_card_le
    refine (List.toFinset_card_le _).trans ?_
    rw [List.length_map]
    omega

theorem truncN_length {n : ℕ} (hn : 1 ≤ n) (l : List σ) 
    (hl : l.Pairwise (fun a b => key a ≤ key b)) (h : n ≤ l.length) :
    n ≤ (truncN key n l).length := by
  unfold truncN
  split_ifs with h1
  · have h' : n - 1 < l.length := by omega
    rw [List.getElem?_eq_getElem h']
    simp only
    have : (l.take n).filter (fun x => decide (key x ≤ key l[n - 1])) = l.take n := by
      rw [List.filter_eq_self]
      intro y hy
      simp only [decide_eq_true_eq]
      obtain ⟨i, hi, rfl⟩ := List.mem_iff_getElem.mp hy
      rw [List.getElem_take]
      rw [List.length_take] at hi
      rcases Nat.lt_or_ge i (n - 1) with h2 | h2
      · exact List.pairwise_iff_getElem.mp hl i (n - 1) _ _ h2
      · have : i = n - 1 := by omega
        subst this; exact le_rfl
    have h3 : ((l.take n).filter (fun x => decide (key x ≤ key l[n - 1]))).length ≤
        (l.filter (fun x => decide (key x ≤ key l[n - 1]))).length :=
      List.Sublist.length_le ((List.take_sublist n l).filter _)
    rw [this, List.length_take] at h3
    omega
  · exact h

/-- Two sorted lists of distinct classes with the same set of classes have the same scores. -/
theorem sorted_keys_unique (l l' : List σ)
    (hl : l.Pairwise (fun a b => key a ≤ key b)) (hl' : l'.Pairwise (fun a b => key a ≤ key b))
    (c : σ → β × D) (hc : ∀ s, (c s).2 = key s)
    (hnd : (l.map c).Nodup) (hnd' : (l'.map c).Nodup)
    (h : (l.map c).toFinset = (l'.map c).toFinset) : l.map key = l'.map key := by
  have hp : (l.map c).Perm (l'.map c) := by
    rw [List.perm_ext_iff_of_nodup hnd hnd']
    intro a
    rw [← List.mem_toFinset, h, List.mem_toFinset]
  have e : ∀ m : List σ, (m.map c).map Prod.snd = m.map key := by
    intro m
    rw [List.map_map]
    apply List.map_congr_left
    intro a _
    exact hc a
  have hp2 : (l.map key).Perm (l'.map key) := by
    rw [← e, ← e]
    exact hp.map _
  apply List.Perm.eq_of_pairwise (le := fun a b => a ≤ b) _ _ _ hp2
  · intro a b _ _ h1 h2
    exact le_antisymm h1 h2
  · rw [List.pairwise_map]; exact hl
  · rw [List.pairwise_map]; exact hl'

end Verif.Lemmas
