import Mathlib.Tactic.Ring
import Mathlib.Tactic.Linarith
import Mathlib.Data.List.Nodup
import Mathlib.Data.List.OfFn
import Mathlib.Algebra.BigOperators.Fin
import Mathlib.LinearAlgebra.Matrix.Block
import Verif.Model.Hnf
import Verif.Spec.Hnf

/-! # Lemmas about the model of `divisors`, `hnf_from_diag` and `hnf_from_det` -/

namespace Verif.Lemmas

open Matrix Verif.Model Verif.Spec

/-! ### `divisors` -/

theorem mem_divisors {n : ℤ} (hn : 0 < n) (d : ℤ) : d ∈ divisors n ↔ 0 < d ∧ d ∣ n := by
  unfold divisors
  simp only [List.mem_append, List.mem_filter, List.mem_map, List.mem_range, List.mem_singleton,
    beq_iff_eq]
  constructor
  · rintro (⟨⟨i, hi, rfl⟩, h⟩ | rfl)
    · exact ⟨by omega, Int.dvd_of_emod_eq_zero h⟩
    · exact ⟨hn, dvd_refl _⟩
  · rintro ⟨hd, hdn⟩
    by_cases e : d = n
    · exact Or.inr e
    · left
      refine ⟨⟨(d - 1).toNat, ?_, by omega⟩, Int.emod_eq_zero_of_dvd hdn⟩
      obtain ⟨k, rfl⟩ := hdn
      have hk : 0 < k := by
        rcases lt_trichotomy k 0 with h | h | h
        · nlinarith
        · subst h; simp at hn
        · exact h
      have hk2 : 2 ≤ k := by
        rcases Nat.lt_or_ge 1 k.toNat with h | h
        · omega
        · have : k = 1 := by omega
          subst this
          simp at e
      have h2 : d * 2 ≤ d * k := mul_le_mul_of_nonneg_left hk2 hd.le
      have : d ≤ d * k / 2 := by
        rw [Int.le_ediv_iff_mul_le (by norm_num)]
        exact h2
      omega

theorem divisors_sorted {n : ℤ} (_hn : 0 < n) : (divisors n).Pairwise (· < ·) := by
  unfold divisors
  rw [List.pairwise_append]
  refine ⟨?_, by simp, ?_⟩
  · apply List.Pairwise.filter
    rw [List.pairwise_map]
    exact List.pairwise_lt_range.imp (fun h => by omega)
  · intro a ha b hb
    simp only [List.mem_filter, List.mem_map, List.mem_range, List.mem_singleton] at ha hb
    obtain ⟨⟨i, hi, rfl⟩, -⟩ := ha
    omega

theorem divisors_nonpos {n : ℤ} (hn : n ≤ 0) : divisors n = [n] := by
  unfold divisors
  have : (n / 2).toNat = 0 := by omega
  rw [this]
  simp

/-! ### `hnf_from_diag` -/

/-- The matrices reachable by the modifications `ms` from the diagonal. -/
def Reach {n : ℕ} (diag : Fin n → ℤ) (ms : List (Fin n × Fin n × ℤ)) (M : Matrix (Fin n) (Fin n) ℤ) :
    Prop :=
  (∀ i, M i i = diag i) ∧ ∀ i j, i ≠ j → M i j = 0 ∨ (i, j, M i j) ∈ ms

theorem setEntry_same {n : ℕ} (H : Matrix (Fin n) (Fin n) ℤ) (i j : Fin n) (v : ℤ) :
    setEntry H i j v i j = v := by simp [setEntry]

theorem setEntry_other {n : ℕ} (H : Matrix (Fin n) (Fin n) ℤ) (i j a b : Fin n) (v : ℤ)
    (h : ¬(a = i ∧ b = j)) : setEntry H i j v a b = H a b := by simp [setEntry, h]

theorem foldl_setIj {n : ℕ} (diag : Fin n → ℤ) (ms' : List (Fin n × Fin n × ℤ)) :
    ∀ (ms : List (Fin n × Fin n × ℤ)) (l : List (Matrix (Fin n) (Fin n) ℤ)),
      (ms ++ ms').Nodup → (∀ m ∈ ms', m.1 ≠ m.2.1 ∧ m.2.2 ≠ 0) →
      l.Nodup → (∀ M, M ∈ l ↔ Reach diag ms M) →
      (ms'.foldl setIj l).Nodup ∧ ∀ M, M ∈ ms'.foldl setIj l ↔ Reach diag (ms ++ ms') M := by
  induction ms' with
  | nil =>
    intro ms l _ _ hl hm
    simpa using ⟨hl, hm⟩
  | cons m ms' ih =>
    obtain ⟨i, j, v⟩ := m
    intro ms l hnd hne hl hm
    have hij := (hne (i, j, v) (by simp)).1
    have hv := (hne (i, j, v) (by simp)).2
    simp only at hij hv
    have hnot : (i, j, v) ∉ ms := by
      intro h
      have := (List.nodup_append.mp hnd).2.2 _ h (i, j, v) (by simp)
      exact this rfl
    have key := ih (ms ++ [(i, j, v)]) (setIj l (i, j, v)) (by simpa using hnd)
      (fun m hm => hne m (by simp [hm])) ?_ ?_
    · simpa using key
    · unfold setIj
      rw [List.nodup_append]
      refine ⟨hl, ?_, ?_⟩
      · apply List.Nodup.map_on _ (hl.filter _)
        intro A hA B hB hAB
        simp only [List.mem_filter, beq_iff_eq] at hA hB
        ext a b
        by_cases hab : a = i ∧ b = j
        · rw [hab.1, hab.2, hA.2, hB.2]
        · have := congrFun (congrFun hAB a) b
          simpa only [setEntry_other _ _ _ _ _ _ hab] using this
      · intro A hA B hB hAB
        subst hAB
        simp only [List.mem_map, List.mem_filter] at hB
        obtain ⟨B, -, rfl⟩ := hB
        have := ((hm _).mp hA).2 i j hij
        rw [setEntry_same] at this
        rcases this with h | h
        · exact hv h
        · exact hnot h
    · intro M
      unfold setIj
      simp only [List.mem_append, List.mem_map, List.mem_filter, beq_iff_eq]
      constructor
      · rintro (h | ⟨B, ⟨hB, hB0⟩, rfl⟩)
        · have := (hm M).mp h
          refine ⟨this.1, fun a b hab => (this.2 a b hab).imp_right (fun h => ?_)⟩
          simp [h]
        · have := (hm B).mp hB
          refine ⟨fun a => ?_, fun a b hab => ?_⟩
          · rw [setEntry_other _ _ _ _ _ _ (by rintro ⟨rfl, h⟩; exact hij h)]
            exact this.1 a
          · by_cases hc : a = i ∧ b = j
            · obtain ⟨rfl, rfl⟩ := hc
              right
              rw [setEntry_same]
              simp
            · rw [setEntry_other _ _ _ _ _ _ hc]
              exact (this.2 a b hab).imp_right (fun h => by simp [h])
      · rintro ⟨h1, h2⟩
        by_cases hc : M i j = v
        · right
          refine ⟨setEntry M i j 0, ⟨(hm _).mpr ⟨fun a => ?_, fun a b hab => ?_⟩, setEntry_same _ _ _ _⟩, ?_⟩
          · rw [setEntry_other _ _ _ _ _ _ (by rintro ⟨rfl, h⟩; exact hij h)]
            exact h1 a
          · by_cases hc' : a = i ∧ b = j
            · obtain ⟨rfl, rfl⟩ := hc'
              left
              exact setEntry_same _ _ _ _
            · rw [setEntry_other _ _ _ _ _ _ hc']
              refine (h2 a b hab).imp_right (fun h => ?_)
              simp only [List.mem_append, List.mem_singleton, Prod.mk.injEq] at h
              rcases h with h | h
              · exact h
              · exact absurd ⟨h.1, h.2.1⟩ hc'
          · ext a b
            by_cases hc' : a = i ∧ b = j
            · obtain ⟨rfl, rfl⟩ := hc'
              rw [setEntry_same, hc]
            · rw [setEntry_other _ _ _ _ _ _ hc', setEntry_other _ _ _ _ _ _ hc']
        · left
          refine (hm M).mpr ⟨h1, fun a b hab => (h2 a b hab).imp_right (fun h => ?_)⟩
          simp only [List.mem_append, List.mem_singleton, Prod.mk.injEq] at h
          rcases h with h | ⟨rfl, rfl, h⟩
          · exact h
          · exact absurd h hc

theorem mem_modifs {n : ℕ} (diag : Fin n → ℤ) (i j : Fin n) (v : ℤ) :
    (i, j, v) ∈ modifs diag ↔ j < i ∧ -diag i < v ∧ v < 0 := by
  unfold modifs
  simp only [List.mem_flatMap, List.mem_finRange, true_and, List.mem_filter, decide_eq_true_eq,
    List.mem_map, List.mem_range, Prod.mk.injEq]
  constructor
  · rintro ⟨i', j', hlt, d, hd, rfl, rfl, rfl⟩
    exact ⟨hlt, by omega, by omega⟩
  · rintro ⟨h, h1, h2⟩
    exact ⟨i, j, h, (-v - 1).toNat, by omega, rfl, rfl, by omega⟩

theorem modifs_nodup {n : ℕ} (diag : Fin n → ℤ) : (modifs diag).Nodup := by
  unfold modifs
  rw [List.nodup_flatMap]
  refine ⟨fun i _ => ?_, ?_⟩
  · rw [List.nodup_flatMap]
    refine ⟨fun j _ => ?_, ?_⟩
    · apply List.Nodup.map _ List.nodup_range
      intro a b h
      simp only [Prod.mk.injEq, true_and] at h
      omega
    · apply List.Pairwise.imp _ ((List.nodup_finRange n).filter _)
      intro a b hab x hx hy
      simp only [List.mem_map] at hx hy
      obtain ⟨d, -, rfl⟩ := hx
      obtain ⟨e, -, h⟩ := hy
      simp only [Prod.mk.injEq] at h
      exact hab h.2.1.symm
  · apply List.Pairwise.imp _ (List.nodup_finRange n)
    intro a b hab x hx hy
    simp only [List.mem_flatMap, List.mem_map] at hx hy
    obtain ⟨j, -, d, -, rfl⟩ := hx
    obtain ⟨k, -, e, -, h⟩ := hy
    simp only [Prod.mk.injEq] at h
    exact hab h.1.symm

theorem hnfFromDiag_spec {n : ℕ} (diag : Fin n → ℤ) :
    (hnfFromDiag diag).Nodup ∧ ∀ M, M ∈ hnfFromDiag diag ↔ Reach diag (modifs diag) M := by
  have := foldl_setIj diag (modifs diag) [] [Matrix.diagonal diag] (by simpa using modifs_nodup diag)
    ?_ (by simp) ?_
  · simpa [hnfFromDiag] using this
  · rintro ⟨i, j, v⟩ hm
    rw [mem_modifs] at hm
    exact ⟨hm.1.ne', by simp only; omega⟩
  · intro M
    simp only [List.mem_singleton, Reach, List.not_mem_nil, or_false]
    constructor
    · rintro rfl
      exact ⟨fun i => by simp, fun i j h => by simp [h]⟩
    · rintro ⟨h1, h2⟩
      ext i j
      by_cases h : i = j
      · subst h; simp [h1]
      · simp [h, h2 i j h]

theorem mem_hnfFromDiag {n : ℕ} (diag : Fin n → ℤ) (hd : ∀ i, 0 < diag i)
    (M : Matrix (Fin n) (Fin n) ℤ) :
    M ∈ hnfFromDiag diag ↔ IsHNF M ∧ ∀ i, M i i = diag i := by
  rw [(hnfFromDiag_spec diag).2]
  constructor
  · rintro ⟨h1, h2⟩
    refine ⟨⟨?_, ?_, ?_⟩, h1⟩
    · intro i j hij
      rcases h2 i j hij.ne with h | h
      · exact h
      · rw [mem_modifs] at h
        omega
    · intro i; rw [h1]; exact hd i
    · intro i j hij
      have := hd i
      rw [h1]
      rcases h2 i j hij.ne' with h | h
      · omega
      · rw [mem_modifs] at h
        omega
  · rintro ⟨h, h1⟩
    refine ⟨h1, fun i j hij => ?_⟩
    rcases lt_or_gt_of_ne hij with h' | h'
    · exact Or.inl (h.upper i j h')
    · have := h.lower i j h'
      rw [h1] at this
      rcases eq_or_lt_of_le this.2 with h0 | h0
      · exact Or.inl h0
      · exact Or.inr ((mem_modifs _ _ _ _).mpr ⟨h', this.1, h0⟩)

/-! ### `hnf_from_det` -/

theorem mem_itProd {α : Type} (l : List α) (N : ℕ) (d : Fin N → α) :
    d ∈ itProd l N ↔ ∀ i, d i ∈ l := by
  induction N with
  | zero =>
    simp only [itProd, List.mem_singleton]
    exact ⟨fun _ i => i.elim0, fun _ => funext fun i => i.elim0⟩
  | succ N ih =>
    simp only [itProd, List.mem_flatMap, List.mem_map]
    constructor
    · rintro ⟨a, ha, d', hd', rfl⟩ i
      refine Fin.cases ?_ (fun i => ?_) i
      · simpa using ha
      · simpa using (ih d').mp hd' i
    · intro h
      exact ⟨d 0, h 0, Fin.tail d, (ih _).mpr (fun i => h i.succ), Fin.cons_self_tail d⟩

theorem itProd_nodup {α : Type} (l : List α) (hl : l.Nodup) (N : ℕ) : (itProd l N).Nodup := by
  induction N with
  | zero => simp [itProd]
  | succ N ih =>
    simp only [itProd]
    rw [List.nodup_flatMap]
    refine ⟨fun a _ => List.Nodup.map (Fin.cons_right_injective (α := fun _ => α) a) ih, ?_⟩
    apply List.Pairwise.imp _ hl
    intro a b hab x hx hy
    simp only [List.mem_map] at hx hy
    obtain ⟨d, -, rfl⟩ := hx
    obtain ⟨e, -, h⟩ := hy
    exact hab (congrFun h 0).symm

theorem reduceMul_ofFn {N : ℕ} (d : Fin (N + 1) → ℤ) :
    reduceMul (List.ofFn d) = .ok (∏ i, d i) := by
  rw [List.ofFn_succ]
  simp only [reduceMul, Except.ok.injEq]
  rw [Fin.prod_univ_succ, ← List.prod_ofFn]
  generalize (List.ofFn fun i => d i.succ) = l
  generalize d 0 = a
  induction l generalizing a with
  | nil => simp
  | cons x xs ih => rw [List.foldl_cons, ih, List.prod_cons, mul_assoc]

theorem selectDiags_spec {N : ℕ} (n : ℤ) (ds : List (Fin (N + 1) → ℤ)) :
    selectDiags n ds = .ok (ds.filter (fun d => decide (∏ i, d i = n))) := by
  induction ds with
  | nil => rfl
  | cons d ds ih =>
    simp only [selectDiags, reduceMul_ofFn, ih, List.filter_cons,
      decide_eq_true_eq]

theorem det_isHNF {n : ℕ} {H : Matrix (Fin n) (Fin n) ℤ} (h : IsHNF H) : H.det = ∏ i, H i i := by
  apply Matrix.det_of_isLowerTriangular
  intro i j hij
  exact h.upper i j hij

theorem hnfFromDet_spec (n : ℤ) (hn : 0 < n) (N : ℕ) :
    ∃ l, hnfFromDet n (N + 1) = .ok l ∧ l.Nodup ∧ ∀ H, H ∈ l ↔ IsHNF H ∧ H.det = n := by
  have h0 : ¬ n < 0 := by omega
  have hds : ∀ d ∈ (itProd (divisors n) (N + 1)).filter (fun d => decide (∏ i, d i = n)),
      ∀ i, 0 < d i := by
    intro d hd i
    have := (mem_itProd _ _ _).mp (List.mem_filter.mp hd).1 i
    exact ((mem_divisors hn _).mp this).1
  refine ⟨((itProd (divisors n) (N + 1)).filter (fun d => decide (∏ i, d i = n))).flatMap
    hnfFromDiag, by simp only [hnfFromDet, h0, if_false, selectDiags_spec], ?_, ?_⟩
  · rw [List.nodup_flatMap]
    refine ⟨fun d _ => (hnfFromDiag_spec d).1, ?_⟩
    have hnd := (itProd_nodup (divisors n)
      ((divisors_sorted hn).imp (fun h => ne_of_lt h)) (N + 1)).filter
        (fun d => decide (∏ i, d i = n))
    apply List.Pairwise.imp _ hnd
    intro a b hab x hx hy
    apply hab
    funext i
    rw [← ((hnfFromDiag_spec a).2 x).mp hx |>.1 i, ((hnfFromDiag_spec b).2 x).mp hy |>.1 i]
  · intro H
    simp only [List.mem_flatMap]
    constructor
    · rintro ⟨d, hd, hH⟩
      have h1 := (mem_hnfFromDiag d (hds d hd) H).mp hH
      refine ⟨h1.1, ?_⟩
      rw [det_isHNF h1.1]
      simp only [h1.2]
      simpa using (List.mem_filter.mp hd).2
    · rintro ⟨h1, h2⟩
      refine ⟨fun i => H i i, ?_, (mem_hnfFromDiag _ (fun i => h1.diag i) H).mpr ⟨h1, fun _ => rfl⟩⟩
      rw [det_isHNF h1] at h2
      rw [List.mem_filter, mem_itProd]
      refine ⟨fun i => (mem_divisors hn _).mpr ⟨h1.diag i, ?_⟩, by simpa using h2⟩
      rw [← h2]
      exact Finset.dvd_prod_of_mem (fun i => H i i) (Finset.mem_univ i)

end Verif.Lemmas
