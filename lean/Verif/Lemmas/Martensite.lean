import Mathlib.Tactic.Linarith
import Mathlib.Data.List.Range
import Mathlib.Data.List.Nodup
import Mathlib.Data.List.Count
import Mathlib.Data.List.GetD
import Mathlib.Algebra.BigOperators.Group.List.Basic
import Verif.Model.Martensite
import Verif.Spec.MatGroup
import Verif.Spec.Variants

/-!
# Lemmas about the loop over the variants
-/

namespace Verif.Lemmas

open Matrix Verif.Model Verif.Spec

section Loop

open Classical

variable (t : Tol) (U : M3) (G : List M3)

/-- The matrix of index `i`. -/
noncomputable def orb (i : ℕ) : M3 := G.getD i 0 * U * (G.getD i 0)ᵀ

/-- The indices below `k` that lead to `V`. -/
noncomputable def fiber (k : ℕ) (V : M3) : List ℕ := (List.range k).filter fun i => decide (orb U G i = V)

theorem fiber_succ (k : ℕ) (V : M3) :
    fiber U G (k + 1) V = if orb U G k = V then fiber U G k V ++ [k] else fiber U G k V := by
  unfold fiber
  rw [List.range_succ, List.filter_append]
  split <;> simp_all

variable {t U G}

theorem addIndex_eq {us : List M3} {k : ℕ} (h : ∀ V ∈ us, allclose t V (orb U G k) ↔ orb U G k = V) :
    addIndex t (orb U G k) k us (us.map (fiber U G k)) =
      (us.map (fiber U G (k + 1)), decide (orb U G k ∉ us)) := by
  induction us with
  | nil => simp [addIndex]
  | cons V us ih =>
    have ih' := ih fun W hW => h W (List.mem_cons_of_mem _ hW)
    simp only [List.map_cons, addIndex, ih']
    rw [fiber_succ U G k V]
    have hV := h V List.mem_cons_self
    by_cases hc : orb U G k = V
    · rw [if_pos (hV.2 hc), if_pos hc]
      simp [hc]
    · rw [if_neg (fun h' => hc (hV.1 h')), if_neg hc]
      simp [List.mem_cons, hc]

/-- The state after the first `k` group elements. -/
structure LoopInv (U : M3) (G : List M3) (k : ℕ) (s : List M3 × List (List ℕ)) : Prop where
  idx : s.2 = s.1.map (fiber U G k)
  nodup : s.1.Nodup
  head : s.1.head? = some U
  mem : ∀ i < k, orb U G i ∈ s.1
  orbit : ∀ V ∈ s.1, V = U ∨ ∃ i < k, V = orb U G i

theorem step_inv {k : ℕ} (hk : k < G.length)
    (hsep : ∀ V, (V = U ∨ ∃ i < k, V = orb U G i) → (allclose t V (orb U G k) ↔ orb U G k = V))
    {s : List M3 × List (List ℕ)} (h : LoopInv U G k s) :
    LoopInv U G (k + 1) (variantStep t U s (k, G[k])) := by
  have hV : (G[k] * U * (G[k])ᵀ) = orb U G k := by
    unfold orb; rw [List.getD_eq_getElem _ _ hk]
  have ha := addIndex_eq (t := t) (us := s.1) (k := k) fun V hV => hsep V (h.orbit V hV)
  rw [← h.idx] at ha
  unfold variantStep
  simp only [hV, ha]
  by_cases hm : orb U G k ∈ s.1
  · rw [if_neg (by simpa using hm)]
    refine ⟨rfl, h.nodup, h.head, ?_, ?_⟩
    · intro i hi
      rcases Nat.lt_succ_iff_lt_or_eq.1 hi with h' | rfl
      · exact h.mem i h'
      · exact hm
    · intro V hV
      rcases h.orbit V hV with h' | ⟨i, hi, h'⟩
      · exact .inl h'
      · exact .inr ⟨i, by omega, h'⟩
  · rw [if_pos (by simpa using hm)]
    have hne : s.1 ≠ [] := by
      intro h0; have := h.head; rw [h0] at this; simp at this
    refine ⟨?_, ?_, ?_, ?_, ?_⟩
    · simp only [List.map_append, List.map_cons, List.map_nil]
      congr 2
      rw [fiber_succ, if_pos rfl]
      have : fiber U G k (orb U G k) = [] := by
        unfold fiber
        rw [List.filter_eq_nil_iff]
        intro i hi
        have := h.mem i (List.mem_range.1 hi)
        simp only [decide_eq_true_eq]
        intro h'
        rw [h'] at this
        exact hm this
      rw [this]; rfl
    · rw [List.nodup_append]
      exact ⟨h.nodup, List.nodup_singleton _, fun a ha b hb => by
        rw [List.mem_singleton.1 hb]; rintro rfl; exact hm ha⟩
    · rw [List.head?_append, h.head]; rfl
    · intro i hi
      rcases Nat.lt_succ_iff_lt_or_eq.1 hi with h' | rfl
      · exact List.mem_append_left _ (h.mem i h')
      · simp
    · intro V hV
      rcases List.mem_append.1 hV with h' | h'
      · rcases h.orbit V h' with h' | ⟨i, hi, h'⟩
        · exact .inl h'
        · exact .inr ⟨i, by omega, h'⟩
      · exact .inr ⟨k, by omega, List.mem_singleton.1 h'⟩

theorem loop_inv
    (hsep : ∀ k < G.length, ∀ V, (V = U ∨ ∃ i < k, V = orb U G i) →
      (allclose t V (orb U G k) ↔ orb U G k = V)) :
    LoopInv U G G.length (variantLoop t U G) := by
  have key : ∀ k, k ≤ G.length →
      LoopInv U G k (((G.take k).zipIdx.map Prod.swap).foldl (variantStep t U) ([U], [[]])) := by
    intro k
    induction k with
    | zero =>
      intro _
      refine ⟨?_, by simp, rfl, by simp, ?_⟩
      · simp [fiber]
      · intro V hV; left; simpa using hV
    | succ k ih =>
      intro hk
      have hk' : k < G.length := by omega
      rw [List.take_succ_eq_append_getElem hk', List.zipIdx_append, List.map_append, List.foldl_append]
      have hl : (G.take k).length = k := by simp; omega
      simp only [List.zipIdx_cons, List.zipIdx_nil, List.map_cons, List.map_nil, List.foldl_cons,
        List.foldl_nil, hl, Prod.swap, Nat.zero_add]
      exact step_inv hk' (hsep k hk') (ih (by omega))
  have := key G.length le_rfl
  rw [List.take_length] at this
  exact this

end Loop

/-! ### Counting -/

/-- Multiplying a group from the left permutes it. -/
theorem mul_perm {G : List M3} (hG : IsMatGroup G) (nG : G.Nodup) {P : M3} (hP : P ∈ G) :
    (G.map (P * ·)).Perm G := by
  obtain ⟨R, hR, hPR⟩ := hG.inv_mem P hP
  have hRP : R * P = 1 := mul_eq_one_comm.1 hPR
  refine (List.perm_ext_iff_of_nodup ?_ nG).2 ?_
  · refine nG.map ?_
    intro A B hAB
    have := congrArg (R * ·) hAB
    simpa only [← Matrix.mul_assoc, hRP, Matrix.one_mul] using this
  · intro A
    constructor
    · intro h
      obtain ⟨B, hB, rfl⟩ := List.mem_map.1 h
      exact hG.mul_mem P hP B hB
    · intro h
      refine List.mem_map.2 ⟨R * A, hG.mul_mem R hR A h, ?_⟩
      rw [← Matrix.mul_assoc, hPR, Matrix.one_mul]

open Classical in
theorem fiber_length (U V : M3) (G : List M3) :
    (fiber U G G.length V).length = G.countP fun Q => decide (Q * U * Qᵀ = V) := by
  unfold fiber
  rw [← List.countP_eq_length_filter]
  have : G = (List.range G.length).map fun i => G.getD i 0 := by
    apply List.ext_getElem
    · simp
    · intro i h1 h2
      simp [List.getElem?_eq_getElem h1]
  conv_rhs => rw [this]
  rw [List.countP_map]
  rfl

open Classical in
/-- As many group elements lead to a variant as fix the stretch. -/
theorem count_fiber {U : M3} {G : List M3} (hG : IsMatGroup G) (nG : G.Nodup)
    (hO : ∀ Q ∈ G, Q * Qᵀ = 1) {P : M3} (hP : P ∈ G) :
    (G.countP fun Q => decide (Q * U * Qᵀ = P * U * Pᵀ)) = G.countP fun Q => decide (Q * U * Qᵀ = U) := by
  rw [← (mul_perm hG nG hP).countP_eq, List.countP_map]
  congr 1
  funext Q
  simp only [Function.comp, decide_eq_decide]
  have h1 : Pᵀ * P = 1 := mul_eq_one_comm.1 (hO P hP)
  have e : P * Q * U * (P * Q)ᵀ = P * (Q * U * Qᵀ) * Pᵀ := by
    rw [Matrix.transpose_mul]; simp only [Matrix.mul_assoc]
  rw [e]
  constructor
  · intro h
    have := congrArg (fun X => Pᵀ * X * P) h
    simp only [Matrix.mul_assoc, h1, Matrix.mul_one] at this
    simp only [← Matrix.mul_assoc, h1, Matrix.one_mul] at this
    exact this
  · intro h; rw [h]

open Classical in
/-- The sizes of the fibres of distinct values add up. -/
theorem sum_fibers {α β : Type} [DecidableEq β] (f : α → β) (l : List α) (vs : List β) (nv : vs.Nodup)
    (h : ∀ a ∈ l, f a ∈ vs) : (vs.map fun v => l.countP fun a => decide (f a = v)).sum = l.length := by
  induction l with
  | nil => simp
  | cons a l ih =>
    have h1 := ih fun b hb => h b (List.mem_cons_of_mem _ hb)
    have ha := h a List.mem_cons_self
    simp only [List.countP_cons]
    rw [List.sum_map_add, h1, List.length_cons]
    congr 1
    have h2 : ∀ (vs : List β), vs.Nodup → f a ∈ vs →
        (vs.map fun v => if decide (f a = v) = true then 1 else 0).sum = 1 := by
      intro vs
      induction vs with
      | nil => intro _ h; simp at h
      | cons v vs ih =>
        intro hn hm
        rw [List.nodup_cons] at hn
        simp only [List.map_cons, List.sum_cons]
        by_cases hv : f a = v
        · have : (vs.map fun v => if decide (f a = v) = true then 1 else 0).sum = 0 := by
            rw [List.sum_eq_zero_iff]
            intro x hx
            obtain ⟨w, hw, rfl⟩ := List.mem_map.1 hx
            rw [if_neg]
            simp only [decide_eq_true_eq]
            rintro rfl
            exact hn.1 (hv ▸ hw)
          rw [this]; simp [hv]
        · rw [if_neg (by simpa using hv), ih hn.2 ((List.mem_cons.1 hm).resolve_left hv)]
    exact h2 vs nv ha

/-- The variants computed with reliable comparisons. -/
theorem variants_spec {t : Tol} {U : M3} {G : List M3} (hG : IsMatGroup G) (nG : G.Nodup)
    (hO : ∀ Q ∈ G, Q * Qᵀ = 1)
    (hsep : ∀ P ∈ G, ∀ Q ∈ G, allclose t (P * U * Pᵀ) (Q * U * Qᵀ) ↔ P * U * Pᵀ = Q * U * Qᵀ) :
    AreVariants U G (variantLoop t U G).1 (variantLoop t U G).2 := by
  classical
  have hU : U = (1 : M3) * U * (1 : M3)ᵀ := by simp
  have hget : ∀ i < G.length, G.getD i 0 ∈ G := by
    intro i hi; rw [List.getD_eq_getElem _ _ hi]; exact List.getElem_mem hi
  have hinv : LoopInv U G G.length (variantLoop t U G) := by
    refine loop_inv ?_
    intro k hk V hV
    have : ∃ P ∈ G, V = P * U * Pᵀ := by
      rcases hV with rfl | ⟨i, hi, rfl⟩
      · exact ⟨1, hG.one_mem, hU⟩
      · exact ⟨_, hget i (by omega), rfl⟩
    obtain ⟨P, hP, rfl⟩ := this
    rw [eq_comm (a := orb U G k)]
    exact hsep P hP _ (hget k hk)
  have horb : ∀ V, V ∈ (variantLoop t U G).1 ↔ ∃ Q ∈ G, V = Q * U * Qᵀ := by
    intro V
    constructor
    · intro hV
      rcases hinv.orbit V hV with rfl | ⟨i, hi, rfl⟩
      · exact ⟨1, hG.one_mem, hU⟩
      · exact ⟨_, hget i hi, rfl⟩
    · rintro ⟨Q, hQ, rfl⟩
      obtain ⟨i, hi, rfl⟩ := List.getElem_of_mem hQ
      have := hinv.mem i hi
      unfold orb at this
      rwa [List.getD_eq_getElem _ _ hi] at this
  have hlen : ∀ V ∈ (variantLoop t U G).1, (fiber U G G.length V).length =
      G.countP fun Q => decide (Q * U * Qᵀ = U) := by
    intro V hV
    obtain ⟨P, hP, rfl⟩ := (horb V).1 hV
    rw [fiber_length, count_fiber hG nG hO hP]
  refine ⟨hinv.head, hinv.nodup, horb, by rw [hinv.idx, List.length_map], ?_, ?_⟩
  · intro j V l hV hl
    rw [hinv.idx, List.getElem?_map, hV] at hl
    simp only [Option.map_some, Option.some.injEq] at hl
    subst hl
    refine ⟨List.pairwise_lt_range.filter _, ?_⟩
    intro i
    unfold fiber
    rw [List.mem_filter, List.mem_range, decide_eq_true_eq]
    constructor
    · rintro ⟨hi, h⟩
      refine ⟨G[i], List.getElem?_eq_getElem hi, ?_⟩
      unfold orb at h
      rwa [List.getD_eq_getElem _ _ hi] at h
    · rintro ⟨Q, hQ, h⟩
      obtain ⟨hi, rfl⟩ := List.getElem?_eq_some_iff.1 hQ
      refine ⟨hi, ?_⟩
      unfold orb
      rwa [List.getD_eq_getElem _ _ hi]
  · intro l hl
    rw [hinv.idx] at hl
    obtain ⟨V, hV, rfl⟩ := List.mem_map.1 hl
    have hsum := sum_fibers (fun Q : M3 => Q * U * Qᵀ) G (variantLoop t U G).1 hinv.nodup
      (fun Q hQ => (horb _).2 ⟨Q, hQ, rfl⟩)
    rw [hlen V hV]
    rw [← hsum]
    have : ((variantLoop t U G).1.map fun v => G.countP fun Q => decide (Q * U * Qᵀ = v)) =
        (variantLoop t U G).1.map fun _ => G.countP fun Q => decide (Q * U * Qᵀ = U) := by
      refine List.map_congr_left fun W hW => ?_
      rw [← hlen W hW, fiber_length]
    rw [this, List.map_const', List.sum_replicate, smul_eq_mul]

end Verif.Lemmas
