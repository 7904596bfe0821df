import Mathlib.Tactic.FinCases
import Mathlib.Tactic.Ring
import Verif.Lemmas.LatOpt

/-!
# C47: what the search tree reaches
-/

namespace Verif.Props

open Verif.Model Verif.Spec Verif.Lemmas Matrix

/-- `InTree L0 k E p g`: a node with element `E`, parent index `p` and grandparent index `g` occurs at
depth `k` of the tree of children (`generate_children`) below a source `L0` without parent. -/
inductive InTree (L0 : Z3) : ℕ → Z3 → Option (Fin 12) → Option (Fin 12) → Prop
  | root : InTree L0 0 L0 none none
  | child {k : ℕ} {E : Z3} {p g : Option (Fin 12)} {j : Fin 12} (h : InTree L0 k E p g)
      (hj : (j, E * transv j) ∈ SLNode.childList ⟨0, E, p, g⟩) :
      InTree L0 (k + 1) (E * transv j) (some j) p

theorem mem_childList_iff {E : Z3} {p g : Option (Fin 12)} {j : Fin 12} :
    (j, E * transv j) ∈ SLNode.childList ⟨0, E, p, g⟩ ↔ j ∈ gens p g := by
  simp [SLNode.childList]

/-- `1 + a e_i e_jᵀ`, with `(i, j)` the pair number `p`. -/
def shear (p : Fin 6) (a : ℤ) : Z3 := 1 + a • Matrix.single (onetotwo p).1 (onetotwo p).2 (1 : ℤ)

theorem onetotwo_ne : ∀ p, (onetotwo p).1 ≠ (onetotwo p).2 := by decide

theorem shear_add (p : Fin 6) (a b : ℤ) : shear p a * shear p b = shear p (a + b) := by
  unfold shear
  have h : Matrix.single (onetotwo p).1 (onetotwo p).2 (1 : ℤ) *
      Matrix.single (onetotwo p).1 (onetotwo p).2 (1 : ℤ) = 0 := by
    rw [Matrix.single_mul_single_of_ne]
    exact (onetotwo_ne p).symm
  rw [add_mul, mul_add, mul_add, Matrix.mul_one, Matrix.mul_one, Matrix.one_mul, Matrix.smul_mul,
    Matrix.mul_smul, h, smul_zero, smul_zero, add_zero, add_smul]
  abel

theorem shear_zero (p : Fin 6) : shear p 0 = 1 := by simp [shear]

theorem transv_lt : ∀ p : Fin 6, transv ⟨p.val, by omega⟩ = shear p 1 := by
  unfold shear; decide +kernel

theorem transv_ge : ∀ p : Fin 6, transv ⟨p.val + 6, by omega⟩ = shear p (-1) := by
  unfold shear; decide +kernel

/-- The product of shears in the order the tree uses. -/
def shears (x : Fin 6 → ℤ) : Z3 :=
  shear 5 (x 5) * shear 4 (x 4) * shear 3 (x 3) * shear 2 (x 2) * shear 1 (x 1) * shear 0 (x 0)

/-- multiplying by a shear that comes later in the order -/
theorem shears_mul (x : Fin 6 → ℤ) (q : Fin 6) (s : ℤ) (h : ∀ i, i < q → x i = 0) :
    shears x * shear q s = shears (Function.update x q (x q + s)) := by
  have h0 : ∀ i, i < q → shear i (x i) = 1 := fun i hi => by rw [h i hi, shear_zero]
  have hu : ∀ i, i < q → shear i (Function.update x q (x q + s) i) = 1 := fun i hi => by
    rw [Function.update_of_ne hi.ne, h i hi, shear_zero]
  have hv : ∀ i, q < i → shear i (Function.update x q (x q + s) i) = shear i (x i) := fun i hi => by
    rw [Function.update_of_ne hi.ne']
  have hw : shear q (Function.update x q (x q + s) q) = shear q (x q) * shear q s := by
    rw [Function.update_self, shear_add]
  unfold shears
  fin_cases q <;>
    simp only [Fin.zero_eta, Fin.mk_one, Fin.reduceFinMk] at h0 hu hv hw ⊢ <;>
    (try rw [h0 0 (by decide)]) <;> (try rw [h0 1 (by decide)]) <;> (try rw [h0 2 (by decide)]) <;>
    (try rw [h0 3 (by decide)]) <;> (try rw [h0 4 (by decide)]) <;>
    (try rw [hu 0 (by decide)]) <;> (try rw [hu 1 (by decide)]) <;> (try rw [hu 2 (by decide)]) <;>
    (try rw [hu 3 (by decide)]) <;> (try rw [hu 4 (by decide)]) <;>
    (try rw [hv 1 (by decide)]) <;> (try rw [hv 2 (by decide)]) <;>
    (try rw [hv 3 (by decide)]) <;> (try rw [hv 4 (by decide)]) <;> (try rw [hv 5 (by decide)]) <;>
    rw [hw] <;> simp only [Matrix.mul_assoc, Matrix.mul_one]

/-- The number of transvections used. -/
def size (x : Fin 6 → ℤ) : ℕ := ∑ i, (x i).natAbs

theorem size_update_le (x : Fin 6 → ℤ) (q : Fin 6) (y : ℤ) (h : y.natAbs ≤ (x q).natAbs + 1) :
    size (Function.update x q y) ≤ size x + 1 := by
  unfold size
  rw [← Finset.add_sum_erase _ _ (Finset.mem_univ q), ← Finset.add_sum_erase _ (fun i => (x i).natAbs)
    (Finset.mem_univ q)]
  have : ∑ i ∈ Finset.univ.erase q, (Function.update x q y i).natAbs =
      ∑ i ∈ Finset.univ.erase q, (x i).natAbs := by
    refine Finset.sum_congr rfl fun i hi => ?_
    rw [Function.update_of_ne (Finset.ne_of_mem_erase hi)]
  rw [this, Function.update_self]
  omega

/-- The children of a node with a parent use a pair not later in the order, and of the same pair only the
negative transvection. -/
theorem gens_some : ∀ (p j : Fin 12) (g : Option (Fin 12)), j ∈ gens (some p) g →
    mod6 j ≤ mod6 p ∧ (mod6 j = mod6 p → 6 ≤ j.val) := by
  decide +kernel

theorem transv_eq (j : Fin 12) : transv j = shear (mod6 j) (if j.val < 6 then 1 else -1) := by
  unfold shear; revert j; decide +kernel

/-- Every node of the tree is an ordered product of shears with exponents at most 1. -/
theorem inTree_shears {L0 : Z3} {k : ℕ} {E : Z3} {p g : Option (Fin 12)} (h : InTree L0 k E p g) :
    ∃ x : Fin 6 → ℤ, E = L0 * shears x ∧ (∀ i, x i ≤ 1) ∧ size x ≤ k ∧
      (p = none → x = 0) ∧ ∀ j, p = some j → ∀ i, i < mod6 j → x i = 0 := by
  induction h with
  | root =>
    refine ⟨0, ?_, by simp, by simp [size], fun _ => rfl, by simp⟩
    simp [shears, shear_zero]
  | child h hj ih =>
    rename_i k E p g j
    rw [mem_childList_iff] at hj
    obtain ⟨x, hx, h1, hs, hn, hp⟩ := ih
    have hz : ∀ i, i < mod6 j → x i = 0 := by
      intro i hi
      cases p with
      | none => rw [hn rfl]; rfl
      | some p => exact hp p rfl i (lt_of_lt_of_le hi (gens_some p j g hj).1)
    have hle : x (mod6 j) + (if j.val < 6 then 1 else -1) ≤ 1 := by
      split_ifs with h6
      · cases p with
        | none => rw [hn rfl]; simp
        | some p =>
          obtain ⟨a, b⟩ := gens_some p j g hj
          rcases a.lt_or_eq with a | a
          · rw [hp p rfl _ a]; simp
          · have := b a; omega
      · have := h1 (mod6 j); omega
    refine ⟨Function.update x (mod6 j) (x (mod6 j) + (if j.val < 6 then 1 else -1)), ?_, ?_, ?_, by simp,
      ?_⟩
    · rw [hx, transv_eq, Matrix.mul_assoc, shears_mul x _ _ hz]
    · intro i
      by_cases hi : i = mod6 j
      · rw [hi, Function.update_self]; exact hle
      · rw [Function.update_of_ne hi]; exact h1 i
    · refine (size_update_le x _ _ ?_).trans (by omega)
      split_ifs <;> omega
    · intro j' hj' i hi
      simp only [Option.some.injEq] at hj'
      subst hj'
      rw [Function.update_of_ne hi.ne]
      exact hz i hi

/-! ### conversely -/

/-- The last two indices are ordered as in the tree, and the last one is not before the pair `i`. -/
def Ordered (i : ℕ) : Option (Fin 12) → Option (Fin 12) → Prop
  | none, _ => True
  | some p, none => i ≤ (mod6 p).val
  | some p, some g => i ≤ (mod6 p).val ∧ mod6 p ≤ mod6 g

instance (i : ℕ) : ∀ p g, Decidable (Ordered i p g)
  | none, _ => isTrue trivial
  | some p, none => inferInstanceAs (Decidable (i ≤ (mod6 p).val))
  | some p, some g => inferInstanceAs (Decidable (i ≤ (mod6 p).val ∧ mod6 p ≤ mod6 g))

theorem gens_new : ∀ (i : Fin 6) (p g : Option (Fin 12)), Ordered (i.val + 1) p g →
    (⟨i.val, by omega⟩ : Fin 12) ∈ gens p g ∧ (⟨i.val + 6, by omega⟩ : Fin 12) ∈ gens p g ∧
    (∀ j : Fin 12, mod6 j = i → Ordered i.val (some j) p) := by
  decide +kernel

theorem gens_again : ∀ (i : Fin 6) (g : Option (Fin 12)),
    Ordered i.val (some ⟨i.val + 6, by omega⟩) g →
    (⟨i.val + 6, by omega⟩ : Fin 12) ∈ gens (some ⟨i.val + 6, by omega⟩) g := by
  decide +kernel

theorem ordered_mono {i j : ℕ} (h : i ≤ j) : ∀ {p g : Option (Fin 12)}, Ordered j p g → Ordered i p g
  | none, _, _ => trivial
  | some _, none, h' => le_trans h h'
  | some _, some _, h' => ⟨le_trans h h'.1, h'.2⟩

theorem mod6_plus : ∀ i : Fin 6, mod6 ⟨i.val + 6, by omega⟩ = i := by decide
theorem mod6_same : ∀ i : Fin 6, mod6 ⟨i.val, by omega⟩ = i := by decide

/-- a run of negative transvections of one pair -/
theorem inTree_neg {L0 : Z3} (i : Fin 6) : ∀ (n : ℕ) {k : ℕ} {E : Z3} {p g : Option (Fin 12)},
    InTree L0 k E p g → Ordered (i.val + 1) p g →
    ∃ g', InTree L0 (k + (n + 1)) (E * shear i (-((n : ℤ) + 1))) (some ⟨i.val + 6, by omega⟩) g' ∧
      Ordered i.val (some ⟨i.val + 6, by omega⟩) g' := by
  intro n
  induction n with
  | zero =>
    intro k E p g h ho
    obtain ⟨-, h2, h3⟩ := gens_new i p g ho
    refine ⟨p, ?_, h3 _ (mod6_plus i)⟩
    have := InTree.child h (mem_childList_iff.mpr h2)
    rw [transv_ge] at this
    simpa using this
  | succ n ih =>
    intro k E p g h ho
    obtain ⟨g', h1, h2⟩ := ih h ho
    have hg := gens_again i g' h2
    refine ⟨some ⟨i.val + 6, by omega⟩, ?_, ?_⟩
    · have := InTree.child h1 (mem_childList_iff.mpr hg)
      rw [transv_ge, Matrix.mul_assoc, shear_add] at this
      have e : -((n : ℤ) + 1) + -1 = -(((n + 1 : ℕ) : ℤ) + 1) := by push_cast; ring
      rw [e] at this
      exact this
    · refine ⟨?_, le_rfl⟩
      rw [mod6_plus]

/-- one factor -/
theorem inTree_block {L0 : Z3} (i : Fin 6) {a : ℤ} (ha : a ≤ 1) {k : ℕ} {E : Z3}
    {p g : Option (Fin 12)} (h : InTree L0 k E p g) (ho : Ordered (i.val + 1) p g) :
    ∃ p' g', InTree L0 (k + a.natAbs) (E * shear i a) p' g' ∧ Ordered i.val p' g' := by
  rcases lt_trichotomy a 0 with h0 | h0 | h0
  · obtain ⟨n, hn⟩ : ∃ n : ℕ, a = -((n : ℤ) + 1) := ⟨(-a - 1).toNat, by omega⟩
    obtain ⟨g', h1, h2⟩ := inTree_neg i n h ho
    refine ⟨_, g', ?_, h2⟩
    have e : a.natAbs = n + 1 := by omega
    rw [e, hn]; exact h1
  · subst h0
    refine ⟨p, g, ?_, ordered_mono (Nat.le_succ _) ho⟩
    rw [shear_zero, Matrix.mul_one]; exact h
  · have : a = 1 := by omega
    subst this
    obtain ⟨h1, -, h3⟩ := gens_new i p g ho
    refine ⟨_, p, ?_, h3 _ (mod6_same i)⟩
    have := InTree.child h (mem_childList_iff.mpr h1)
    rw [transv_lt] at this
    exact this

theorem inTree_of_shears (L0 : Z3) (x : Fin 6 → ℤ) (hx : ∀ i, x i ≤ 1) :
    ∃ p g, InTree L0 (size x) (L0 * shears x) p g := by
  obtain ⟨p5, g5, h5, o5⟩ := inTree_block 5 (hx 5) (InTree.root (L0 := L0)) trivial
  obtain ⟨p4, g4, h4, o4⟩ := inTree_block 4 (hx 4) h5 o5
  obtain ⟨p3, g3, h3, o3⟩ := inTree_block 3 (hx 3) h4 o4
  obtain ⟨p2, g2, h2, o2⟩ := inTree_block 2 (hx 2) h3 o3
  obtain ⟨p1, g1, h1, o1⟩ := inTree_block 1 (hx 1) h2 o2
  obtain ⟨p0, g0, h0, -⟩ := inTree_block 0 (hx 0) h1 o1
  refine ⟨p0, g0, ?_⟩
  have e1 : size x = 0 + (x 5).natAbs + (x 4).natAbs + (x 3).natAbs + (x 2).natAbs + (x 1).natAbs +
      (x 0).natAbs := by
    simp only [size, Fin.sum_univ_succ, Fin.sum_univ_zero]
    simp only [Fin.succ_zero_eq_one, Fin.succ_one_eq_two, Fin.reduceSucc]
    omega
  have e2 : L0 * shears x = L0 * shear 5 (x 5) * shear 4 (x 4) * shear 3 (x 3) * shear 2 (x 2) *
      shear 1 (x 1) * shear 0 (x 0) := by
    simp only [shears, Matrix.mul_assoc]
  rw [e1, e2]
  exact h0

/-- `1 + a e_i e_jᵀ`. -/
def elementary (i j : Fin 3) (a : ℤ) : Matrix (Fin 3) (Fin 3) ℤ := 1 + Matrix.single i j a

theorem shear_elementary (p : Fin 6) (a : ℤ) : shear p a = elementary (onetotwo p).1 (onetotwo p).2 a := by
  simp [shear, elementary, Matrix.smul_single]

/-- **C47** (partial): exactly which matrices the search tree below a source `L0` contains up to depth
`k`: the products of powers of the six elementary transvections in one fixed order, with exponents at
most 1 (arbitrarily negative) and at most `k` factors in total.  The other products of at most `k`
transvections are missing (`C47_square_fails`, `C47_order_fails`). -/
theorem C47_reached_iff_partial (L0 : Z3) (k : ℕ) (E : Z3) :
    (∃ k' ≤ k, ∃ p g, InTree L0 k' E p g) ↔
      ∃ a b c d e f : ℤ, (a ≤ 1 ∧ b ≤ 1 ∧ c ≤ 1 ∧ d ≤ 1 ∧ e ≤ 1 ∧ f ≤ 1) ∧
        |a| + |b| + |c| + |d| + |e| + |f| ≤ k ∧
        E = L0 * (elementary 2 1 a * elementary 2 0 b * elementary 1 2 c * elementary 1 0 d *
          elementary 0 2 e * elementary 0 1 f) := by
  constructor
  · rintro ⟨k', hk, p, g, h⟩
    obtain ⟨x, rfl, h1, h2, -⟩ := inTree_shears h
    refine ⟨x 5, x 4, x 3, x 2, x 1, x 0, ⟨h1 5, h1 4, h1 3, h1 2, h1 1, h1 0⟩, ?_, ?_⟩
    · simp only [size, Fin.sum_univ_succ, Fin.sum_univ_zero, Fin.succ_zero_eq_one, Fin.succ_one_eq_two,
        Fin.reduceSucc] at h2
      simp only [Int.abs_eq_natAbs]
      omega
    · simp only [shears, shear_elementary]
      rfl
  · rintro ⟨a, b, c, d, e, f, ⟨ha, hb, hc, hd, he, hf⟩, hs, rfl⟩
    obtain ⟨p, g, h⟩ := inTree_of_shears L0 ![f, e, d, c, b, a] (by
      intro i; fin_cases i <;> simpa)
    refine ⟨size ![f, e, d, c, b, a], ?_, p, g, ?_⟩
    · simp only [Int.abs_eq_natAbs] at hs
      simp only [size, Fin.sum_univ_succ, Fin.sum_univ_zero]
      simp
      omega
    · simp only [shears, shear_elementary] at h
      exact h

/-- the row 0 of a product in the tree -/
theorem row0 (a b c d e f : ℤ) :
    (elementary 2 1 a * elementary 2 0 b * elementary 1 2 c * elementary 1 0 d *
          elementary 0 2 e * elementary 0 1 f) 0 = ![1, f, e] := by
  funext j
  fin_cases j <;>
    simp [elementary, Matrix.mul_apply, Fin.sum_univ_three, Matrix.single_apply, Matrix.one_apply]

/-- C47 fails: the square of a transvection, a product of two transvections, is not in the tree at any
depth. -/
theorem C47_square_fails (k : ℕ) (p g : Option (Fin 12)) :
    ¬ InTree 1 k (elementary 0 1 1 * elementary 0 1 1) p g := by
  intro h
  obtain ⟨a, b, c, d, e, f, ⟨-, -, -, -, -, hf⟩, -, h⟩ :=
    (C47_reached_iff_partial 1 k _).mp ⟨k, le_rfl, p, g, h⟩
  have := congrFun (congrFun h 0) 1
  rw [Matrix.one_mul, row0] at this
  have e2 : (elementary 0 1 1 * elementary 0 1 1) 0 1 = 2 := by decide +kernel
  rw [e2] at this
  simp at this
  omega

/-- C47 fails: nor is the product of two different transvections in the wrong order. -/
theorem C47_order_fails (k : ℕ) (p g : Option (Fin 12)) :
    ¬ InTree 1 k (elementary 0 1 1 * elementary 1 0 1) p g := by
  intro h
  obtain ⟨a, b, c, d, e, f, -, -, h⟩ := (C47_reached_iff_partial 1 k _).mp ⟨k, le_rfl, p, g, h⟩
  have := congrFun (congrFun h 0) 0
  rw [Matrix.one_mul, row0] at this
  have e2 : (elementary 0 1 1 * elementary 1 0 1) 0 0 = 2 := by decide +kernel
  rw [e2] at this
  simp at this

/-- the inverse square is reached, at depth 2 -/
example : ∃ k' ≤ 2, ∃ p g, InTree 1 k' (elementary 0 1 (-1) * elementary 0 1 (-1)) p g :=
  (C47_reached_iff_partial 1 2 _).mpr ⟨0, 0, 0, 0, 0, -2, by simp, by simp, by decide +kernel⟩

end Verif.Props
