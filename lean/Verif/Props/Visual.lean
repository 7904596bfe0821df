import Mathlib.Data.Fintype.Powerset
import Mathlib.Tactic.Ring
import Mathlib.Data.Sym.Sym2
import Mathlib.Tactic.NormNum
import Mathlib.Tactic.FinCases
import Mathlib.Data.Fin.VecNotation
import Mathlib.LinearAlgebra.Matrix.Notation
import Verif.Model.Visual
import Verif.Spec.Visual

/-!
# C63: `vertex` and `bonds`
-/

namespace Verif.Props

open Verif.Model Verif.Spec

theorem vertex3 (o : Fin 3 → ℝ) (E : Matrix (Fin 3) (Fin 3) ℝ) : vertex o E 3 = .ok (some
    ([∅, {0}, {1}, {2}, {0, 1}, {1, 2}, {0, 2}, {0, 1, 2}].map (corner o E))) := by
  unfold vertex
  rw [if_pos rfl, dif_pos ⟨rfl, rfl, rfl⟩]
  simp only [List.map_cons, List.map_nil, Except.ok.injEq, Option.some.injEq, List.cons.injEq, and_true]
  refine ⟨?_, ?_, ?_, ?_, ?_, ?_, ?_, ?_⟩ <;> funext j <;> simp [corner, Fin.cast, add_assoc]

/-- **C63**, three dimensions: `vertex` lists every one of the 8 corners exactly once, the origin
first. -/
theorem C63_vertex_3d (o : Fin 3 → ℝ) (E : Matrix (Fin 3) (Fin 3) ℝ) :
    ∃ L : List (Finset (Fin 3)), L.Nodup ∧ (∀ S, S ∈ L) ∧ L.length = 8 ∧ L.head? = some ∅ ∧
      vertex o E 3 = .ok (some (L.map (corner o E))) := by
  refine ⟨[∅, {0}, {1}, {2}, {0, 1}, {1, 2}, {0, 2}, {0, 1, 2}], by decide, by decide, rfl, rfl, ?_⟩
  exact vertex3 o E

/-- **C63**, two dimensions. -/
theorem C63_vertex_2d (o : Fin 2 → ℝ) (E : Matrix (Fin 2) (Fin 2) ℝ) :
    ∃ L : List (Finset (Fin 2)), L.Nodup ∧ (∀ S, S ∈ L) ∧ L.length = 4 ∧ L.head? = some ∅ ∧
      vertex o E 2 = .ok (some (L.map (corner o E))) := by
  refine ⟨[∅, {0}, {1}, {0, 1}], by decide, by decide, rfl, rfl, ?_⟩
  unfold vertex
  rw [if_neg (by decide), if_pos rfl, dif_pos ⟨rfl, rfl, rfl⟩]
  simp only [List.map_cons, List.map_nil, Except.ok.injEq, Option.some.injEq, List.cons.injEq, and_true]
  refine ⟨?_, ?_, ?_, ?_⟩ <;> funext j <;> simp [corner, Fin.cast, add_assoc]

/-- **C63**.  Wrong shapes give `None` and other dimensions an error. -/
theorem C63_vertex_errors {k r c : ℕ} (o : Fin k → ℝ) (E : Matrix (Fin r) (Fin c) ℝ) (n : ℤ) :
    (n ≠ 2 → n ≠ 3 → vertex o E n = .error .visualError) ∧
    (n = 2 ∨ n = 3 → ((r : ℤ) ≠ n ∨ (c : ℤ) ≠ n ∨ (k : ℤ) ≠ n) → vertex o E n = .ok none) := by
  constructor
  · intro h2 h3; simp [vertex, h2, h3]
  · rintro (rfl | rfl) h
    · unfold vertex
      rw [if_neg (by decide), if_pos rfl, dif_neg (by omega)]
    · unfold vertex
      rw [if_pos rfl, dif_neg (by omega)]

/-- **C63** (partial), three dimensions: applied to the list of corners, `bonds` returns 12 pairs of
corners.  Each pair consists of two corners that differ by exactly one edge vector, no edge of the cell
is listed twice, every edge is listed, and each edge vector occurs four times.  Missing: two dimensions
(`C63_bonds_2d_fails`). -/
theorem C63_bonds_partial (o : Fin 3 → ℝ) (E : Matrix (Fin 3) (Fin 3) ℝ) :
    ∃ (verts : List (Fin 3 → ℝ)) (L : List (Finset (Fin 3) × Finset (Fin 3))),
      vertex o E 3 = .ok (some verts) ∧
      bonds verts = .ok (L.map fun e => (corner o E e.1, corner o E e.2)) ∧
      L.length = 12 ∧
      (∀ e ∈ L, (symmDiff e.1 e.2).card = 1) ∧
      (L.map fun e => s(e.1, e.2)).Nodup ∧
      (∀ S T : Finset (Fin 3), (symmDiff S T).card = 1 → (S, T) ∈ L ∨ (T, S) ∈ L) ∧
      (∀ i : Fin 3, L.countP (fun e => decide (symmDiff e.1 e.2 = {i})) = 4) := by
  refine ⟨[∅, {0}, {1}, {2}, {0, 1}, {1, 2}, {0, 2}, {0, 1, 2}].map (corner o E),
    bondIdx.map (fun i => (([∅, {0}, {1}, {2}, {0, 1}, {1, 2}, {0, 2}, {0, 1, 2}] :
      List (Finset (Fin 3))).getD i.1 ∅, ([∅, {0}, {1}, {2}, {0, 1}, {1, 2}, {0, 2}, {0, 1, 2}] :
      List (Finset (Fin 3))).getD i.2 ∅)), ?_, ?_, rfl, by decide, by decide, by decide, by decide⟩
  · exact vertex3 o E
  · rfl

/-- **C63** fails in two dimensions: `bonds` raises `TypeError` on every list of corners. -/
theorem C63_bonds_2d_fails (verts : List (Fin 2 → ℝ)) (h : verts ≠ []) :
    bonds verts = .error .typeError := by simp [bonds, h]

/-- A concrete cell. -/
example : ∃ v, vertex ![1, 0, 0] (1 : Matrix (Fin 3) (Fin 3) ℝ) 3 = .ok (some v) ∧ v.length = 8 ∧
    v[1]? = some ![2, 0, 0] := by
  refine ⟨_, vertex3 _ _, rfl, ?_⟩
  simp only [List.map_cons, List.getElem?_cons_succ, List.getElem?_cons_zero, Option.some.injEq]
  ext i
  fin_cases i <;> simp [corner, Matrix.one_apply]
  norm_num

end Verif.Props
