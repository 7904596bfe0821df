import Verif.Props.Martensite

/-!
# Property C52, continued : when the variants are available
-/

namespace Verif.Props

open Matrix Verif.Model Verif.Spec Verif.Lemmas

/-- **C52**, for every tolerance: `getvariants()`, `getvariant(n)` and `getLaueidx()` raise the same
exception, `AttributeError` if the transformation is not reversible; if it is reversible both lists are
returned. -/
theorem C52_raises (t : Tol) (m : Mart) :
    (m.isReversible t = .ok false → m.getVariants t = .error .attributeError ∧
      m.getLaueIdx t = .error .attributeError ∧ ∀ n, m.getVariant t n = .error .attributeError) ∧
    (m.isReversible t = .ok true → ∃ vs idx, m.getVariants t = .ok vs ∧ m.getLaueIdx t = .ok idx) ∧
    (∀ e, m.isReversible t = .error e → m.getVariants t = .error e ∧
      m.getLaueIdx t = .error e ∧ ∀ n, m.getVariant t n = .error e) := by
  refine ⟨fun h => ?_, fun h => ?_, fun e h => ?_⟩
  · simp [Mart.getVariants, Mart.getLaueIdx, Mart.getVariant, Mart.calcVariants, h]
  · cases hU : m.U with
    | none => simp [Mart.isReversible, hU] at h
    | some U => simp [Mart.getVariants, Mart.getLaueIdx, Mart.calcVariants, h, hU]
  · simp [Mart.getVariants, Mart.getLaueIdx, Mart.getVariant, Mart.calcVariants, h]

/-- **C52** with exact comparisons, for every non-singular stretch and every finite group of rotations:
if the Laue group of the lattice with base `U` is a subgroup of the parent group the variants are
returned, otherwise `AttributeError` is raised. -/
theorem C52_available_exact (m : Mart) (U : M3) (hU : m.U = some U) (hd : U.det ≠ 0)
    (hG : IsMatGroup m.laue) (nG : m.laue.Nodup) (hO : ∀ Q ∈ m.laue, Q * Qᵀ = 1) :
    ∃ lg, Lat.laueGroup .exact ⟨3, U⟩ = .ok lg ∧ IsSymmetryGroup U lg ∧
      ((∀ A ∈ lg, A ∈ m.laue) → ∃ vs idx, m.getVariants .exact = .ok vs ∧
        m.getLaueIdx .exact = .ok idx ∧ AreVariants U m.laue vs idx) ∧
      ((∃ A ∈ lg, A ∉ m.laue) → m.getVariants .exact = .error .attributeError ∧
        m.getLaueIdx .exact = .error .attributeError) := by
  obtain ⟨lg, b, h1, h2, h3, h4⟩ := C53_reversible_exact_partial m U hU hd hG nG
  obtain ⟨r1, r2, -⟩ := C52_raises .exact m
  refine ⟨lg, h1, h2, fun h => ?_, fun h => ?_⟩
  · obtain ⟨vs, idx, e1, e2⟩ := r2 (by rw [h3, h4.mpr h])
    exact ⟨vs, idx, e1, e2, C52_variants_exact m U hU hG nG hO e1 e2⟩
  · have hb : b = false := by
      by_contra hb
      obtain ⟨A, hA, hn⟩ := h
      exact hn (h4.mp (by simpa using hb) A hA)
    obtain ⟨e1, e2, -⟩ := r1 (by rw [h3, hb])
    exact ⟨e1, e2⟩

/-- **C52** with the comparisons of the code, for every stretch on which they are reliable: the variants
are returned exactly if every rotation of the lattice with base `U` is, up to the tolerance, an element of
the parent group and the order of the former divides that of the latter. -/
theorem C52_available (t : Tol) (m : Mart) (U : M3) (hU : m.U = some U) (hd : U.det ≠ 0)
    (hr : Reliable t U candidates3) (hG : m.laue ≠ []) :
    ∃ lg, Lat.laueGroup t ⟨3, U⟩ = .ok lg ∧ IsSymmetryGroup U lg ∧
      ((lg.length ∣ m.laue.length ∧
        ∀ A ∈ lg, ∃ B ∈ m.laue, ∀ i j, |A i j - B i j| ≤ t.atol + t.rtol * |B i j|) →
        ∃ vs idx, m.getVariants t = .ok vs ∧ m.getLaueIdx t = .ok idx) ∧
      (¬ (lg.length ∣ m.laue.length ∧
        ∀ A ∈ lg, ∃ B ∈ m.laue, ∀ i j, |A i j - B i j| ≤ t.atol + t.rtol * |B i j|) →
        m.getVariants t = .error .attributeError ∧ m.getLaueIdx t = .error .attributeError) := by
  obtain ⟨lg, b, h1, h2, h3, h4⟩ := C53_reversible_partial t m U hU hd hr hG
  obtain ⟨r1, r2, -⟩ := C52_raises t m
  refine ⟨lg, h1, h2, fun h => r2 (by rw [h3, h4.mpr h]), fun h => ?_⟩
  have hb : b = false := by
    by_contra hb
    exact h (h4.mp (by simpa using hb))
  obtain ⟨e1, e2, -⟩ := r1 (by rw [h3, hb])
  exact ⟨e1, e2⟩

/-- both cases occur: `diag(1, 1, 2)` with the cubic group, the identity with the trivial group -/
example : (∃ vs, (Mart.mk (some tetra) cubicR).getVariants .code = .ok vs) ∧
    (Mart.mk (some 1) [1]).getVariants .exact = .error .attributeError := by
  constructor
  · obtain ⟨vs, idx, h, -⟩ := (C52_raises .code _).2.1 tetra_reversible
    exact ⟨vs, h⟩
  · obtain ⟨lg, h1, -, -, h4⟩ := C52_available_exact (Mart.mk (some 1) [1]) 1 rfl (by simp)
      ⟨by simp, by simp, by simp⟩ (by simp) (by simp)
    have h := (C53_proper_fails .exact (Or.inr rfl)).2
    rw [h1] at h
    cases h
    refine (h4 ⟨toR !![-1, 0, 0; 0, -1, 0; 0, 0, 1], ?_, ?_⟩).1
    · exact List.mem_map_of_mem (by unfold cubicLaue; decide +kernel)
    · intro hm
      have := congrFun (congrFun (List.mem_singleton.mp hm) 0) 0
      simp [toR] at this
      norm_num at this

end Verif.Props
