import Verif.Spec.GenericTwins
import Verif.Props.TwinFamilies
import Verif.Props.SmallStretch

/-!
# The twins that every small stretch of a cube has

C112: two variants that a half turn of the cube carries to each other are twins, the default `isconventional()` recognises
exactly these, and each two variants are connected by at most two such twins.
-/

namespace Verif.Props

open Matrix Verif.Model Verif.Spec Verif.Lemmas

local notation "Mat3" => Matrix (Fin 3) (Fin 3) ℝ

variable {U V W : Mat3} {t : Tol}

theorem halfTurn_table : ∀ R ∈ cubicLaue, (R * R = 1 ∧ R ≠ 1) ↔ R ∈ (cubicLaue.take 10).drop 1 := by
  decide +kernel

theorem halfTurn_axes : ∀ R ∈ (cubicLaue.take 10).drop 1, (∃ i, R = edgeTurn i) ∨
    ∃ j k, j ≠ k ∧ ∃ z ∈ [(1 : ℤ), -1], R = faceTurn j k z := by
  decide +kernel

theorem halfTurn_products : ∀ R ∈ cubicLaue, ∃ S ∈ (cubicLaue.take 10).drop 1, ∃ T ∈ (cubicLaue.take 10).drop 1, R = T * S := by
  decide +kernel

theorem halfTurn_iff {R : Matrix (Fin 3) (Fin 3) ℤ} : IsCubeHalfTurn R ↔ R ∈ (cubicLaue.take 10).drop 1 := by
  constructor
  · rintro ⟨h1, h2⟩
    exact (halfTurn_table R (cube_iff.1 h1)).1 h2
  · intro h
    have hm : R ∈ cubicLaue := List.mem_of_mem_take (List.mem_of_mem_drop h)
    exact ⟨cube_iff.2 hm, (halfTurn_table R hm).2 h⟩

theorem halfTurn_axis {R : Matrix (Fin 3) (Fin 3) ℤ} (h : IsCubeHalfTurn R) : ∃ n : V3, n ⬝ᵥ n = 1 ∧ halfTurn n = realOf R := by
  rcases halfTurn_axes R (halfTurn_iff.1 h) with ⟨i, rfl⟩ | ⟨j, k, hjk, z, hz, rfl⟩
  · exact ⟨Pi.single i 1, by simp, edgeTurn_eq i⟩
  · have hzz : z * z = 1 := by
      simp only [List.mem_cons, List.not_mem_nil, or_false] at hz
      rcases hz with rfl | rfl <;> rfl
    exact ⟨diagonalNormal j k z, diagonalNormal_unit hjk (by exact_mod_cast hzz), faceTurn_eq hjk hzz⟩

theorem realOf_mul (R S : Matrix (Fin 3) (Fin 3) ℤ) : realOf (R * S) = realOf R * realOf S := toR_mul R S

/-- variants that agree up to the tolerance of the twin analysis are equal -/
theorem variants_apart (h : SmallStretch U) (hc : ClearSymmetry U) {R S : Matrix (Fin 3) (Fin 3) ℤ} (hR : R ∈ cubicLaue)
    (hS : S ∈ cubicLaue) (hm : maxClose (toR R * U * (toR R)ᵀ) (toR S * U * (toR S)ᵀ)) :
    toR R * U * (toR R)ᵀ = toR S * U * (toR S)ᵀ := by
  refine (small_sep (t := .code) h (.inr ⟨rfl, hc⟩) _ (List.mem_map_of_mem hR) _ (List.mem_map_of_mem hS)).1 fun i j => ?_
  have h1 := (hm i j).le
  have h2 := abs_nonneg ((toR S * U * (toR S)ᵀ) i j)
  refine h1.trans ?_
  simp only [Tol.code, small]
  norm_num
  linarith

/-- `V` and `W` are images of `U` under rotations of the cube. -/
def Image (U V : Mat3) : Prop := ∃ R, IsCubeRotation R ∧ V = realOf R * U * (realOf R)ᵀ

theorem image_spd (h : SmallStretch U) (hV : Image U V) : IsSPD V := by
  obtain ⟨R, hR, rfl⟩ := hV
  exact conj_spd (small_spd h) (toR_ortho (cube_iff.1 hR))

theorem image_turn {R : Matrix (Fin 3) (Fin 3) ℤ} (hR : IsCubeRotation R) (hV : Image U V) :
    Image U (realOf R * V * (realOf R)ᵀ) := by
  obtain ⟨S, hS, rfl⟩ := hV
  refine ⟨R * S, cube_iff.2 (cubeLaue_mul (cube_iff.1 hR) (cube_iff.1 hS)), ?_⟩
  rw [realOf_mul, Matrix.transpose_mul]
  simp only [Matrix.mul_assoc]

theorem image_far (h : SmallStretch U) (hc : ClearSymmetry U) (hV : Image U V) (hW : Image U W) (hne : V ≠ W) :
    ∃ i j, small ≤ |V i j - W i j| := by
  by_contra hn
  push Not at hn
  obtain ⟨R, hR, rfl⟩ := hV
  obtain ⟨S, hS, rfl⟩ := hW
  exact hne (variants_apart h hc (cube_iff.1 hR) (cube_iff.1 hS) hn)

theorem halfTurn_twinAxis (hVW : HalfTurnRelated V W) : ∃ n, IsTwinAxis V W n := by
  obtain ⟨R, hR, rfl⟩ := hVW
  obtain ⟨n, h1, h2⟩ := halfTurn_axis hR
  exact ⟨n, h1, by rw [h2]⟩

theorem image_twinnable (eig : Mat3 → EigRes) (heig : ∀ A, Aᵀ = A → EigOK (eig A).vals (eig A).vecs A)
    (h : SmallStretch U) (hc : ClearSymmetry U) (hV : Image U V) (hW : Image U W) (hne : V ≠ W) (hVW : HalfTurnRelated V W)
    (skip : Bool) : ∃ P, TwinPair.new eig V W skip = .ok P ∧ P.Ui = V ∧ P.Uj = W ∧ P.isTwinnable = true := by
  have sV := image_spd h hV
  have sW := image_spd h hW
  obtain ⟨n, hn⟩ := halfTurn_twinAxis hVW
  obtain ⟨P, g1, g2, g3, -, g5⟩ := C54_criterion eig heig V W sV sW skip
  refine ⟨P, g1, g2, g3, (isTwinnable_iff P).2 ⟨by rw [g2, g3]; exact image_far h hc hV hW hne, ?_⟩⟩
  rw [g5.2 (axis_connected sV hn), sub_self, abs_zero]
  norm_num

theorem convGroup_none : convGroup none = ((cubicLaue.take 10).drop 1).map toR := rfl

/-- **C112**, twins: if a half turn of the cube about the unit vector `n` carries a variant `V` to another one `W`, then the
pair is twinnable, and the plane with the normal `n` is a twin plane. -/
theorem C112_generic (eig : Mat3 → EigRes) (heig : ∀ A, Aᵀ = A → EigOK (eig A).vals (eig A).vecs A)
    (h : SmallStretch U) (hc : ClearSymmetry U) {vs : List Mat3} (hvs : Mart.getVariants t ⟨some U, cubicR⟩ = .ok vs)
    (ht : t = .code ∨ t = .exact) (hV : V ∈ vs) (hW : W ∈ vs) (hne : V ≠ W) (hVW : HalfTurnRelated V W) (skip : Bool) :
    (∃ P, TwinPair.new eig V W skip = .ok P ∧ P.isTwinnable = true) ∧
    ∃ n Q a, IsTwinAxis V W n ∧ SolvesTwin V W Q a n := by
  have hct : ClearFor t U := ht.elim (fun h => .inr ⟨h, hc⟩) .inl
  obtain ⟨lg, vs', idx, -, -, h1, -, -, h3, -⟩ := C107_variants h hct
  rw [hvs] at h1
  cases h1
  obtain ⟨P, g1, -, -, g4⟩ := image_twinnable eig heig h hc ((h3 V).1 hV) ((h3 W).1 hW) hne hVW skip
  obtain ⟨n, hn⟩ := halfTurn_twinAxis hVW
  obtain ⟨Q, hQ⟩ := axis_solves (image_spd h ((h3 V).1 hV)) hn
  exact ⟨⟨P, g1, g4⟩, n, Q, _, hn, hQ⟩

/-- **C112**, `isconventional()` without argument, called on the new pair of two different variants, is true exactly if a half
turn of the cube carries the one to the other. -/
theorem C112_conventional (eig : Mat3 → EigRes) (heig : ∀ A, Aᵀ = A → EigOK (eig A).vals (eig A).vecs A)
    (h : SmallStretch U) (hc : ClearSymmetry U) {vs : List Mat3} (hvs : Mart.getVariants t ⟨some U, cubicR⟩ = .ok vs)
    (ht : t = .code ∨ t = .exact) (hV : V ∈ vs) (hW : W ∈ vs) (hne : V ≠ W) (skip : Bool) :
    ∃ P, TwinPair.new eig V W skip = .ok P ∧
      ((PairObj.isConventional ⟨P, none⟩ none).2 = true ↔ HalfTurnRelated V W) := by
  have hct : ClearFor t U := ht.elim (fun h => .inr ⟨h, hc⟩) .inl
  obtain ⟨lg, vs', idx, -, -, h1, -, -, h3, -⟩ := C107_variants h hct
  rw [hvs] at h1
  cases h1
  have iV := (h3 V).1 hV
  have iW := (h3 W).1 hW
  refine ⟨_, new_ok eig (image_spd h iV) (image_spd h iW) skip, ?_⟩
  set P : TwinPair := ⟨V, W, sortEig eig (relMetric V W)⟩ with hP
  have hrel : P.related (convGroup none) = true ↔ HalfTurnRelated V W := by
    classical
    unfold TwinPair.related
    rw [List.any_eq_true, convGroup_none]
    constructor
    · rintro ⟨Q, hQ, hm⟩
      obtain ⟨R, hR, rfl⟩ := List.mem_map.1 hQ
      rw [decide_eq_true_eq] at hm
      have hh := halfTurn_iff.2 hR
      refine ⟨R, hh, ?_⟩
      by_contra hn
      obtain ⟨i, j, hij⟩ := image_far h hc (image_turn hh.1 iV) iW (Ne.symm hn)
      exact absurd (hm i j) (not_lt.2 hij)
    · rintro ⟨R, hR, hW⟩
      refine ⟨toR R, List.mem_map_of_mem (halfTurn_iff.1 hR), ?_⟩
      rw [decide_eq_true_eq]
      intro i j
      show |(realOf R * V * (realOf R)ᵀ) i j - W i j| < small
      rw [← hW, sub_self, abs_zero]
      exact small_pos
  rw [← hrel]
  unfold PairObj.isConventional
  simp only
  split_ifs with hf
  · refine ⟨fun hc => absurd hc (by decide), fun hr => ?_⟩
    obtain ⟨P', g1, -, -, g4⟩ := image_twinnable eig heig h hc iV iW hne (hrel.1 hr) skip
    rw [new_ok eig (image_spd h iV) (image_spd h iW)] at g1
    cases g1
    rw [g4] at hf
    cases hf
  · exact Iff.rfl

/-- **C112**, the table: after any calls `TwinTable()` of the twin system lists all pairs of different variants that a half turn
of the cube carries to each other, and `getConventional()` returns all positions of the table as long as
`isconventional` is only called with the group of the system. -/
theorem C112_table (eig : Mat3 → EigRes) (heig : ∀ A, Aᵀ = A → EigOK (eig A).vals (eig A).vecs A)
    (h : SmallStretch U) (hc : ClearSymmetry U) (ht : t = .code ∨ t = .exact) :
    ∃ s vs, Mart.getVariants t ⟨some U, cubicR⟩ = .ok vs ∧ TwinSys.ofMart t ⟨some U, cubicR⟩ = .ok s ∧
      (∀ ops, ∃ tt, ((s.after eig ops).step eig .table).2 = .ok (.table tt) ∧
        ∀ i j V W, i < j → vs[i]? = some V → vs[j]? = some W → HalfTurnRelated V W → (i, j) ∈ tt) ∧
      ∀ ops, (∀ k G, .pairConventional k G ∈ ops → G = some cubicR) → ∃ tt, ((s.after eig ops).step eig .table).2 = .ok (.table tt) ∧
        ((s.after eig ops).step eig .conventional).2 = .ok (.indices (List.range tt.length)) := by
  have hct : ClearFor t U := ht.elim (fun h => .inr ⟨h, hc⟩) .inl
  obtain ⟨lg, vs, idx, -, -, h1, -, h2, h3, -⟩ := C107_variants h hct
  have hus : ∀ V ∈ vs, V.det ≠ 0 := fun V hV => (spd_det_pos (image_spd h ((h3 V).1 hV))).ne'
  refine ⟨TwinSys.new vs none, vs, h1, by unfold TwinSys.ofMart; rw [h1], fun ops => ?_, fun ops ho => ?_⟩
  · obtain ⟨tt, ps, g1, -, -, g4, -⟩ := C59_table eig vs hus none ops
    refine ⟨tt, g1, fun i j V W hij hV hW hVW => (g4 i j).2 ⟨hij, (List.getElem?_eq_some_iff.1 hW).1, ?_⟩⟩
    have mV := List.mem_of_getElem? hV
    have mW := List.mem_of_getElem? hW
    have hne : V ≠ W := by
      rintro rfl
      have hi := (List.getElem?_eq_some_iff.1 hV)
      have hj := (List.getElem?_eq_some_iff.1 hW)
      obtain ⟨hi, ei⟩ := hi
      obtain ⟨hj, ej⟩ := hj
      exact hij.ne ((List.Nodup.getElem_inj_iff h2.nodup).1 (ei.trans ej.symm))
    obtain ⟨P, p1, -, -, p4⟩ := image_twinnable eig heig h hc ((h3 V).1 mV) ((h3 W).1 mW) hne hVW true
    exact ⟨V, W, P, hV, hW, p1, p4⟩
  · refine system_conventional eig hus (fun V hV W hW => ?_) ops (by
      intro o hm hf
      cases o <;> simp only [Foreign] at hf
      exact hf cubicR rfl (by rw [ho _ _ hm]; rfl))
    obtain ⟨R, hR, rfl⟩ := (h3 V).1 hV
    obtain ⟨S, hS, rfl⟩ := (h3 W).1 hW
    refine ⟨toR (S * Rᵀ), List.mem_map_of_mem (cubeLaue_mul (cube_iff.1 hS) (cubeLaue_transpose (cube_iff.1 hR))), ?_⟩
    rw [toR_mul, toR_transpose, Matrix.transpose_mul, transpose_transpose, realOf_eq, realOf_eq]
    simp only [Matrix.mul_assoc]
    rw [← Matrix.mul_assoc (toR R)ᵀ (toR R), toR_ortho' (cube_iff.1 hR), Matrix.one_mul,
      ← Matrix.mul_assoc (toR R)ᵀ (toR R), toR_ortho' (cube_iff.1 hR), Matrix.one_mul]

/-- **C112**, chains: each two variants are connected by at most two such twins: there is a variant which is the first one or
a twin of it, and the second one or a twin of it. -/
theorem C112_chain (h : SmallStretch U) (hc : ClearSymmetry U) {vs : List Mat3}
    (hvs : Mart.getVariants t ⟨some U, cubicR⟩ = .ok vs) (ht : t = .code ∨ t = .exact) (hV : V ∈ vs) (hW : W ∈ vs) :
    ∃ X ∈ vs, HalfTurnRelated V X ∧ HalfTurnRelated X W := by
  have hct : ClearFor t U := ht.elim (fun h => .inr ⟨h, hc⟩) .inl
  obtain ⟨lg, vs', idx, -, -, h1, -, -, h3, -⟩ := C107_variants h hct
  rw [hvs] at h1
  cases h1
  have iV := (h3 V).1 hV
  obtain ⟨R, hR, hVR⟩ := iV
  obtain ⟨S, hS, hWS⟩ := (h3 W).1 hW
  obtain ⟨A, hA, B, hB, hAB⟩ := halfTurn_products (S * Rᵀ) (cubeLaue_mul (cube_iff.1 hS) (cubeLaue_transpose (cube_iff.1 hR)))
  have tA := halfTurn_iff.2 hA
  have tB := halfTurn_iff.2 hB
  refine ⟨realOf A * V * (realOf A)ᵀ, (h3 _).2 (image_turn tA.1 ((h3 V).1 hV)), ⟨A, tA, rfl⟩, B, tB, ?_⟩
  have e1 : realOf B * (realOf A * V * (realOf A)ᵀ) * (realOf B)ᵀ = realOf (B * A) * V * (realOf (B * A))ᵀ := by
    rw [realOf_mul, Matrix.transpose_mul]
    simp only [Matrix.mul_assoc]
  rw [e1, ← hAB, hVR, hWS, realOf_eq, realOf_eq, realOf_eq, toR_mul, toR_transpose, Matrix.transpose_mul, transpose_transpose]
  simp only [Matrix.mul_assoc]
  rw [← Matrix.mul_assoc (toR R)ᵀ (toR R), toR_ortho' (cube_iff.1 hR), Matrix.one_mul,
    ← Matrix.mul_assoc (toR R)ᵀ (toR R), toR_ortho' (cube_iff.1 hR), Matrix.one_mul]

/-! ## The hypotheses are met -/

/-- The stretch of Ni-Ti and its image under the half turn about the first cube axis. -/
example : ∃ vs V W, Mart.getVariants .code ⟨some ((1 / 10 ^ 4 : ℝ) • realOf niti), cubicR⟩ = .ok vs ∧ V ∈ vs ∧ W ∈ vs ∧ V ≠ W ∧
    HalfTurnRelated V W := by
  obtain ⟨lg, vs, idx, -, -, h1, -, -, h3, -⟩ := C107_variants niti_small (.inr ⟨rfl, niti_clear⟩)
  have ht : IsCubeHalfTurn !![1, 0, 0; 0, -1, 0; 0, 0, -1] := halfTurn_iff.2 (by decide +kernel)
  have h0 : Image ((1 / 10 ^ 4 : ℝ) • realOf niti) ((1 / 10 ^ 4 : ℝ) • realOf niti) :=
    ⟨1, cube_iff.2 (by decide +kernel), by rw [realOf_eq 1, toR_one]; simp⟩
  refine ⟨vs, _, _, h1, (h3 _).2 h0, (h3 _).2 (image_turn ht.1 h0), fun he => ?_, _, ht, rfl⟩
  have e1 := congrFun (congrFun he 0) 1
  have e2 := congrFun (congrFun he 0) 2
  simp [realOf_eq, toR, niti, Matrix.mul_apply, Fin.sum_univ_three] at e1 e2
  try norm_num at e1
  try norm_num at e2

end Verif.Props
