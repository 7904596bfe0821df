import Verif.Lemmas.Lattice
import Verif.Lemmas.HnfEnum
import Verif.Props.Lattice

/-!
# Properties of `structrans/crystallography/matrix_group.py` (C19, C20)
-/

namespace Verif.Props

open Matrix Verif.Model Verif.Spec Verif.Lemmas

variable {n : ℕ}

/-- The six integer vectors of length 1. -/
def unitRows3 : List (Fin 3 → ℤ) :=
  [![1, 0, 0], ![-1, 0, 0], ![0, 1, 0], ![0, -1, 0], ![0, 0, 1], ![0, 0, -1]]

theorem sq_cases {a : ℤ} (h : a * a ≤ 1) : a = -1 ∨ a = 0 ∨ a = 1 := by
  have h1 : -1 ≤ a := by nlinarith
  have h2 : a ≤ 1 := by nlinarith
  omega

theorem unit_row3 {v : Fin 3 → ℤ} (h : v 0 * v 0 + v 1 * v 1 + v 2 * v 2 = 1) : v ∈ unitRows3 := by
  have e : v = ![v 0, v 1, v 2] := by ext i; fin_cases i <;> rfl
  have h0 := mul_self_nonneg (v 0)
  have h1 := mul_self_nonneg (v 1)
  have h2 := mul_self_nonneg (v 2)
  rcases sq_cases (a := v 0) (by omega) with a | a | a <;>
  rcases sq_cases (a := v 1) (by omega) with b | b | b <;>
  rcases sq_cases (a := v 2) (by omega) with c | c | c <;>
  · rw [a, b, c] at h
    first
      | (rw [e, a, b, c]; decide)
      | (exfalso; revert h; decide)

/-- C19: `CUBIC_LAUE_GROUP` contains every integer rotation matrix, and nothing else. -/
theorem C19_cubic_complete (Q : Matrix (Fin 3) (Fin 3) ℤ) :
    Q ∈ cubicLaue ↔ Q * Qᵀ = 1 ∧ Q.det = 1 := by
  constructor
  · have h : ∀ Q ∈ cubicLaue, Q * Qᵀ = 1 ∧ Q.det = 1 := by unfold cubicLaue; decide +kernel
    exact h Q
  · intro hQ
    have hrow : ∀ i, Q i ∈ unitRows3 := by
      intro i
      apply unit_row3
      have := congrFun (congrFun hQ.1 i) i
      simpa [Matrix.mul_apply, Fin.sum_univ_three] using this
    have key : ∀ a ∈ unitRows3, ∀ b ∈ unitRows3, ∀ c ∈ unitRows3,
        (Matrix.of ![a, b, c] * (Matrix.of ![a, b, c])ᵀ = 1 ∧ (Matrix.of ![a, b, c]).det = 1) →
          Matrix.of ![a, b, c] ∈ cubicLaue := by
      unfold unitRows3 cubicLaue; decide +kernel
    have e : Q = Matrix.of ![Q 0, Q 1, Q 2] := by ext i j; fin_cases i <;> rfl
    rw [e]
    rw [e] at hQ
    exact key _ (hrow 0) _ (hrow 1) _ (hrow 2) hQ

/-- C19: in `CUBIC_LAUE_GROUP` the entries 1 to 9 are exactly the two-fold rotations. -/
theorem C19_cubic_two_folds (Q : Matrix (Fin 3) (Fin 3) ℤ) (hQ : Q ∈ cubicLaue) :
    Q ∈ (cubicLaue.drop 1).take 9 ↔ Q * Q = 1 ∧ Q ≠ 1 := by
  have h : ∀ Q ∈ cubicLaue, (Q ∈ (cubicLaue.drop 1).take 9 ↔ Q * Q = 1 ∧ Q ≠ 1) := by
    unfold cubicLaue; decide +kernel
  exact h Q hQ

/-- C19: the 24 entries are distinct and form a group. -/
theorem C19_cubic_group : cubicLaue.length = 24 ∧ cubicLaue.Nodup ∧ IsMatGroup cubicLaue :=
  ⟨rfl, cubic_nodup, cubic_group⟩

/-- The four integer vectors of length 1. -/
def unitRows2 : List (Fin 2 → ℤ) := [![1, 0], ![-1, 0], ![0, 1], ![0, -1]]

theorem unit_row2 {v : Fin 2 → ℤ} (h : v 0 * v 0 + v 1 * v 1 = 1) : v ∈ unitRows2 := by
  have e : v = ![v 0, v 1] := by ext i; fin_cases i <;> rfl
  have h0 := mul_self_nonneg (v 0)
  have h1 := mul_self_nonneg (v 1)
  rcases sq_cases (a := v 0) (by omega) with a | a | a <;>
  rcases sq_cases (a := v 1) (by omega) with b | b | b <;>
  · rw [a, b] at h
    first
      | (rw [e, a, b]; decide)
      | (exfalso; revert h; decide)

/-- C19: `SQUARE_EXT_GROUP` contains every integer orthogonal matrix of dimension 2, and nothing else. -/
theorem C19_square_ext_complete (Q : Matrix (Fin 2) (Fin 2) ℤ) : Q ∈ squareExt ↔ Q * Qᵀ = 1 := by
  constructor
  · have h : ∀ Q ∈ squareExt, Q * Qᵀ = 1 := by unfold squareExt; decide +kernel
    exact h Q
  · intro hQ
    have hrow : ∀ i, Q i ∈ unitRows2 := by
      intro i
      apply unit_row2
      have := congrFun (congrFun hQ i) i
      simpa [Matrix.mul_apply, Fin.sum_univ_two] using this
    have key : ∀ a ∈ unitRows2, ∀ b ∈ unitRows2,
        Matrix.of ![a, b] * (Matrix.of ![a, b])ᵀ = 1 → Matrix.of ![a, b] ∈ squareExt := by
      unfold unitRows2 squareExt; decide +kernel
    have e : Q = Matrix.of ![Q 0, Q 1] := by ext i j; fin_cases i <;> rfl
    rw [e]
    rw [e] at hQ
    exact key _ (hrow 0) _ (hrow 1) hQ

/-- C19: `SQUARE_GROUP` contains every integer rotation of dimension 2, and nothing else. -/
theorem C19_square_complete (Q : Matrix (Fin 2) (Fin 2) ℤ) :
    Q ∈ squareRot ↔ Q * Qᵀ = 1 ∧ Q.det = 1 := by
  have h : ∀ Q ∈ squareExt, (Q ∈ squareRot ↔ Q.det = 1) := by
    unfold squareRot squareExt; decide +kernel
  rw [← C19_square_ext_complete]
  constructor
  · intro hq
    exact ⟨squareRot_sub Q hq, (h Q (squareRot_sub Q hq)).mp hq⟩
  · rintro ⟨h1, h2⟩
    exact (h Q h1).mpr h2

theorem C19_square_groups : squareExt.length = 8 ∧ squareExt.Nodup ∧ IsMatGroup squareExt ∧
    squareRot.length = 4 ∧ squareRot.Nodup ∧ IsMatGroup squareRot :=
  ⟨rfl, squareExt_nodup, squareExt_group, rfl, squareRot_nodup, squareRot_group⟩

theorem hexLaue_ortho : ∀ Q ∈ hexLaue.map NMat.val, Q * Qᵀ = 1 := by
  intro Q hQ
  obtain ⟨R, hR, rfl⟩ := List.mem_map.mp hQ
  have hs := hexS_sq
  simp only [hexLaue, List.mem_cons, List.not_mem_nil, or_false] at hR
  rcases hR with rfl | rfl | rfl | rfl | rfl | rfl | rfl | rfl | rfl | rfl | rfl | rfl <;>
  · ext i j
    fin_cases i <;> fin_cases j <;>
      simp [NMat.val, Matrix.mul_apply, Fin.sum_univ_three, hexC_eq] <;> nlinarith

theorem hex2dExt_ortho : ∀ Q ∈ hex2dExt.map NMat.val, Q * Qᵀ = 1 := by
  intro Q hQ
  obtain ⟨R, hR, rfl⟩ := List.mem_map.mp hQ
  have hs := hexS_sq
  simp only [hex2dExt, List.mem_cons, List.not_mem_nil, or_false] at hR
  rcases hR with rfl | rfl | rfl | rfl | rfl | rfl | rfl | rfl | rfl | rfl | rfl | rfl <;>
  · ext i j
    fin_cases i <;> fin_cases j <;>
      simp [NMat.val, Matrix.mul_apply, Fin.sum_univ_two, hexC_eq] <;> nlinarith

/-- C19: `HEX_LAUE_GROUP` is a group of 12 distinct rotations. -/
theorem C19_hex_laue_group : hexLaue.length = 12 ∧ (hexLaue.map NMat.val).Nodup ∧
    IsMatGroup (hexLaue.map NMat.val) ∧ ∀ Q ∈ hexLaue.map NMat.val, Q * Qᵀ = 1 ∧ Q.det = 1 :=
  ⟨rfl, hexLaue_nodup, hexLaue_group, fun Q hQ => ⟨hexLaue_ortho Q hQ, hexLaue_det Q hQ⟩⟩

/-- C19: `HEX2D_GROUP` is a group of 6 distinct rotations. -/
theorem C19_hex2d_group : hex2dRot.length = 6 ∧ (hex2dRot.map NMat.val).Nodup ∧
    IsMatGroup (hex2dRot.map NMat.val) ∧ ∀ Q ∈ hex2dRot.map NMat.val, Q * Qᵀ = 1 ∧ Q.det = 1 :=
  ⟨rfl, hex2dRot_nodup, hex2dRot_group, fun Q hQ =>
    ⟨hex2dExt_ortho Q (by
      obtain ⟨R, hR, rfl⟩ := List.mem_map.mp hQ
      exact List.mem_map.mpr ⟨R, hex2dRot_sub R hR, rfl⟩), hex2dRot_det Q hQ⟩⟩

/-- C19: `HEX2D_EXT_GROUP` is a group of 12 distinct orthogonal matrices, of which exactly the first six
(`HEX2D_GROUP`) are rotations. -/
theorem C19_hex2d_ext_group : hex2dExt.length = 12 ∧ (hex2dExt.map NMat.val).Nodup ∧
    IsMatGroup (hex2dExt.map NMat.val) ∧ (∀ Q ∈ hex2dExt.map NMat.val, Q * Qᵀ = 1) ∧
    (∀ Q ∈ hex2dRot, Q.val.det = 1) ∧ ∀ Q ∈ hex2dExt.drop 6, Q.val.det = -1 := by
  refine ⟨rfl, hex2dExt_nodup, hex2dExt_group, hex2dExt_ortho, ?_, ?_⟩
  · intro Q hQ
    exact hex2dRot_det _ (List.mem_map.mpr ⟨Q, hQ, rfl⟩)
  · intro Q hQ
    have hs := hexS_sq
    simp only [hex2dExt, List.drop, List.mem_cons, List.not_mem_nil, or_false] at hQ
    rcases hQ with rfl | rfl | rfl | rfl | rfl | rfl <;>
      simp [NMat.val, Matrix.det_fin_two, hexC_eq] <;> nlinarith

/-! ## C20 -/

theorem hasMatch_iff (t : Tol) (m : Matrix (Fin n) (Fin n) ℝ) (G : List (Matrix (Fin n) (Fin n) ℝ)) :
    hasMatch t m G = true ↔ ∃ m' ∈ G, allclose t m m' := by
  induction G with
  | nil => simp [hasMatch]
  | cons a G ih =>
    rw [hasMatch]
    split_ifs with h
    · simp [h]
    · simp [ih, h]

theorem allMatch_iff (t : Tol) (G g : List (Matrix (Fin n) (Fin n) ℝ)) :
    allMatch t G g = true ↔ ∀ m ∈ g, ∃ m' ∈ G, allclose t m m' := by
  induction g with
  | nil => simp [allMatch]
  | cons a g ih =>
    rw [allMatch]
    split_ifs with h
    · simp [ih, (hasMatch_iff t a G).mp h]
    · rw [hasMatch_iff] at h
      simp only [false_iff]
      intro hc
      exact h (hc a (by simp))

theorem len_mem_divisors (g G : List (Matrix (Fin n) (Fin n) ℝ)) :
    ((g.length : ℤ) ∈ divisors G.length) ↔
      g.length ∣ G.length ∧ (G = [] → g = []) := by
  rcases Nat.eq_zero_or_pos G.length with h | h
  · rw [h, divisors_nonpos (by simp)]
    have hG := List.length_eq_zero_iff.mp h
    simp [hG]
  · rw [mem_divisors (by exact_mod_cast h)]
    have hG : G ≠ [] := List.ne_nil_of_length_pos h
    simp only [hG, false_implies, and_true, Int.natCast_dvd_natCast, Nat.cast_pos]
    constructor
    · exact fun h => h.2
    · intro hd
      exact ⟨Nat.pos_of_dvd_of_pos hd h, hd⟩

/-- C20: `G.hassubgroup(g)` is true exactly when the order of `g` divides the order of `G` and every
member of `g` matches a member of `G`. -/
theorem C20_hassubgroup (t : Tol) (G g : List (Matrix (Fin n) (Fin n) ℝ)) (hG : G ≠ []) :
    hasSubgroup t G g = true ↔
      g.length ∣ G.length ∧ ∀ A ∈ g, ∃ B ∈ G, ∀ i j, |A i j - B i j| ≤ t.atol + t.rtol * |B i j| := by
  rw [hasSubgroup]
  split_ifs with h
  · rw [allMatch_iff]
    rw [len_mem_divisors] at h
    exact ⟨fun hm => ⟨h.1, hm⟩, fun hm => hm.2⟩
  · rw [len_mem_divisors] at h
    simp only [false_iff]
    rintro ⟨hd, -⟩
    exact h ⟨hd, fun h => absurd h hG⟩

/-- C20: `hassubgroup` is reflexive, for every tolerance the code may use. -/
theorem C20_reflexive (t : Tol) (ht : TolOK t) (G : List (Matrix (Fin n) (Fin n) ℝ)) :
    hasSubgroup t G G = true := by
  rw [hasSubgroup, if_pos ((len_mem_divisors G G).mpr ⟨dvd_rfl, id⟩), allMatch_iff]
  exact fun m hm => ⟨m, hm, allclose_self ht m⟩

/-- The order of a subgroup of matrices divides the order of the group (Lagrange). -/
theorem lagrange {G g : List (Matrix (Fin n) (Fin n) ℝ)} (hG : IsMatGroup G) (hg : IsMatGroup g)
    (nG : G.Nodup) (ng : g.Nodup) (hsub : ∀ A ∈ g, A ∈ G) : g.length ∣ G.length := by
  classical
  -- the units of the matrix ring that occur in a list form a finite subgroup
  have sub : ∀ l : List (Matrix (Fin n) (Fin n) ℝ), IsMatGroup l → l.Nodup →
      ∃ H : Subgroup (Matrix (Fin n) (Fin n) ℝ)ˣ, Nat.card H = l.length ∧
        ∀ u : (Matrix (Fin n) (Fin n) ℝ)ˣ, u ∈ H ↔ (u : Matrix (Fin n) (Fin n) ℝ) ∈ l := by
    intro l hl nl
    have hinv : ∀ A ∈ l, ∃ u : (Matrix (Fin n) (Fin n) ℝ)ˣ, (u : Matrix (Fin n) (Fin n) ℝ) = A ∧
        ((u⁻¹ : (Matrix (Fin n) (Fin n) ℝ)ˣ) : Matrix (Fin n) (Fin n) ℝ) ∈ l := by
      intro A hA
      obtain ⟨B, hB, h⟩ := hl.inv_mem A hA
      exact ⟨⟨A, B, h, mul_eq_one_comm.mp h⟩, rfl, hB⟩
    let H : Subgroup (Matrix (Fin n) (Fin n) ℝ)ˣ :=
      { carrier := {u | (u : Matrix (Fin n) (Fin n) ℝ) ∈ l}
        mul_mem' := fun {a b} ha hb => by
          simp only [Set.mem_ofPred_eq, Units.val_mul] at *
          exact hl.mul_mem _ ha _ hb
        one_mem' := by simpa using hl.one_mem
        inv_mem' := fun {a} ha => by
          obtain ⟨u, hu, hu'⟩ := hinv _ ha
          have : u = a := Units.ext hu
          exact this ▸ hu' }
    refine ⟨H, ?_, fun u => Iff.rfl⟩
    have e : H ≃ {A // A ∈ l} :=
      { toFun := fun u => ⟨(u.1 : Matrix (Fin n) (Fin n) ℝ), u.2⟩
        invFun := fun A => ⟨(hinv A.1 A.2).choose, by
          have := (hinv A.1 A.2).choose_spec.1
          change ((hinv A.1 A.2).choose : Matrix (Fin n) (Fin n) ℝ) ∈ l
          rw [this]; exact A.2⟩
        left_inv := fun u => by
          apply Subtype.ext
          apply Units.ext
          exact (hinv _ u.2).choose_spec.1
        right_inv := fun A => by
          apply Subtype.ext
          exact (hinv A.1 A.2).choose_spec.1 }
    rw [Nat.card_congr e]
    have : Nat.card {A // A ∈ l} = Nat.card {A // A ∈ l.toFinset} :=
      Nat.card_congr (Equiv.subtypeEquivRight (by simp))
    rw [this, Nat.card_eq_fintype_card, Fintype.card_coe, List.toFinset_card_of_nodup nl]
  obtain ⟨H, h1, h2⟩ := sub G hG nG
  obtain ⟨K, k1, k2⟩ := sub g hg ng
  rw [← h1, ← k1]
  apply Subgroup.card_dvd_of_le
  intro u hu
  exact (h2 u).mpr (hsub _ ((k2 u).mp hu))

/-- C20: for groups compared exactly, `hassubgroup` is set containment. -/
theorem C20_exact (G g : List (Matrix (Fin n) (Fin n) ℝ)) (hG : IsMatGroup G) (hg : IsMatGroup g)
    (nG : G.Nodup) (ng : g.Nodup) :
    hasSubgroup .exact G g = true ↔ ∀ A ∈ g, A ∈ G := by
  have hne : G ≠ [] := fun h => by have := hG.one_mem; simp [h] at this
  rw [C20_hassubgroup _ _ _ hne]
  have hclose : ∀ A B : Matrix (Fin n) (Fin n) ℝ,
      (∀ i j, |A i j - B i j| ≤ Tol.exact.atol + Tol.exact.rtol * |B i j|) ↔ A = B :=
    fun A B => allclose_exact A B
  simp only [hclose, exists_eq_right']
  exact ⟨fun h => h.2, fun h => ⟨lagrange hG hg nG ng h, h⟩⟩

/-- C20: hence it is transitive on groups. -/
theorem C20_transitive (G₁ G₂ G₃ : List (Matrix (Fin n) (Fin n) ℝ)) (h₁ : IsMatGroup G₁)
    (h₂ : IsMatGroup G₂) (h₃ : IsMatGroup G₃) (n₁ : G₁.Nodup) (n₂ : G₂.Nodup) (n₃ : G₃.Nodup)
    (h12 : hasSubgroup .exact G₁ G₂ = true) (h23 : hasSubgroup .exact G₂ G₃ = true) :
    hasSubgroup .exact G₁ G₃ = true := by
  rw [C20_exact _ _ ‹_› ‹_› ‹_› ‹_›] at *
  exact fun A hA => h12 A (h23 A hA)

/-- The hypotheses of `C20_exact` and `C20_transitive` are met by the square groups. -/
example : hasSubgroup .exact (squareExt.map toR) (squareRot.map toR) = true := by
  rw [C20_exact]
  · intro A hA
    obtain ⟨Q, hQ, rfl⟩ := List.mem_map.mp hA
    exact List.mem_map.mpr ⟨Q, squareRot_sub Q hQ, rfl⟩
  · have := intTable_group squareExt_group; rwa [map_int_val] at this
  · have := intTable_group squareRot_group; rwa [map_int_val] at this
  · have := intTable_nodup squareExt_nodup; rwa [map_int_val] at this
  · have := intTable_nodup squareRot_nodup; rwa [map_int_val] at this

/-- Lists that are not groups may be contained without being accepted: the order must divide. -/
example : hasSubgroup .exact (squareExt.map toR) ((squareExt.take 3).map toR) = false := by
  rw [hasSubgroup, if_neg]
  rw [len_mem_divisors]
  simp [squareExt]

end Verif.Props
