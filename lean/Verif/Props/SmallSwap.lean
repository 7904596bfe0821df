import Verif.Props.FractionAccuracy
import Verif.Props.TwinSwap

/-!
# The order of the two variants of a pair, with rounding

C103 for every small stretch of a cube: the twins and fractions of `TwinPair(W, V)` are those of `TwinPair(V, W)`.
-/

namespace Verif.Props

open Matrix Verif.Model Verif.Spec Verif.Lemmas

local notation "Mat3" => Matrix (Fin 3) (Fin 3) ℝ

variable {U V W : Mat3} {t : Tol}

theorem axis_swap {n : V3} (h : IsTwinAxis V W n) : IsTwinAxis W V n := by
  have h2 := halfTurn_sq h.1
  refine ⟨h.1, ?_⟩
  rw [← h.2, halfTurn_symm]
  calc halfTurn n * (halfTurn n * V * halfTurn n) * halfTurn n = halfTurn n * halfTurn n * V * (halfTurn n * halfTurn n) := by
        simp only [Matrix.mul_assoc]
    _ = V := by rw [h2, Matrix.one_mul, Matrix.mul_one]

theorem axis_square {n : V3} (h : IsTwinAxis V W n) : W * W = halfTurn n * (V * V) * halfTurn n := by
  have h2 := halfTurn_sq h.1
  rw [← h.2, halfTurn_symm]
  calc halfTurn n * V * halfTurn n * (halfTurn n * V * halfTurn n) = halfTurn n * V * (halfTurn n * halfTurn n) * V * halfTurn n := by
        simp only [Matrix.mul_assoc]
    _ = _ := by rw [h2, Matrix.mul_one]; simp only [Matrix.mul_assoc]

theorem axis_cross {n : V3} (h : IsTwinAxis V W n) : crossDirection W n = -crossDirection V n := by
  have hn : halfTurn n *ᵥ n = n := by rw [halfTurn_mulVec, h.1]; module
  rw [crossDirection, crossDirection, axis_square h, ← mulVec_mulVec, hn, ← mulVec_mulVec, halfTurn_mulVec, map_sub, map_smul,
    cross_self, smul_zero, zero_sub]

theorem axis_turn {n : V3} (V : Mat3) : halfTurn n *ᵥ crossDirection V n = -crossDirection V n := by
  rw [halfTurn_mulVec, crossDirection, cross_orth, mul_zero, zero_smul, zero_sub]

theorem axis_principal {n : V3} (h : IsTwinAxis V W n) (hy : IsPrincipal V (crossDirection V n)) :
    IsPrincipal W (crossDirection W n) := by
  obtain ⟨d, hd⟩ := hy
  refine ⟨d, ?_⟩
  rw [axis_cross h, ← axis_turn V, ← h.2, halfTurn_symm, mulVec_mulVec, Matrix.mul_assoc, halfTurn_sq h.1, Matrix.mul_one,
    ← mulVec_mulVec, hd, mulVec_smul]

theorem axis_notPrincipal {n : V3} (h : IsTwinAxis V W n) (hy : ClearlyNotPrincipal V (crossDirection V n)) :
    ClearlyNotPrincipal W (crossDirection W n) := by
  unfold ClearlyNotPrincipal at hy ⊢
  have hny : n ⬝ᵥ crossDirection V n = 0 := cross_orth _ _
  rw [axis_cross h, axis_square h]
  have e1 : (halfTurn n * (V * V) * halfTurn n) *ᵥ (-crossDirection V n) = halfTurn n *ᵥ ((V * V) *ᵥ crossDirection V n) := by
    rw [← axis_turn V, mulVec_mulVec, Matrix.mul_assoc, halfTurn_sq h.1, Matrix.mul_one, ← mulVec_mulVec]
  rw [e1, halfTurn_mulVec]
  set y := crossDirection V n
  set z := (V * V) *ᵥ y
  have e2 : (-y) ⨯₃ ((2 * (n ⬝ᵥ z)) • n - z) = y ⨯₃ z - (2 * (n ⬝ᵥ z)) • (y ⨯₃ n) := by
    rw [map_neg, LinearMap.neg_apply, map_sub, map_smul]
    abel
  have hu := h.1
  rw [dotProduct_comm n y] at hny
  have q1 := cross_dot_cross y z y n
  have q2 := cross_dot_cross y n y n
  rw [hny, zero_mul, sub_zero, dotProduct_comm z n] at q1
  rw [hny, zero_mul, sub_zero, hu, mul_one] at q2
  have e3 : (y ⨯₃ z - (2 * (n ⬝ᵥ z)) • (y ⨯₃ n)) ⬝ᵥ (y ⨯₃ z - (2 * (n ⬝ᵥ z)) • (y ⨯₃ n)) = (y ⨯₃ z) ⬝ᵥ (y ⨯₃ z) := by
    simp only [sub_dotProduct, dotProduct_sub, smul_dotProduct, dotProduct_smul, smul_eq_mul, q2,
      dotProduct_comm (y ⨯₃ n) (y ⨯₃ z), q1]
    ring
  rw [e2, e3, neg_dotProduct_neg]
  exact hy

/-- A fraction that is accurate for a twin is accurate for the twin seen from the other side. -/
theorem accurate_swap (hV : Vᵀ = V) (hW : Wᵀ = W) (hrel : Related V W) {Q Q' : Mat3} {a n a' n' : V3} (h : SolvesTwin V W Q a n)
    (hs : SeenFromOtherSide Q a n Q' a' n') {F : Option ℝ} (hF : AccurateFraction W a' n' F) : AccurateFraction V a n F := by
  have he := interface_ends hV hW hrel h
  have hi : ∀ f, interfaceDet W a' n' f = interfaceDet V a n f := fun f => by
    rw [interface_mix hW, swap_metric h hs.2, ← interface_mix hV, interface_quadratic hV a n (1 - f), interface_quadratic hV a n f, he]
    ring
  constructor
  · intro f hf
    simpa only [hi] using hF.sound f hf
  · intro s d g
    simpa only [hi] using hF.complete s d g

/-- `twinparam()` and `volume_frac()` together. -/
theorem twins_fractions (eig : Mat3 → EigRes) (heig : ∀ A, Aᵀ = A → EigOK (eig A).vals (eig A).vecs A)
    (rnd : ℝ → ℝ) (hr : ∀ x, |rnd x - x| ≤ 5 / 10 ^ 11)
    (h : SmallStretch U) (hc : ClearSymmetry U) {vs : List Mat3} (hvs : Mart.getVariants t ⟨some U, cubicR⟩ = .ok vs)
    (ht : t = .code ∨ t = .exact) (hV : V ∈ vs) (hW : W ∈ vs) (hne : V ≠ W) {n : V3} (hn : IsTwinAxis V W n)
    (hy : ClearlyNotPrincipal V (crossDirection V n) ∨ IsPrincipal V (crossDirection V n)) (skip : Bool) :
    ∃ P E₁ a₁ n₁ E₂ a₂ n₂ Q₁ b₁ m₁ Q₂ b₂ m₂ F₁ F₂, TwinPair.new eig V W skip = .ok P ∧
      P.twinParam eig t rnd false = .ok (some (some (Q₁, b₁, m₁), some (Q₂, b₂, m₂))) ∧
      Approximates V W E₁ a₁ n₁ Q₁ b₁ m₁ ∧ Approximates V W E₂ a₂ n₂ Q₂ b₂ m₂ ∧
      (∀ Q a n, SolvesTwin V W Q a n → (Q = E₁ ∧ SameUpToSign a₁ n₁ a n) ∨ (Q = E₂ ∧ SameUpToSign a₂ n₂ a n)) ∧
      P.volumeFrac eig t rnd false = .ok (F₁, F₂) ∧ AccurateFraction V a₁ n₁ F₁ ∧ AccurateFraction V a₂ n₂ F₂ := by
  obtain ⟨iV, iW, -⟩ := variant_of h hc hvs ht hV hW
  have sV := image_small h iV
  have sW := image_small h iW
  obtain ⟨P, E₁, a₁, n₁, E₂, a₂, n₂, Q₁, b₁, m₁, Q₂, b₂, m₂, r1, r2, r3, r4, r5⟩ :=
    C115_twinparam eig heig rnd hr h hc hvs ht hV hW hne hn hy skip
  have hU : P.Ui = V := by
    rw [new_ok eig (small_spd sV) (small_spd sW)] at r1
    cases r1
    rfl
  have hrel : Related V W := ⟨_, halfTurn_rotation hn.1, hn.2.symm⟩
  have key : ∀ {E a n Q b m}, Approximates V W E a n Q b m → AccurateFraction V a n (solveF V b m) := by
    intro E a n Q b m ha
    refine accurate_of sV.symmetric (interface_ends sV.symmetric sW.symmetric hrel ha.exact) ?_
    rw [cofVal_eq, cofVal_eq]
    exact cofactor_round sV (shear_bound sV sW ha.exact)
      (entry_of_dot (by norm_num) (by rw [ha.exact.unit]; norm_num)) ha.shear ha.normal
  exact ⟨P, E₁, a₁, n₁, E₂, a₂, n₂, Q₁, b₁, m₁, Q₂, b₂, m₂, _, _, r1, r2, r3, r4, r5,
    by simp only [TwinPair.volumeFrac, r2, hU, fracOf], key r3, key r4⟩

theorem seen_of {Q Q' : Mat3} {a n a' n' : V3} (h : Qᵀ = Q') (hs : SameUpToSign a' n' (-(Qᵀ *ᵥ a)) n) :
    SeenFromOtherSide Q a n Q' a' n' := by
  refine ⟨h.symm, ?_⟩
  rcases hs with ⟨h1, h2⟩ | ⟨h1, h2⟩
  · exact .inl ⟨h1.symm, h2.symm⟩
  · exact .inr ⟨by rw [h1, neg_neg], by rw [h2, neg_neg]⟩

/-- **C103** with the rounding of `twinparam()` and no condition on the axis test: for two variants of a small stretch with a twin
axis, whether compound or of types I and II, the twins that `TwinPair(W, V)` finds are those that `TwinPair(V, W)` finds, seen from
the other side and possibly exchanged, and the fractions of either are accurate for the twins of the other. -/
theorem C103_rounded (eig : Mat3 → EigRes) (heig : ∀ A, Aᵀ = A → EigOK (eig A).vals (eig A).vecs A)
    (rnd : ℝ → ℝ) (hr : ∀ x, |rnd x - x| ≤ 5 / 10 ^ 11)
    (h : SmallStretch U) (hc : ClearSymmetry U) {vs : List Mat3} (hvs : Mart.getVariants t ⟨some U, cubicR⟩ = .ok vs)
    (ht : t = .code ∨ t = .exact) (hV : V ∈ vs) (hW : W ∈ vs) (hne : V ≠ W) {n : V3} (hn : IsTwinAxis V W n)
    (hy : ClearlyNotPrincipal V (crossDirection V n) ∨ IsPrincipal V (crossDirection V n)) (skip skip' : Bool) :
    ∃ P P' E₁ a₁ n₁ E₂ a₂ n₂ Q₁ b₁ m₁ Q₂ b₂ m₂ E₁' a₁' n₁' E₂' a₂' n₂' Q₁' b₁' m₁' Q₂' b₂' m₂' F₁ F₂ F₁' F₂',
      TwinPair.new eig V W skip = .ok P ∧ TwinPair.new eig W V skip' = .ok P' ∧
      P.twinParam eig t rnd false = .ok (some (some (Q₁, b₁, m₁), some (Q₂, b₂, m₂))) ∧
      P'.twinParam eig t rnd false = .ok (some (some (Q₁', b₁', m₁'), some (Q₂', b₂', m₂'))) ∧
      Approximates V W E₁ a₁ n₁ Q₁ b₁ m₁ ∧ Approximates V W E₂ a₂ n₂ Q₂ b₂ m₂ ∧
      Approximates W V E₁' a₁' n₁' Q₁' b₁' m₁' ∧ Approximates W V E₂' a₂' n₂' Q₂' b₂' m₂' ∧
      P.volumeFrac eig t rnd false = .ok (F₁, F₂) ∧ P'.volumeFrac eig t rnd false = .ok (F₁', F₂') ∧
      AccurateFraction V a₁ n₁ F₁ ∧ AccurateFraction V a₂ n₂ F₂ ∧
      (SeenFromOtherSide E₁ a₁ n₁ E₁' a₁' n₁' ∧ SeenFromOtherSide E₂ a₂ n₂ E₂' a₂' n₂' ∧
          AccurateFraction V a₁ n₁ F₁' ∧ AccurateFraction V a₂ n₂ F₂' ∨
        SeenFromOtherSide E₂ a₂ n₂ E₁' a₁' n₁' ∧ SeenFromOtherSide E₁ a₁ n₁ E₂' a₂' n₂' ∧
          AccurateFraction V a₂ n₂ F₁' ∧ AccurateFraction V a₁ n₁ F₂') := by
  obtain ⟨iV, iW, -⟩ := variant_of h hc hvs ht hV hW
  have sV := image_small h iV
  have sW := image_small h iW
  have hrel : Related V W := ⟨_, halfTurn_rotation hn.1, hn.2.symm⟩
  obtain ⟨P, E₁, a₁, n₁, E₂, a₂, n₂, Q₁, b₁, m₁, Q₂, b₂, m₂, F₁, F₂, r1, r2, r3, r4, r5, r6, r7, r8⟩ :=
    twins_fractions eig heig rnd hr h hc hvs ht hV hW hne hn hy skip
  obtain ⟨P', E₁', a₁', n₁', E₂', a₂', n₂', Q₁', b₁', m₁', Q₂', b₂', m₂', F₁', F₂', s1, s2, s3, s4, s5, s6, s7, s8⟩ :=
    twins_fractions eig heig rnd hr h hc hvs ht hW hV hne.symm (axis_swap hn)
      (hy.imp (axis_notPrincipal hn) (axis_principal hn)) skip'
  have acc : ∀ {Q Q' : Mat3} {a n a' n' : V3} {F : Option ℝ}, SolvesTwin V W Q a n → SeenFromOtherSide Q a n Q' a' n' →
      AccurateFraction W a' n' F → AccurateFraction V a n F := fun h1 h2 h3 =>
    accurate_swap sV.symmetric sW.symmetric hrel h1 h2 h3
  have u1 := (s5 _ _ _ (swap_solves r3.exact)).imp (fun z => seen_of z.1 z.2) (fun z => seen_of z.1 z.2)
  have u2 := (s5 _ _ _ (swap_solves r4.exact)).imp (fun z => seen_of z.1 z.2) (fun z => seen_of z.1 z.2)
  have v1 := (r5 _ _ _ (swap_solves s3.exact)).imp (fun z => swap_same s3.exact.rotation z.1 z.2)
    (fun z => swap_same s3.exact.rotation z.1 z.2)
  have v2 := (r5 _ _ _ (swap_solves s4.exact)).imp (fun z => swap_same s4.exact.rotation z.1 z.2)
    (fun z => swap_same s4.exact.rotation z.1 z.2)
  refine ⟨P, P', E₁, a₁, n₁, E₂, a₂, n₂, Q₁, b₁, m₁, Q₂, b₂, m₂, E₁', a₁', n₁', E₂', a₂', n₂', Q₁', b₁', m₁', Q₂', b₂', m₂',
    F₁, F₂, F₁', F₂', r1, s1, r2, s2, r3, r4, s3, s4, r6, s6, r7, r8, ?_⟩
  have go : SeenFromOtherSide E₁ a₁ n₁ E₁' a₁' n₁' ∧ SeenFromOtherSide E₂ a₂ n₂ E₂' a₂' n₂' ∨
      SeenFromOtherSide E₂ a₂ n₂ E₁' a₁' n₁' ∧ SeenFromOtherSide E₁ a₁ n₁ E₂' a₂' n₂' := by
    tauto
  rcases go with ⟨g1, g2⟩ | ⟨g1, g2⟩
  · exact .inl ⟨g1, g2, acc r3.exact g1 s7, acc r4.exact g2 s8⟩
  · exact .inr ⟨g1, g2, acc r4.exact g1 s7, acc r3.exact g2 s8⟩

/-- **C103** The order does not matter for the type either: both orders are twinnable, and both are compound if the direction of
C113 is a principal one, and neither is if it is clearly not. -/
theorem C103_types (eig : Mat3 → EigRes) (heig : ∀ A, Aᵀ = A → EigOK (eig A).vals (eig A).vecs A)
    (h : SmallStretch U) (hc : ClearSymmetry U) {vs : List Mat3} (hvs : Mart.getVariants t ⟨some U, cubicR⟩ = .ok vs)
    (ht : t = .code ∨ t = .exact) (hV : V ∈ vs) (hW : W ∈ vs) (hne : V ≠ W) {n : V3} (hn : IsTwinAxis V W n) (skip skip' : Bool) :
    (ClearlyNotPrincipal V (crossDirection V n) → ∃ P P', TwinPair.new eig V W skip = .ok P ∧ TwinPair.new eig W V skip' = .ok P' ∧
      P.isTwinnable = true ∧ P'.isTwinnable = true ∧ P.isCompound = .ok false ∧ P'.isCompound = .ok false ∧
      P.isTypeI = .ok true ∧ P'.isTypeI = .ok true) ∧
    (IsPrincipal V (crossDirection V n) → ∃ P P', TwinPair.new eig V W skip = .ok P ∧ TwinPair.new eig W V skip' = .ok P' ∧
      P.isTwinnable = true ∧ P'.isTwinnable = true ∧ P.isCompound = .ok true ∧ P'.isCompound = .ok true ∧
      P.isTypeI = .ok false ∧ P'.isTypeI = .ok false) := by
  constructor
  · intro hy
    obtain ⟨P, r1, r2, r3, r4, -⟩ := C113_types eig heig h hc hvs ht id hV hW hne hn hy skip
    obtain ⟨P', s1, s2, s3, s4, -⟩ :=
      C113_types eig heig h hc hvs ht id hW hV hne.symm (axis_swap hn) (axis_notPrincipal hn hy) skip'
    exact ⟨P, P', r1, s1, r2, s2, r3, s3, r4, s4⟩
  · intro hy
    obtain ⟨P, -, -, -, -, r1, r2, r3, r4, -⟩ := C113_compound eig heig h hc hvs ht id hV hW hne hn hy skip
    obtain ⟨P', -, -, -, -, s1, s2, s3, s4, -⟩ :=
      C113_compound eig heig h hc hvs ht id hW hV hne.symm (axis_swap hn) (axis_principal hn hy) skip'
    exact ⟨P, P', r1, s1, r2, s2, r3, s3, r4, s4⟩

/-! ## The hypotheses are met -/

/-- Both cases occur for Ni-Ti: the half turns about the first two cube axes. -/
example (eig : Mat3 → EigRes) (heig : ∀ A, Aᵀ = A → EigOK (eig A).vals (eig A).vecs A) :
    (∃ P P', TwinPair.new eig nitiStretch (realOf (edgeTurn 1) * nitiStretch * (realOf (edgeTurn 1))ᵀ) false = .ok P ∧
      TwinPair.new eig (realOf (edgeTurn 1) * nitiStretch * (realOf (edgeTurn 1))ᵀ) nitiStretch false = .ok P' ∧
      P.isCompound = .ok false ∧ P'.isCompound = .ok false) ∧
    ∃ P P', TwinPair.new eig nitiStretch (realOf (edgeTurn 0) * nitiStretch * (realOf (edgeTurn 0))ᵀ) false = .ok P ∧
      TwinPair.new eig (realOf (edgeTurn 0) * nitiStretch * (realOf (edgeTurn 0))ᵀ) nitiStretch false = .ok P' ∧
      P.isCompound = .ok true ∧ P'.isCompound = .ok true := by
  obtain ⟨vs, h1, h2, h3⟩ := niti_pairs
  obtain ⟨P, P', r1, r2, -, -, r3, r4, -⟩ := (C103_types eig heig niti_small niti_clear h1 (.inl rfl) h2 (h3 1).1 (h3 1).2
    (niti_axis 1) false false).1 niti_directions.1
  obtain ⟨S, S', s1, s2, -, -, s3, s4, -⟩ := (C103_types eig heig niti_small niti_clear h1 (.inl rfl) h2 (h3 0).1 (h3 0).2
    (niti_axis 0) false false).2 niti_directions.2
  exact ⟨⟨P, P', r1, r2, r3, r4⟩, S, S', s1, s2, s3, s4⟩

/-- Ni-Ti and its turn about the first cube axis, which are compound, or about the second, which are not, with the rounding of
the code: the first twin of one order is a twin of the other order seen from the other side. -/
example (eig : Mat3 → EigRes) (heig : ∀ A, Aᵀ = A → EigOK (eig A).vals (eig A).vecs A) (i : Fin 3) (hi : i = 0 ∨ i = 1) :
    ∃ W P P' E₁ a₁ n₁ E' a' n' F₁ F₂, W = realOf (edgeTurn i) * nitiStretch * (realOf (edgeTurn i))ᵀ ∧
      TwinPair.new eig nitiStretch W false = .ok P ∧ TwinPair.new eig W nitiStretch true = .ok P' ∧
      SolvesTwin nitiStretch W E₁ a₁ n₁ ∧ SolvesTwin W nitiStretch E' a' n' ∧ SeenFromOtherSide E₁ a₁ n₁ E' a' n' ∧
      P.volumeFrac eig .code rnd10 false = .ok (F₁, F₂) ∧ AccurateFraction nitiStretch a₁ n₁ F₁ := by
  obtain ⟨vs, h1, h2, h3⟩ := niti_pairs
  have hy : ClearlyNotPrincipal nitiStretch (crossDirection nitiStretch (Pi.single i 1)) ∨
      IsPrincipal nitiStretch (crossDirection nitiStretch (Pi.single i 1)) := by
    rcases hi with rfl | rfl
    · exact .inr niti_directions.2
    · exact .inl niti_directions.1
  obtain ⟨P, P', E₁, a₁, n₁, E₂, a₂, n₂, Q₁, b₁, m₁, Q₂, b₂, m₂, E₁', a₁', n₁', E₂', a₂', n₂', Q₁', b₁', m₁', Q₂', b₂', m₂',
    F₁, F₂, F₁', F₂', r1, s1, -, -, r3, -, s3, s4, r6, -, r7, -, h⟩ :=
    C103_rounded eig heig rnd10 C55_rounding niti_small niti_clear h1 (.inl rfl) h2 (h3 i).1 (h3 i).2 (niti_axis i) hy false true
  rcases h with ⟨h, -⟩ | ⟨-, h, -⟩
  · exact ⟨_, P, P', E₁, a₁, n₁, _, _, _, F₁, F₂, rfl, r1, s1, r3.exact, s3.exact, h, r6, r7⟩
  · exact ⟨_, P, P', E₁, a₁, n₁, _, _, _, F₁, F₂, rfl, r1, s1, r3.exact, s4.exact, h, r6, r7⟩

end Verif.Props
