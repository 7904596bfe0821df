import Verif.Spec.SwapPlanes
import Verif.Props.HabitComplete
import Verif.Props.SmallSwap

/-!
# The habit planes of a pair and of the exchanged pair, with rounding

C103: both orders give the same habit planes, up to a small angle.
-/

namespace Verif.Props

open Matrix Verif.Model Verif.Spec Verif.Lemmas

local notation "Mat3" => Matrix (Fin 3) (Fin 3) ℝ

variable {U V W : Mat3} {t : Tol}

/-- an approximate habit plane of a deformation is near to one of the planes found for a deformation close to it -/
theorem transfer {F F' : Mat3} {δ g c : ℝ} {m₁ m₂ : V3} (hf : FindsEveryPlane F δ g m₁ m₂)
    (hc : ∀ x, |(F *ᵥ x) ⬝ᵥ (F *ᵥ x) - (F' *ᵥ x) ⬝ᵥ (F' *ᵥ x)| ≤ c * (x ⬝ᵥ x)) {R : Mat3} {b m : V3} (h : ApproxHabit F' δ R b m)
    (h4 : 4 * (δ + c) ≤ g) (h5 : 250 * (δ + (δ + c)) ^ 2 ≤ g ^ 3) :
    ∃ m' ∈ [m₁, m₂], (m ⨯₃ m') ⬝ᵥ (m ⨯₃ m') ≤ (6 * (δ + (δ + c)) / g) ^ 2 := by
  refine hf (δ + c) b m h.unit (fun x => ?_) h4 h5
  have e1 := abs_le.1 (h.fits x)
  have e2 := abs_le.1 (hc x)
  rw [lengthError_eq] at e1 ⊢
  exact abs_le.2 ⟨by linarith [e1.1, e2.2], by linarith [e1.2, e2.1]⟩

/-- the four planes of a twin and those of the twin seen from the other side -/
theorem twin_planes (eig : Mat3 → EigRes) (heig : ∀ A, Aᵀ = A → EigOK (eig A).vals (eig A).vecs A) (sV : SmallStretch V)
    (sW : SmallStretch W) (hrel : Related V W) {E E' : Mat3} {a n a' n' : V3} (h : SolvesTwin V W E a n)
    (hs : SeenFromOtherSide E a n E' a' n') {f f' A e g δ : ℝ} (hg : 0 < g) (hA0 : 0 ≤ A) (hA1 : A ≤ 1) (hA : a ⬝ᵥ a ≤ A ^ 2)
    (he : |f - f'| ≤ e) (he1 : e ≤ 1) (f0 : 0 < f) (f1 : f < 1)
    (s1 : StretchesBothWays (V + f • vecMulVec a n) g) (s2 : StretchesBothWays (V + f' • vecMulVec a n) g)
    (h4 : 4 * (δ + 5 * A * e) ≤ g) (h5 : 250 * (δ + (δ + 5 * A * e)) ^ 2 ≤ g ^ 3) {x₁ x₂ x₃ x₄ y₁ y₂ y₃ y₄ : Mat3 × V3 × V3}
    (p1 : ∀ x ∈ [x₁, x₂], ApproxHabit (V + f • vecMulVec a n) δ x.1 x.2.1 x.2.2)
    (p2 : ∀ x ∈ [x₃, x₄], ApproxHabit (V + (1 - f) • vecMulVec a n) δ x.1 x.2.1 x.2.2)
    (d1 : |x₁.2.2 ⬝ᵥ x₂.2.2| ≤ 1 - g / 4) (d2 : |x₃.2.2 ⬝ᵥ x₄.2.2| ≤ 1 - g / 4)
    (p3 : ∀ x ∈ [y₁, y₂], ApproxHabit (W + f' • vecMulVec a' n') δ x.1 x.2.1 x.2.2)
    (p4 : ∀ x ∈ [y₃, y₄], ApproxHabit (W + (1 - f') • vecMulVec a' n') δ x.1 x.2.1 x.2.2)
    (d3 : |y₁.2.2 ⬝ᵥ y₂.2.2| ≤ 1 - g / 4) (d4 : |y₃.2.2 ⬝ᵥ y₄.2.2| ≤ 1 - g / 4) :
    (∀ y ∈ [y₁, y₂, y₃, y₄], ∃ x ∈ [x₁, x₂, x₃, x₄],
      (y.2.2 ⨯₃ x.2.2) ⬝ᵥ (y.2.2 ⨯₃ x.2.2) ≤ (6 * (δ + (δ + 5 * A * e)) / g) ^ 2) ∧
    ∀ x ∈ [x₁, x₂, x₃, x₄], ∃ y ∈ [y₁, y₂, y₃, y₄],
      (x.2.2 ⨯₃ y.2.2) ⬝ᵥ (x.2.2 ⨯₃ y.2.2) ≤ (6 * (δ + (δ + 5 * A * e)) / g) ^ 2 := by
  have form : ∀ (k : ℝ) x, ((W + k • vecMulVec a' n') *ᵥ x) ⬝ᵥ ((W + k • vecMulVec a' n') *ᵥ x) =
      ((V + (1 - k) • vecMulVec a n) *ᵥ x) ⬝ᵥ ((V + (1 - k) • vecMulVec a n) *ᵥ x) := fun k x => by
    rw [← gram_form, ← gram_form]
    have := swap_metric h hs.2 k
    simp only [mixMetric, outer_eq] at this
    rw [this]
  have close : ∀ {k k' : ℝ}, 0 ≤ k → k ≤ 1 → |k' - k| ≤ e → ∀ x, |((V + k • vecMulVec a n) *ᵥ x) ⬝ᵥ ((V + k • vecMulVec a n) *ᵥ x) -
      ((V + k' • vecMulVec a n) *ᵥ x) ⬝ᵥ ((V + k' • vecMulVec a n) *ᵥ x)| ≤ 5 * A * e * (x ⬝ᵥ x) := fun {k k'} k0 k1 hk x => by
    have := fraction_close (a := a) (n := n) (c := k' - k) (laminate_upper sV sW h k0 k1) h.unit hA0 hA1 hA hk he1 x
    rwa [add_assoc, ← add_smul, add_sub_cancel] at this
  have q1 := close f0.le f1.le (by rwa [abs_sub_comm] at he : |f' - f| ≤ e)
  have q2 := close (k := 1 - f) (k' := 1 - f') (by linarith) (by linarith) (by rwa [show 1 - f' - (1 - f) = f - f' by ring])
  have z1 := finds_every hg s1 (p1 x₁ (by simp)) (p1 x₂ (by simp)) d1
  have z2 := finds_every hg (bothWays_swap eig heig sV sW hrel h s1) (p2 x₃ (by simp)) (p2 x₄ (by simp)) d2
  have conv : ∀ {k : ℝ}, StretchesBothWays (V + (1 - k) • vecMulVec a n) g → StretchesBothWays (W + k • vecMulVec a' n') g := by
    rintro k ⟨⟨p, p1, p2⟩, q, q1, q2⟩
    exact ⟨⟨p, p1, by rw [form]; exact p2⟩, q, q1, by rw [form]; exact q2⟩
  have z3 := finds_every hg (conv (bothWays_swap eig heig sV sW hrel h s2)) (p3 y₁ (by simp)) (p3 y₂ (by simp)) d3
  have z4 := finds_every hg (conv (k := 1 - f') (by rw [sub_sub_cancel]; exact s2)) (p4 y₃ (by simp)) (p4 y₄ (by simp)) d4
  have lift : ∀ {m : V3} {u v w z : Mat3 × V3 × V3} {η : ℝ}, (∃ m' ∈ [u.2.2, v.2.2], (m ⨯₃ m') ⬝ᵥ (m ⨯₃ m') ≤ η) →
      (∃ x ∈ [u, v, w, z], (m ⨯₃ x.2.2) ⬝ᵥ (m ⨯₃ x.2.2) ≤ η) ∧ ∃ x ∈ [w, z, u, v], (m ⨯₃ x.2.2) ⬝ᵥ (m ⨯₃ x.2.2) ≤ η := by
    rintro m u v w z η ⟨m', hm, hle⟩
    simp only [List.mem_cons, List.not_mem_nil, or_false] at hm
    rcases hm with rfl | rfl
    · exact ⟨⟨u, by simp, hle⟩, u, by simp, hle⟩
    · exact ⟨⟨v, by simp, hle⟩, v, by simp, hle⟩
  constructor
  · intro y hy
    simp only [List.mem_cons, List.not_mem_nil, or_false] at hy
    have a1 : ∀ y ∈ [y₁, y₂], ∃ x ∈ [x₁, x₂, x₃, x₄], (y.2.2 ⨯₃ x.2.2) ⬝ᵥ (y.2.2 ⨯₃ x.2.2) ≤ _ := fun y hy =>
      (lift (transfer z2 (fun x => by rw [form]; exact q2 x) (p3 y hy) h4 h5)).2
    have a2 : ∀ y ∈ [y₃, y₄], ∃ x ∈ [x₁, x₂, x₃, x₄], (y.2.2 ⨯₃ x.2.2) ⬝ᵥ (y.2.2 ⨯₃ x.2.2) ≤ _ := fun y hy =>
      (lift (transfer z1 (fun x => by rw [form, sub_sub_cancel]; exact q1 x) (p4 y hy) h4 h5)).1
    rcases hy with rfl | rfl | rfl | rfl
    exacts [a1 _ (by simp), a1 _ (by simp), a2 _ (by simp), a2 _ (by simp)]
  · intro x hx
    simp only [List.mem_cons, List.not_mem_nil, or_false] at hx
    have a1 : ∀ x ∈ [x₁, x₂], ∃ y ∈ [y₁, y₂, y₃, y₄], (x.2.2 ⨯₃ y.2.2) ⬝ᵥ (x.2.2 ⨯₃ y.2.2) ≤ _ := fun y hy =>
      (lift (transfer z4 (fun x => by rw [form, sub_sub_cancel, abs_sub_comm]; exact q1 x) (p1 y hy) h4 h5)).2
    have a2 : ∀ x ∈ [x₃, x₄], ∃ y ∈ [y₁, y₂, y₃, y₄], (x.2.2 ⨯₃ y.2.2) ⬝ᵥ (x.2.2 ⨯₃ y.2.2) ≤ _ := fun y hy =>
      (lift (transfer z3 (fun x => by rw [form, abs_sub_comm]; exact q2 x) (p2 y hy) h4 h5)).1
    rcases hx with rfl | rfl | rfl | rfl
    exacts [a1 _ (by simp), a1 _ (by simp), a2 _ (by simp), a2 _ (by simp)]

/-- **C103**, habit planes, with the rounding of `twinparam()`: for two variants of a small stretch with a twin axis whose laminates have
well determined habit planes, and fractions strictly between 0 and 1, each of the eight planes that `TwinPair(W, V)` finds makes with one
of those that `TwinPair(V, W)` finds an angle whose sine is at most `6 (2 δ + 5 A e) / g`, and the other way round. -/
theorem C103_habitplanes_rounded (eig : Mat3 → EigRes) (heig : ∀ A, Aᵀ = A → EigOK (eig A).vals (eig A).vecs A)
    (rnd : ℝ → ℝ) (hr : ∀ x, |rnd x - x| ≤ 5 / 10 ^ 11)
    (h : SmallStretch U) (hc : ClearSymmetry U) {vs : List Mat3} (hvs : Mart.getVariants t ⟨some U, cubicR⟩ = .ok vs)
    (ht : t = .code ∨ t = .exact) (hV : V ∈ vs) (hW : W ∈ vs) (hne : V ≠ W) {n : V3} (hn : IsTwinAxis V W n)
    (hy : ClearlyNotPrincipal V (crossDirection V n) ∨ IsPrincipal V (crossDirection V n)) (skip skip' : Bool) {A e g δ : ℝ}
    (hw : ∀ E a n, SolvesTwin V W E a n → WellDetermined V a n A e g) (hg : 1 / 500 ≤ g) (hA0 : 0 ≤ A) (hA1 : A ≤ 1) (he : e ≤ 1)
    (hδ : δ = 1 / 10 ^ 9 / g ^ 2 + 1 / 10 ^ 7) (h4 : 4 * (δ + 5 * A * e) ≤ g) (h5 : 250 * (δ + (δ + 5 * A * e)) ^ 2 ≤ g ^ 3) :
    ∃ P P' F₁ F₂ F₁' F₂', TwinPair.new eig V W skip = .ok P ∧ TwinPair.new eig W V skip' = .ok P' ∧
      P.volumeFrac eig t rnd false = .ok (F₁, F₂) ∧ P'.volumeFrac eig t rnd false = .ok (F₁', F₂') ∧
      ((∀ F ∈ [F₁, F₂, F₁', F₂'], ∃ f : ℝ, F = some f ∧ 0 < f ∧ f < 1) →
        ∀ ty ty', ty ≠ .other → ty' ≠ .other → ∃ xs ys : List (Mat3 × V3 × V3),
          P.habitPlanes eig t rnd false ty = .ok (xs.map some) ∧ P'.habitPlanes eig t rnd false ty' = .ok (ys.map some) ∧
          xs.length = 8 ∧ ys.length = 8 ∧
          (∀ y ∈ ys, ∃ x ∈ xs, (y.2.2 ⨯₃ x.2.2) ⬝ᵥ (y.2.2 ⨯₃ x.2.2) ≤ (6 * (δ + (δ + 5 * A * e)) / g) ^ 2) ∧
          ∀ x ∈ xs, ∃ y ∈ ys, (x.2.2 ⨯₃ y.2.2) ⬝ᵥ (x.2.2 ⨯₃ y.2.2) ≤ (6 * (δ + (δ + 5 * A * e)) / g) ^ 2) := by
  obtain ⟨iV, iW, -⟩ := variant_of h hc hvs ht hV hW
  have sV := image_small h iV
  have sW := image_small h iW
  have hg0 : 0 < g := lt_of_lt_of_le (by norm_num) hg
  have hrel : Related V W := ⟨_, halfTurn_rotation hn.1, hn.2.symm⟩
  obtain ⟨P, E₁, a₁, n₁, E₂, a₂, n₂, r1, r3, r4, r5, F₁, F₂, r6, r7, r8, r9⟩ :=
    C118_habitplanes eig heig rnd hr h hc hvs ht hV hW hne hn hy skip
  obtain ⟨P', E₁', a₁', n₁', E₂', a₂', n₂', s1, s3, s4, s5, F₁', F₂', s6, s7, s8, s9⟩ :=
    C118_habitplanes eig heig rnd hr h hc hvs ht hW hV hne.symm (axis_swap hn)
      (hy.imp (axis_notPrincipal hn) (axis_principal hn)) skip'
  refine ⟨P, P', F₁, F₂, F₁', F₂', r1, s1, r6, s6, ?_⟩
  intro hF ty ty' hty hty'
  obtain ⟨f₁, rfl, l1, u1⟩ := hF F₁ (by simp)
  obtain ⟨f₂, rfl, l2, u2⟩ := hF F₂ (by simp)
  obtain ⟨f₁', rfl, l1', u1'⟩ := hF F₁' (by simp)
  obtain ⟨f₂', rfl, l2', u2'⟩ := hF F₂' (by simp)
  have acc : ∀ {Q Q' : Mat3} {a n a' n' : V3} {F : Option ℝ}, SolvesTwin V W Q a n → SeenFromOtherSide Q a n Q' a' n' →
      AccurateFraction W a' n' F → AccurateFraction V a n F := fun h1 h2 h3 =>
    accurate_swap sV.symmetric sW.symmetric hrel h1 h2 h3
  have ways : ∀ {Q Q' : Mat3} {a n a' n' : V3} {f : ℝ}, SolvesTwin V W Q a n → SeenFromOtherSide Q a n Q' a' n' →
      AccurateFraction W a' n' (some f) → 0 < f → f < 1 → StretchesBothWays (W + f • vecMulVec a' n') g := by
    intro Q Q' a n a' n' f h1 h2 h3 h4 h5
    obtain ⟨⟨p, p1, p2⟩, q, q1, q2⟩ := bothWays_swap eig heig sV sW hrel h1 ((hw _ _ _ h1).stretches f (acc h1 h2 h3) h4 h5)
    have form : ∀ x, ((W + f • vecMulVec a' n') *ᵥ x) ⬝ᵥ ((W + f • vecMulVec a' n') *ᵥ x) =
        ((V + (1 - f) • vecMulVec a n) *ᵥ x) ⬝ᵥ ((V + (1 - f) • vecMulVec a n) *ᵥ x) := fun x => by
      rw [← gram_form, ← gram_form]
      have := swap_metric h1 h2.2 f
      simp only [mixMetric, outer_eq] at this
      rw [this]
    exact ⟨⟨p, p1, by rw [form]; exact p2⟩, q, q1, by rw [form]; exact q2⟩
  have v1 := (s5 _ _ _ (swap_solves r3)).imp (fun z => seen_of z.1 z.2) (fun z => seen_of z.1 z.2)
  have v2 := (s5 _ _ _ (swap_solves r4)).imp (fun z => seen_of z.1 z.2) (fun z => seen_of z.1 z.2)
  have w1 := (r5 _ _ _ (swap_solves s3)).imp (fun z => swap_same s3.rotation z.1 z.2) (fun z => swap_same s3.rotation z.1 z.2)
  have w2 := (r5 _ _ _ (swap_solves s4)).imp (fun z => swap_same s4.rotation z.1 z.2) (fun z => swap_same s4.rotation z.1 z.2)
  have go : SeenFromOtherSide E₁ a₁ n₁ E₁' a₁' n₁' ∧ SeenFromOtherSide E₂ a₂ n₂ E₂' a₂' n₂' ∨
      SeenFromOtherSide E₂ a₂ n₂ E₁' a₁' n₁' ∧ SeenFromOtherSide E₁ a₁ n₁ E₂' a₂' n₂' := by
    tauto
  obtain ⟨x₁, x₂, x₃, x₄, x₅, x₆, x₇, x₈, t0, t1, t2, t3, t4, d1, d2, d3, d4⟩ := r9 f₁ f₂ g rfl rfl l1 u1 l2 u2 hg
    ((hw _ _ _ r3).stretches _ r7 l1 u1) ((hw _ _ _ r4).stretches _ r8 l2 u2) ty hty
  have ways' : StretchesBothWays (W + f₁' • vecMulVec a₁' n₁') g ∧ StretchesBothWays (W + f₂' • vecMulVec a₂' n₂') g := by
    rcases go with ⟨g1, g2⟩ | ⟨g1, g2⟩
    · exact ⟨ways r3 g1 s7 l1' u1', ways r4 g2 s8 l2' u2'⟩
    · exact ⟨ways r4 g1 s7 l1' u1', ways r3 g2 s8 l2' u2'⟩
  obtain ⟨y₁, y₂, y₃, y₄, y₅, y₆, y₇, y₈, o0, o1, o2, o3, o4, c1, c2, c3, c4⟩ := s9 f₁' f₂' g rfl rfl l1' u1' l2' u2' hg
    ways'.1 ways'.2 ty' hty'
  rw [← hδ] at t1 t2 t3 t4 o1 o2 o3 o4
  refine ⟨[x₁, x₂, x₃, x₄, x₅, x₆, x₇, x₈], [y₁, y₂, y₃, y₄, y₅, y₆, y₇, y₈], t0, o0, rfl, rfl, ?_⟩
  have join : ∀ {p q : List (Mat3 × V3 × V3)} {p' q' : List (Mat3 × V3 × V3)} {L L' : List (Mat3 × V3 × V3)} {η : ℝ},
      (∀ z, z ∈ L ↔ z ∈ p ∨ z ∈ q) → (∀ z, z ∈ L' ↔ z ∈ p' ∨ z ∈ q') →
      (∀ y ∈ p, ∃ x ∈ p', (y.2.2 ⨯₃ x.2.2) ⬝ᵥ (y.2.2 ⨯₃ x.2.2) ≤ η) → (∀ y ∈ q, ∃ x ∈ q', (y.2.2 ⨯₃ x.2.2) ⬝ᵥ (y.2.2 ⨯₃ x.2.2) ≤ η) →
      ∀ y ∈ L, ∃ x ∈ L', (y.2.2 ⨯₃ x.2.2) ⬝ᵥ (y.2.2 ⨯₃ x.2.2) ≤ η := by
    intro p q p' q' L L' η e1 e2 e3 e4 y hy
    rcases (e1 y).1 hy with h | h
    · obtain ⟨x, hx, hle⟩ := e3 y h
      exact ⟨x, (e2 x).2 (.inl hx), hle⟩
    · obtain ⟨x, hx, hle⟩ := e4 y h
      exact ⟨x, (e2 x).2 (.inr hx), hle⟩
  have split : ∀ {a b c d e f g h : Mat3 × V3 × V3} (z), z ∈ [a, b, c, d, e, f, g, h] ↔ z ∈ [a, b, c, d] ∨ z ∈ [e, f, g, h] := by
    intro a b c d e f g h z
    rw [← List.mem_append]
    rfl
  rcases go with ⟨g1, g2⟩ | ⟨g1, g2⟩
  · have m1 := acc r3 g1 s7
    have m2 := acc r4 g2 s8
    obtain ⟨A1, B1⟩ := twin_planes eig heig sV sW hrel r3 g1 hg0 hA0 hA1 (hw _ _ _ r3).shear
      ((hw _ _ _ r3).fraction _ _ r7 m1 l1 u1 l1' u1') he l1 u1 ((hw _ _ _ r3).stretches _ r7 l1 u1)
      ((hw _ _ _ r3).stretches _ m1 l1' u1') h4 h5 t1 t2 d1 d2 o1 o2 c1 c2
    obtain ⟨A2, B2⟩ := twin_planes eig heig sV sW hrel r4 g2 hg0 hA0 hA1 (hw _ _ _ r4).shear
      ((hw _ _ _ r4).fraction _ _ r8 m2 l2 u2 l2' u2') he l2 u2 ((hw _ _ _ r4).stretches _ r8 l2 u2)
      ((hw _ _ _ r4).stretches _ m2 l2' u2') h4 h5 t3 t4 d3 d4 o3 o4 c3 c4
    exact ⟨join split split A1 A2, join split split B1 B2⟩
  · have m1 := acc r4 g1 s7
    have m2 := acc r3 g2 s8
    obtain ⟨A1, B1⟩ := twin_planes eig heig sV sW hrel r4 g1 hg0 hA0 hA1 (hw _ _ _ r4).shear
      ((hw _ _ _ r4).fraction _ _ r8 m1 l2 u2 l1' u1') he l2 u2 ((hw _ _ _ r4).stretches _ r8 l2 u2)
      ((hw _ _ _ r4).stretches _ m1 l1' u1') h4 h5 t3 t4 d3 d4 o1 o2 c1 c2
    obtain ⟨A2, B2⟩ := twin_planes eig heig sV sW hrel r3 g2 hg0 hA0 hA1 (hw _ _ _ r3).shear
      ((hw _ _ _ r3).fraction _ _ r7 m2 l1 u1 l2' u2') he l1 u1 ((hw _ _ _ r3).stretches _ r7 l1 u1)
      ((hw _ _ _ r3).stretches _ m2 l2' u2') h4 h5 t1 t2 d1 d2 o3 o4 c3 c4
    exact ⟨join split (fun z => (split z).trans or_comm) A1 A2, join (fun z => (split z).trans or_comm) split B1 B2⟩

/-- tetragonal stretches: the laminates have well determined habit planes -/
theorem tetra_determined {α γ : ℝ} (hα : 0 < α) (hγ : 0 < γ) (hne : α ≠ γ) {i j : Fin 3} (hij : i ≠ j) {s d g A : ℝ}
    (hs : 2 * s = |α ^ 2 - 1| * ((α ^ 2 - γ ^ 2) ^ 2 / (α ^ 2 + γ ^ 2))) (hd : 2 / 10 ^ 6 ≤ d) (hsd : 1 / 10 ^ 9 ≤ s * d ^ 2)
    (h1 : 1 / 2 + d ≤ laminateFraction α γ) (h2 : laminateFraction α γ ≤ 1 - d)
    (hag : α ^ 2 ≤ 1 - g ∧ 1 + g ≤ (α ^ 2 + γ ^ 2) / 2 ∨ (α ^ 2 + γ ^ 2) / 2 ≤ 1 - g ∧ 1 + g ≤ α ^ 2)
    (hA : 2 * (α ^ 2 - γ ^ 2) ^ 2 / (α ^ 2 + γ ^ 2) ≤ A ^ 2) {E : Mat3} {a n : V3}
    (he : SolvesTwin (tetraStretch α γ i) (tetraStretch α γ j) E a n) :
    WellDetermined (tetraStretch α γ i) a n A (4 / 10 ^ 10 / (s * d)) g := by
  have hD := mixDrop_pos hα hγ hne
  have hd0 : 0 < d := lt_of_lt_of_le (by norm_num) hd
  have hoff : (laminateFraction α γ - 1 / 2) ^ 2 = fractionOffset α γ := by
    have hpos : 0 < fractionOffset α γ := by
      by_contra hn
      rw [laminateFraction, Real.sqrt_eq_zero_of_nonpos (not_lt.1 hn)] at h1
      linarith
    rw [laminateFraction, add_sub_cancel_left, Real.sq_sqrt hpos.le]
  have key : ∀ {f : ℝ}, AccurateFraction (tetraStretch α γ i) a n (some f) → |f - laminateFraction α γ| ≤ 2 / 10 ^ 10 / (s * d) := by
    intro f hF
    obtain ⟨-, hl⟩ := tetra_laminate hα hγ hne hij he
    obtain ⟨f', e1, e2⟩ := hF.complete s d _ (by
      rw [(hl _).1, (hl _).1, show (α ^ 2 - 1) * ((α ^ 2 - 1) * (γ ^ 2 - 1) + 2 * (1 / 2) * (1 - 1 / 2) * mixDrop α γ) -
        (α ^ 2 - 1) * ((α ^ 2 - 1) * (γ ^ 2 - 1) + 2 * 0 * (1 - 0) * mixDrop α γ) = (α ^ 2 - 1) * (mixDrop α γ / 2) by ring,
        abs_mul, abs_of_pos (half_pos hD)]
      rw [← mixDrop] at hs
      linarith) hd hsd h1 h2 (by rw [(hl _).1, (offset_root hα hγ hne _).2 hoff, mul_zero])
    cases e1
    exact e2
  refine ⟨(tetra_shear_sq hα hγ hne hij he).trans_le hA, fun f f' k1 k2 _ _ _ _ => ?_, fun f _ _ _ => tetra_bothWays hα hγ hne hij he hag f⟩
  have e1 := abs_le.1 (key k1)
  have e2 := abs_le.1 (key k2)
  have e3 : 4 / 10 ^ 10 / (s * d) = 2 / 10 ^ 10 / (s * d) + 2 / 10 ^ 10 / (s * d) := by ring
  rw [e3]
  exact abs_le.2 ⟨by linarith, by linarith⟩

/-! ## The hypotheses are met -/

/-- The stretches 0.99 and 1.05, with the rounding of the code: both orders give eight planes, and the sine of the angle between those of
one order and those of the other is at most 1/50. -/
example (eig : Mat3 → EigRes) (heig : ∀ A, Aᵀ = A → EigOK (eig A).vals (eig A).vecs A) :
    ∃ P P', ∃ xs ys : List (Mat3 × V3 × V3),
      TwinPair.new eig (tetraStretch 0.99 1.05 0) (tetraStretch 0.99 1.05 1) false = .ok P ∧
      TwinPair.new eig (tetraStretch 0.99 1.05 1) (tetraStretch 0.99 1.05 0) false = .ok P' ∧
      P.habitPlanes eig .code rnd10 false .C = .ok (xs.map some) ∧ P'.habitPlanes eig .code rnd10 false .C = .ok (ys.map some) ∧
      xs.length = 8 ∧ ∀ y ∈ ys, ∃ x ∈ xs, (y.2.2 ⨯₃ x.2.2) ⬝ᵥ (y.2.2 ⨯₃ x.2.2) ≤ (1 / 50) ^ 2 := by
  have e : |(0.99 : ℝ) ^ 2 - 1| = 0.0199 := by norm_num [abs_of_neg]
  have ho : fractionOffset 0.99 1.05 ∈ Set.Icc ((1 / 10) ^ 2 : ℝ) ((2 / 5) ^ 2) := by
    rw [fractionOffset]
    constructor <;> norm_num
  have hl : Real.sqrt (fractionOffset 0.99 1.05) ∈ Set.Icc (1 / 10 : ℝ) (2 / 5) :=
    ⟨Real.le_sqrt_of_sq_le ho.1, Real.sqrt_le_iff.2 ⟨by norm_num, ho.2⟩⟩
  have hl1 : 1 / 2 + 1 / 10 ≤ laminateFraction 0.99 1.05 := by rw [laminateFraction]; linarith [hl.1]
  have hl2 : laminateFraction 0.99 1.05 ≤ 1 - 1 / 10 := by rw [laminateFraction]; linarith [hl.2]
  have hα : |(0.99 : ℝ) - 1| ≤ 13 / 100 := by norm_num [abs_of_neg]
  have hγ : |(1.05 : ℝ) - 1| ≤ 13 / 100 := by norm_num [abs_of_pos]
  have hd : 2 / 10 ^ 4 ≤ |(0.99 : ℝ) - 1.05| := by norm_num [abs_of_neg]
  obtain ⟨s, hs⟩ : ∃ s : ℝ, s = 0.0199 * ((0.99 ^ 2 - 1.05 ^ 2) ^ 2 / (0.99 ^ 2 + 1.05 ^ 2)) / 2 := ⟨_, rfl⟩
  have hs2 : 2 * s = |(0.99 : ℝ) ^ 2 - 1| * ((0.99 ^ 2 - 1.05 ^ 2) ^ 2 / (0.99 ^ 2 + 1.05 ^ 2)) := by rw [e, hs]; ring
  have hsd : 1 / 10 ^ 9 ≤ s * (1 / 10) ^ 2 := by rw [hs]; norm_num
  have hne : (0.99 : ℝ) ≠ 1.05 := by norm_num
  obtain ⟨vs, hvs, -, -, -, hmem⟩ := C101_variants (t := .code) (.inl rfl) (tetra_clearly hα hγ hd) 0
  obtain ⟨P, P', F₁, F₂, F₁', F₂', r1, r2, r3, r4, r5⟩ := C103_habitplanes_rounded eig heig rnd10 C55_rounding
    (tetra_smallStretch hα hγ 0) (tetra_clearSymmetry hd 0) hvs (.inl rfl) ((hmem _).2 ⟨0, rfl⟩) ((hmem _).2 ⟨1, rfl⟩)
    (fun e => absurd (tetraStretch_inj hne e) (by decide)) (diagonal_axis (by decide) (.inl rfl))
    (.inr (tetra_cross 0.99 1.05 (by decide) 1)) false false (A := 1 / 8) (g := 1 / 60) (e := 4 / 10 ^ 10 / (s * (1 / 10)))
    (fun E a n hE => tetra_determined (by norm_num) (by norm_num) hne (by decide) hs2 (by norm_num) hsd hl1 hl2 (.inl (by norm_num))
      (by norm_num) hE) (by norm_num) (by norm_num) (by norm_num) (by rw [hs]; norm_num) rfl (by rw [hs]; norm_num)
    (by rw [hs]; norm_num)
  have small : 2 / 10 ^ 10 / (s * (1 / 10)) ≤ 1 / 20 := by rw [hs]; norm_num
  obtain ⟨Q, f₁, f₂, q1, q2, q3, q4⟩ := C116_tetragonal eig heig rnd10 C55_rounding hα hγ hd (t := .code) (.inl rfl)
    (i := 0) (j := 1) (by decide) hs2 (by norm_num) hsd hl1 hl2 false
  obtain ⟨Q', f₁', f₂', w1, w2, w3, w4⟩ := C116_tetragonal eig heig rnd10 C55_rounding hα hγ hd (t := .code) (.inl rfl)
    (i := 1) (j := 0) (by decide) hs2 (by norm_num) hsd hl1 hl2 false
  rw [r1] at q1
  rw [r2] at w1
  cases q1
  cases w1
  rw [r3] at q2
  rw [r4] at w2
  cases q2
  cases w2
  have inside : ∀ {f : ℝ}, |f - laminateFraction 0.99 1.05| ≤ 2 / 10 ^ 10 / (s * (1 / 10)) → 0 < f ∧ f < 1 := fun {f} hf => by
    have := abs_le.1 (hf.trans small)
    constructor <;> linarith
  obtain ⟨xs, ys, u1, u2, u3, -, u4, -⟩ := r5 (by
    intro F hF
    simp only [List.mem_cons, List.not_mem_nil, or_false] at hF
    rcases hF with rfl | rfl | rfl | rfl
    exacts [⟨_, rfl, inside q3⟩, ⟨_, rfl, inside q4⟩, ⟨_, rfl, inside w3⟩, ⟨_, rfl, inside w4⟩]) .C .C (by simp) (by simp)
  refine ⟨P, P', xs, ys, r1, r2, u1, u2, u3, fun y hy => ?_⟩
  obtain ⟨x, hx, hle⟩ := u4 y hy
  refine ⟨x, hx, hle.trans ?_⟩
  rw [hs]
  norm_num

end Verif.Props
