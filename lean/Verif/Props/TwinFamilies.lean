import Verif.Props.MonoTwins
import Verif.Props.TwinSys

/-!
# The twin system of a transformation

C106: the numbers of twin pairs that a `TwinSystem` made from a `Martensite` object reports, for the three families of
C101, C104 and C105.
-/

namespace Verif.Props

open Matrix Verif.Model Verif.Spec Verif.Lemmas

local notation "Mat3" => Matrix (Fin 3) (Fin 3) ℝ

variable {α β γ p q r d : ℝ} {t : Tol}

/-! ### counting -/

theorem positions_length {α : Type} (f : α → Bool) (k : ℕ) (l : List α) : (positions f k l).length = (l.filter f).length := by
  induction l generalizing k with
  | nil => rfl
  | cons x xs ih =>
    unfold positions
    by_cases h : f x <;> simp [h, ih]

/-- Unordered pairs are half of the ordered ones. -/
theorem pairs_count {I : Type} [Fintype I] [DecidableEq I] {n : ℕ} (e : Fin n ≃ I) (P : I → I → Bool)
    (sym : ∀ a b, P a b = P b a) (h : ℕ × ℕ → Bool)
    (hh : ∀ x y : Fin n, x < y → h (x.1, y.1) = P (e x) (e y)) :
    2 * ((indexPairs n).filter h).length = (Finset.univ.filter fun ab : I × I => ab.1 ≠ ab.2 ∧ P ab.1 ab.2 = true).card := by
  classical
  have hnd : ((indexPairs n).filter h).Nodup := by
    refine List.Nodup.filter _ ((indexPairs_sorted n).imp ?_)
    rintro ⟨a, b⟩ ⟨c, d⟩ hl heq
    cases heq
    unfold LexLt at hl
    simp only at hl
    omega
  rw [← List.toFinset_card_of_nodup hnd]
  have h1 : (((indexPairs n).filter h).toFinset).card =
      (Finset.univ.filter fun xy : Fin n × Fin n => xy.1 < xy.2 ∧ P (e xy.1) (e xy.2) = true).card := by
    symm
    refine Finset.card_bij (fun xy _ => (xy.1.1, xy.2.1)) ?_ ?_ ?_
    · rintro ⟨x, y⟩ hxy
      simp only [Finset.mem_filter, Finset.mem_univ, true_and] at hxy
      rw [List.mem_toFinset, List.mem_filter, mem_indexPairs]
      exact ⟨⟨hxy.1, y.2⟩, by rw [hh x y hxy.1]; exact hxy.2⟩
    · rintro ⟨x, y⟩ - ⟨x', y'⟩ - heq
      simp only [Prod.mk.injEq] at heq ⊢
      exact ⟨Fin.ext heq.1, Fin.ext heq.2⟩
    · rintro ⟨a, b⟩ hab
      rw [List.mem_toFinset, List.mem_filter, mem_indexPairs] at hab
      obtain ⟨⟨h1, h2⟩, h3⟩ := hab
      refine ⟨(⟨a, by omega⟩, ⟨b, h2⟩), ?_, rfl⟩
      simp only [Finset.mem_filter, Finset.mem_univ, true_and]
      exact ⟨h1, by rw [← hh ⟨a, by omega⟩ ⟨b, h2⟩ h1]; exact h3⟩
  have h2 : (Finset.univ.filter fun xy : Fin n × Fin n => xy.2 < xy.1 ∧ P (e xy.1) (e xy.2) = true).card =
      (Finset.univ.filter fun xy : Fin n × Fin n => xy.1 < xy.2 ∧ P (e xy.1) (e xy.2) = true).card := by
    refine Finset.card_bij (fun xy _ => (xy.2, xy.1)) ?_ ?_ ?_
    · rintro ⟨x, y⟩ hxy
      simp only [Finset.mem_filter, Finset.mem_univ, true_and] at hxy ⊢
      exact ⟨hxy.1, by rw [sym]; exact hxy.2⟩
    · rintro ⟨x, y⟩ - ⟨x', y'⟩ - heq
      simp only [Prod.mk.injEq] at heq ⊢
      exact ⟨heq.2, heq.1⟩
    · rintro ⟨x, y⟩ hxy
      simp only [Finset.mem_filter, Finset.mem_univ, true_and] at hxy
      refine ⟨(y, x), ?_, rfl⟩
      simp only [Finset.mem_filter, Finset.mem_univ, true_and]
      exact ⟨hxy.1, by rw [sym]; exact hxy.2⟩
  have h3 : (Finset.univ.filter fun ab : I × I => ab.1 ≠ ab.2 ∧ P ab.1 ab.2 = true).card =
      (Finset.univ.filter fun xy : Fin n × Fin n => xy.1 ≠ xy.2 ∧ P (e xy.1) (e xy.2) = true).card := by
    symm
    refine Finset.card_bij (fun xy _ => (e xy.1, e xy.2)) ?_ ?_ ?_
    · rintro ⟨x, y⟩ hxy
      simp only [Finset.mem_filter, Finset.mem_univ, true_and] at hxy ⊢
      exact ⟨fun h => hxy.1 (e.injective h), hxy.2⟩
    · rintro ⟨x, y⟩ - ⟨x', y'⟩ - heq
      simp only [Prod.mk.injEq] at heq ⊢
      exact ⟨e.injective heq.1, e.injective heq.2⟩
    · rintro ⟨a, b⟩ hab
      simp only [Finset.mem_filter, Finset.mem_univ, true_and] at hab
      refine ⟨(e.symm a, e.symm b), ?_, by simp⟩
      simp only [Finset.mem_filter, Finset.mem_univ, true_and, e.apply_symm_apply]
      exact ⟨fun h => hab.1 (e.symm.injective h), hab.2⟩
  have h4 : (Finset.univ.filter fun xy : Fin n × Fin n => xy.1 ≠ xy.2 ∧ P (e xy.1) (e xy.2) = true) =
      (Finset.univ.filter fun xy : Fin n × Fin n => xy.1 < xy.2 ∧ P (e xy.1) (e xy.2) = true) ∪
      (Finset.univ.filter fun xy : Fin n × Fin n => xy.2 < xy.1 ∧ P (e xy.1) (e xy.2) = true) := by
    ext ⟨x, y⟩
    simp only [Finset.mem_filter, Finset.mem_univ, true_and, Finset.mem_union, ne_eq]
    constructor
    · rintro ⟨h1, h2⟩
      rcases lt_or_gt_of_ne h1 with h | h
      · exact .inl ⟨h, h2⟩
      · exact .inr ⟨h, h2⟩
    · rintro (⟨h1, h2⟩ | ⟨h1, h2⟩)
      · exact ⟨h1.ne, h2⟩
      · exact ⟨h1.ne', h2⟩
  have h5 : Disjoint (Finset.univ.filter fun xy : Fin n × Fin n => xy.1 < xy.2 ∧ P (e xy.1) (e xy.2) = true)
      (Finset.univ.filter fun xy : Fin n × Fin n => xy.2 < xy.1 ∧ P (e xy.1) (e xy.2) = true) := by
    rw [Finset.disjoint_left]
    rintro ⟨x, y⟩ hx hy
    simp only [Finset.mem_filter, Finset.mem_univ, true_and] at hx hy
    exact absurd hx.1 (not_lt.2 hy.1.le)
  rw [h3, h4, Finset.card_union_of_disjoint h5, h2, h1]
  ring

/-- A list without repetitions that holds the members of a family with as many members is a numbering of it. -/
theorem list_numbering {A I : Type} [Fintype I] (fam : I → A) {us : List A} (hnd : us.Nodup)
    (hmem : ∀ V, V ∈ us ↔ ∃ a, V = fam a) (hlen : us.length = Fintype.card I) :
    ∃ e : Fin us.length ≃ I, ∀ x, us[x] = fam (e x) := by
  classical
  choose f hf using fun x : Fin us.length => (hmem us[x]).1 (List.getElem_mem x.2)
  have hinj : Function.Injective f := by
    intro x y hxy
    have : us[x] = us[y] := by rw [hf, hf, hxy]
    exact Fin.ext ((List.Nodup.getElem_inj_iff hnd).1 this)
  exact ⟨Equiv.ofBijective f ((Fintype.bijective_iff_injective_and_card f).2 ⟨hinj, by simp [hlen]⟩), hf⟩

/-! ### the counts of a family -/

/-- The answers of `TwinTable()`, `getCompound()` and `getTypeI()` have the lengths `nt`, `nc` and `ni`. -/
def Counts (eig : Mat3 → EigRes) (s : TwinSys) (nt nc ni : ℕ) : Prop :=
  ∃ tt c i, (s.step eig .table).2 = .ok (.table tt) ∧ tt.length = nt ∧
    (s.step eig .compound).2 = .ok (.indices c) ∧ c.length = nc ∧ (s.step eig .typeI).2 = .ok (.indices i) ∧ i.length = ni

theorem indicesOf_some (f : TwinPair → Except Err Bool) (g : TwinPair → Bool) (k : ℕ) (tp : List PairObj)
    (h : ∀ o ∈ tp, f o.p = .ok (g o.p)) : indicesOf f k tp = .ok (positions g k (tp.map PairObj.p)) := by
  induction tp generalizing k with
  | nil => rfl
  | cons o os ih =>
    simp only [indicesOf, h o (by simp), ih (k + 1) (fun o ho => h o (List.mem_cons_of_mem _ ho)), List.map_cons, positions]

theorem system_counts {I : Type} [Fintype I] [DecidableEq I] (eig : Mat3 → EigRes) (fam : I → Mat3) (T C : I → I → Bool)
    {us : List Mat3} (hnd : us.Nodup) (hmem : ∀ V, V ∈ us ↔ ∃ a, V = fam a) (hlen : us.length = Fintype.card I)
    (hspd : ∀ a, IsSPD (fam a)) (symT : ∀ a b, T a b = T b a) (symC : ∀ a b, C a b = C b a)
    (hp : ∀ a b, a ≠ b → ∃ P, TwinPair.new eig (fam a) (fam b) true = .ok P ∧ P.isTwinnable = T a b ∧
      (T a b = true → P.isCompound = .ok (C a b) ∧ P.isTypeI = .ok (!C a b)))
    {nt nc ni : ℕ} (ht : (Finset.univ.filter fun ab : I × I => ab.1 ≠ ab.2 ∧ T ab.1 ab.2 = true).card = 2 * nt)
    (hc : (Finset.univ.filter fun ab : I × I => ab.1 ≠ ab.2 ∧ (T ab.1 ab.2 && C ab.1 ab.2) = true).card = 2 * nc)
    (hi : (Finset.univ.filter fun ab : I × I => ab.1 ≠ ab.2 ∧ (T ab.1 ab.2 && !C ab.1 ab.2) = true).card = 2 * ni)
    (arg : Option (Option (List Mat3))) (ops : List TwinOp) :
    Counts eig ((TwinSys.new us arg).after eig ops) nt nc ni := by
  classical
  obtain ⟨e, he⟩ := list_numbering fam hnd hmem hlen
  have hus : ∀ U ∈ us, U.det ≠ 0 := by
    intro U hU
    obtain ⟨a, rfl⟩ := (hmem U).1 hU
    exact (spd_det_pos (hspd a)).ne'
  have hI := after_inv hus (ok := fun _ _ => True) (fun _ => trivial) (fun _ _ _ _ => trivial) ops
    (fun _ _ _ _ _ => trivial) (new_inv eig us arg _)
  have pair : ∀ x y : Fin us.length, x < y → (pairAt eig us (x.1, y.1)).isTwinnable = T (e x) (e y) ∧
      (T (e x) (e y) = true → (pairAt eig us (x.1, y.1)).isCompound = .ok (C (e x) (e y)) ∧
        (pairAt eig us (x.1, y.1)).isTypeI = .ok (!C (e x) (e y))) := by
    intro x y hxy
    obtain ⟨P, hP, h1, h2⟩ := hp (e x) (e y) (fun h => hxy.ne (e.injective h))
    have := new_at eig hus (x := (x.1, y.1)) x.2
    rw [List.getD_eq_getElem _ _ x.2, List.getD_eq_getElem _ _ y.2] at this
    have ex : us[x.1] = fam (e x) := he x
    have ey : us[y.1] = fam (e y) := he y
    rw [ex, ey, hP] at this
    cases this
    exact ⟨h1, h2⟩
  have tab : ∀ z ∈ theTable eig us, ∃ x y : Fin us.length, x < y ∧ z = (x.1, y.1) ∧ T (e x) (e y) = true := by
    rintro ⟨a, b⟩ hz
    obtain ⟨h1, h2⟩ := List.mem_filter.1 hz
    obtain ⟨h3, h4⟩ := mem_indexPairs.1 h1
    refine ⟨⟨a, by omega⟩, ⟨b, h4⟩, h3, rfl, ?_⟩
    rw [← (pair ⟨a, by omega⟩ ⟨b, h4⟩ h3).1]
    exact h2
  let gc : TwinPair → Bool := fun P => match P.isCompound with | .ok b => b | .error _ => false
  let gi : TwinPair → Bool := fun P => match P.isTypeI with | .ok b => b | .error _ => false
  have okc : ∀ o ∈ (theTable eig us).map (fun x => (⟨pairAt eig us x, none⟩ : PairObj)), o.p.isCompound = .ok (gc o.p) := by
    intro o ho
    obtain ⟨z, hz, rfl⟩ := List.mem_map.1 ho
    obtain ⟨x, y, hxy, rfl, hT⟩ := tab z hz
    simp only [gc, ((pair x y hxy).2 hT).1]
  have oki : ∀ o ∈ (theTable eig us).map (fun x => (⟨pairAt eig us x, none⟩ : PairObj)), o.p.isTypeI = .ok (gi o.p) := by
    intro o ho
    obtain ⟨z, hz, rfl⟩ := List.mem_map.1 ho
    obtain ⟨x, y, hxy, rfl, hT⟩ := tab z hz
    simp only [gi, ((pair x y hxy).2 hT).2]
  refine ⟨theTable eig us, _, _, step_plain hus (fun _ => trivial) hI (.inl rfl), ?_,
    (step_plain hus (fun _ => trivial) hI (.inr (.inr (.inl rfl)))).trans
      (by simp only [answer]; rw [indicesOf_some _ gc 0 _ okc]; rfl), ?_,
    (step_plain hus (fun _ => trivial) hI (.inr (.inr (.inr rfl)))).trans
      (by simp only [answer]; rw [indicesOf_some _ gi 0 _ oki]; rfl), ?_⟩
  · have := pairs_count e T symT (fun x => (pairAt eig us x).isTwinnable) (fun x y hxy => (pair x y hxy).1)
    rw [ht] at this
    unfold theTable
    omega
  · rw [positions_length, List.map_map, List.filter_map, List.length_map, theTable, List.filter_filter]
    have := pairs_count e (fun a b => T a b && C a b) (fun a b => by rw [symT, symC])
      (fun z => (gc ∘ PairObj.p ∘ fun x => (⟨pairAt eig us x, none⟩ : PairObj)) z && (pairAt eig us z).isTwinnable) (by
        intro x y hxy
        obtain ⟨h1, h2⟩ := pair x y hxy
        simp only [Function.comp_apply, h1]
        cases hT : T (e x) (e y) with
        | false => simp
        | true => simp [gc, (h2 hT).1])
    rw [hc] at this
    omega
  · rw [positions_length, List.map_map, List.filter_map, List.length_map, theTable, List.filter_filter]
    have := pairs_count e (fun a b => T a b && !C a b) (fun a b => by rw [symT, symC])
      (fun z => (gi ∘ PairObj.p ∘ fun x => (⟨pairAt eig us x, none⟩ : PairObj)) z && (pairAt eig us z).isTwinnable) (by
        intro x y hxy
        obtain ⟨h1, h2⟩ := pair x y hxy
        simp only [Function.comp_apply, h1]
        cases hT : T (e x) (e y) with
        | false => simp
        | true => simp [gi, (h2 hT).2])
    rw [hi] at this
    omega

/-! ### conventional pairs -/

theorem variants_orbit {U : M3} {G : List M3} {vs : List M3} (h : Mart.getVariants t ⟨some U, G⟩ = .ok vs) {V : M3}
    (hV : V ∈ vs) : V = U ∨ ∃ Q ∈ G, V = Q * U * Qᵀ := by
  have key : ∀ (l : List (ℕ × M3)) (s : List M3 × List (List ℕ)), (∀ x ∈ l, x.2 ∈ G) →
      (∀ W ∈ s.1, W = U ∨ ∃ Q ∈ G, W = Q * U * Qᵀ) → ∀ W ∈ (l.foldl (variantStep t U) s).1, W = U ∨ ∃ Q ∈ G, W = Q * U * Qᵀ := by
    intro l
    induction l with
    | nil => intro s _ hs; exact hs
    | cons x l ih =>
      intro s hx hs
      refine ih _ (fun y hy => hx y (List.mem_cons_of_mem _ hy)) ?_
      intro W hW
      unfold variantStep at hW
      simp only at hW
      split_ifs at hW
      · rcases List.mem_append.1 hW with hW | hW
        · exact hs W hW
        · rw [List.mem_singleton.1 hW]
          exact .inr ⟨x.2, hx x (by simp), rfl⟩
      · exact hs W hW
  have hvs : vs = (variantLoop t U G).1 := by
    unfold Mart.getVariants Mart.calcVariants at h
    simp only at h
    split at h
    · cases h
    · rename_i hc
      split at hc
      · cases hc
      · cases hc
      · cases hc
        cases h
        rfl
  rw [hvs, variantLoop] at hV
  refine key _ _ ?_ ?_ V hV
  · intro x hx
    obtain ⟨y, hy, rfl⟩ := List.mem_map.1 hx
    exact List.fst_mem_of_mem_zipIdx hy
  · intro W hW
    rw [List.mem_singleton.1 hW]
    exact .inl rfl

theorem positions_all {α : Type} (f : α → Bool) (k : ℕ) (l : List α) (h : ∀ x ∈ l, f x = true) :
    positions f k l = List.range' k l.length := by
  induction l generalizing k with
  | nil => rfl
  | cons x xs ih =>
    rw [positions, if_pos (h x (by simp)), ih (k + 1) (fun y hy => h y (List.mem_cons_of_mem _ hy)), List.length_cons,
      List.range'_succ]

/-- Every call of `getConventional()` returns the positions of all pairs of the table. -/
theorem system_conventional (eig : Mat3 → EigRes) {us : List Mat3} (hus : ∀ U ∈ us, U.det ≠ 0)
    (horb : ∀ U ∈ us, ∀ V ∈ us, ∃ Q ∈ cubicR, Q * U * Qᵀ = V) (ops : List TwinOp)
    (ho : ∀ o ∈ ops, ¬ Foreign (some cubicR) o) :
    ∃ tt, (((TwinSys.new us none).after eig ops).step eig .table).2 = .ok (.table tt) ∧
      (((TwinSys.new us none).after eig ops).step eig .conventional).2 = .ok (.indices (List.range tt.length)) := by
  have hI := after_inv hus (laue := some cubicR) (ok := ConvOK (some cubicR))
    (fun _ => .inl rfl) (fun L hL o h => convOK_step hL rfl o h) ops
    (by
      intro k G hG o h
      have := ho _ hG
      unfold Foreign at this
      push Not at this
      obtain ⟨L, hL, hG⟩ := this
      exact convOK_step hL hG o h) (new_inv eig us none _)
  refine ⟨theTable eig us, step_answer hus hI (by simp [Foreign]), (step_answer hus hI (by simp [Foreign])).trans ?_⟩
  have hrel : ∀ P ∈ (theTable eig us).map (pairAt eig us), P.related cubicR = true := by
    intro P hP
    obtain ⟨⟨x, y⟩, hz, rfl⟩ := List.mem_map.1 hP
    obtain ⟨h3, h4⟩ := mem_indexPairs.1 (List.mem_filter.1 hz).1
    have hx : x < us.length := by omega
    obtain ⟨Q, hQ, hQU⟩ := horb us[x] (List.getElem_mem hx) us[y] (List.getElem_mem h4)
    unfold TwinPair.related
    rw [List.any_eq_true]
    refine ⟨Q, hQ, ?_⟩
    classical
    rw [decide_eq_true_eq]
    intro i j
    have h1 : (pairAt eig us (x, y)).Ui = us[x] := List.getD_eq_getElem _ _ hx
    have h2 : (pairAt eig us (x, y)).Uj = us[y] := List.getD_eq_getElem _ _ h4
    rw [h1, h2, hQU, sub_self, abs_zero]
    exact small_pos
  have := positions_all (fun P : TwinPair => P.related cubicR) 0 _ hrel
  rw [List.length_map, ← List.range_eq_range'] at this
  simp only [answer]
  split
  · rename_i h
    rw [h]
    rfl
  · rename_i h
    cases h
  · rename_i h _
    cases h
    rw [this]

/-- The variants of a stretch are related by rotations of the group. -/
theorem variants_related {I : Type} (fam : I → Mat3) {us : List Mat3} (hmem : ∀ V, V ∈ us ↔ ∃ a, V = fam a)
    (h : ∀ a, ∃ vs, Mart.getVariants t ⟨some (fam a), cubicR⟩ = .ok vs ∧ ∀ V, V ∈ vs ↔ ∃ a, V = fam a) :
    ∀ U ∈ us, ∀ V ∈ us, ∃ Q ∈ cubicR, Q * U * Qᵀ = V := by
  intro U hU V hV
  obtain ⟨a, rfl⟩ := (hmem U).1 hU
  obtain ⟨vs, h1, h2⟩ := h a
  rcases variants_orbit h1 ((h2 V).2 ((hmem V).1 hV)) with rfl | ⟨Q, hQ, rfl⟩
  · exact ⟨1, cubicR_group.one_mem, by simp⟩
  · exact ⟨Q, hQ, rfl⟩

/-- `TwinSystem(m)` for the object `m`: after any calls the table has `nt` pairs, `nc` of them compound and `ni` of type I
and II, and, as long as `isconventional` is only called with the group of the system, all pairs are conventional. -/
def SystemOf (eig : Mat3 → EigRes) (t : Tol) (m : Mart) (nt nc ni : ℕ) : Prop :=
  ∃ s, TwinSys.ofMart t m = .ok s ∧ (∀ ops, Counts eig (s.after eig ops) nt nc ni) ∧
    ∀ ops, (∀ k G, .pairConventional k G ∈ ops → G = some cubicR) →
      ((s.after eig ops).step eig .conventional).2 = .ok (.indices (List.range nt))

theorem system_of {I : Type} [Fintype I] [DecidableEq I] (eig : Mat3 → EigRes) (fam : I → Mat3) (T C : I → I → Bool)
    (hv : ∀ a, ∃ vs, Mart.getVariants t ⟨some (fam a), cubicR⟩ = .ok vs ∧ vs.length = Fintype.card I ∧ vs.Nodup ∧
      ∀ V, V ∈ vs ↔ ∃ a, V = fam a)
    (hspd : ∀ a, IsSPD (fam a)) (symT : ∀ a b, T a b = T b a) (symC : ∀ a b, C a b = C b a)
    (hp : ∀ a b, a ≠ b → ∃ P, TwinPair.new eig (fam a) (fam b) true = .ok P ∧ P.isTwinnable = T a b ∧
      (T a b = true → P.isCompound = .ok (C a b) ∧ P.isTypeI = .ok (!C a b)))
    {nt nc ni : ℕ} (ht : (Finset.univ.filter fun ab : I × I => ab.1 ≠ ab.2 ∧ T ab.1 ab.2 = true).card = 2 * nt)
    (hc : (Finset.univ.filter fun ab : I × I => ab.1 ≠ ab.2 ∧ (T ab.1 ab.2 && C ab.1 ab.2) = true).card = 2 * nc)
    (hi : (Finset.univ.filter fun ab : I × I => ab.1 ≠ ab.2 ∧ (T ab.1 ab.2 && !C ab.1 ab.2) = true).card = 2 * ni)
    (a : I) : SystemOf eig t ⟨some (fam a), cubicR⟩ nt nc ni := by
  obtain ⟨vs, h1, h2, h3, h4⟩ := hv a
  have hcnt := system_counts eig fam T C h3 h4 h2 hspd symT symC hp ht hc hi none
  refine ⟨TwinSys.new vs none, by unfold TwinSys.ofMart; rw [h1], hcnt, fun ops ho => ?_⟩
  have hus : ∀ U ∈ vs, U.det ≠ 0 := by
    intro U hU
    obtain ⟨b, rfl⟩ := (h4 U).1 hU
    exact (spd_det_pos (hspd b)).ne'
  obtain ⟨tt, g1, g2⟩ := system_conventional eig hus
    (variants_related fam h4 fun a => by obtain ⟨vs, g1, -, -, g4⟩ := hv a; exact ⟨vs, g1, g4⟩) ops (by
      intro o hm hf
      cases o <;> simp only [Foreign] at hf
      exact hf cubicR rfl (by rw [ho _ _ hm]; rfl))
  obtain ⟨tt', _, _, g3, g4, -⟩ := hcnt ops
  rw [g1] at g3
  cases g3
  rw [g2, g4]

/-! ### the three families -/

/-- **C106**, cubic to tetragonal: three twin pairs, all of them compound. -/
theorem C106_tetragonal (eig : Mat3 → EigRes) (heig : ∀ A, Aᵀ = A → EigOK (eig A).vals (eig A).vecs A)
    (ht : t = .code ∨ t = .exact) (h : ClearlyTetragonal α γ) (k : Fin 3) :
    SystemOf eig t ⟨some (tetraStretch α γ k), cubicR⟩ 3 3 0 := by
  obtain ⟨hα, hγ⟩ := clearly_pos h
  refine system_of eig (tetraStretch α γ) (fun _ _ => true) (fun _ _ => true) ?_ (tetraStretch_spd hα hγ) (fun _ _ => rfl)
    (fun _ _ => rfl) ?_ (by decide +kernel) (by decide +kernel) (by decide +kernel) k
  · intro a
    obtain ⟨vs, h1, h2, h3, -, h5⟩ := C101_variants ht h a
    exact ⟨vs, h1, h2, h3, h5⟩
  · intro a b hab
    obtain ⟨P, -, -, -, -, -, h1, h2, h3, h4, -⟩ := C101_twins eig heig ht id h hab true
    exact ⟨P, h1, h2, fun _ => ⟨h3, h4⟩⟩

/-- The sign that a truth value stands for. -/
def signOf (b : Bool) : ℝ := if b then 1 else -1

theorem signOf_cases (b : Bool) : signOf b = 1 ∨ signOf b = -1 := by
  cases b <;> simp [signOf]

theorem signOf_not {b b' : Bool} (h : b ≠ b') : signOf b' = -signOf b := by
  cases b <;> cases b' <;> simp_all [signOf]

theorem exists_sign {σ : ℝ} (h : σ = 1 ∨ σ = -1) : ∃ b, σ = signOf b := by
  rcases h with rfl | rfl
  · exact ⟨true, by simp [signOf]⟩
  · exact ⟨false, by simp [signOf]⟩

/-- **C106**, cubic to orthorhombic: fifteen twin pairs, three of them compound and twelve of type I and II. -/
theorem C106_orthorhombic (eig : Mat3 → EigRes) (heig : ∀ A, Aᵀ = A → EigOK (eig A).vals (eig A).vecs A)
    (ht : t = .code ∨ t = .exact) (h : ClearlyOrthorhombic α β γ) (k : Fin 3) {σ : ℝ} (hσ : σ = 1 ∨ σ = -1) :
    SystemOf eig t ⟨some (orthoStretch α β γ k σ), cubicR⟩ 15 3 12 := by
  obtain ⟨b, rfl⟩ := exists_sign hσ
  refine system_of eig (fun a : Fin 3 × Bool => orthoStretch α β γ a.1 (signOf a.2)) (fun _ _ => true)
    (fun a b => decide (a.1 = b.1)) ?_ ?_ (fun _ _ => rfl) (fun a b => by simp only [eq_comm]) ?_
    (by decide +kernel) (by decide +kernel) (by decide +kernel) (k, b)
  · intro a
    obtain ⟨vs, h1, h2, h3, -, h5⟩ := C104_variants ht h a.1 (signOf_cases a.2)
    refine ⟨vs, h1, h2, h3, fun V => (h5 V).trans ?_⟩
    constructor
    · rintro ⟨k', σ', hσ', rfl⟩
      obtain ⟨b, rfl⟩ := exists_sign hσ'
      exact ⟨(k', b), rfl⟩
    · rintro ⟨⟨k', b⟩, rfl⟩
      exact ⟨k', signOf b, signOf_cases b, rfl⟩
  · intro a
    have := (clearly_wide h (signOf_cases a.2)).spd a.1
    rw [← ortho_om] at this
    exact this
  · rintro ⟨k, b⟩ ⟨k', b'⟩ hab
    by_cases hk : k = k'
    · subst hk
      have hb : b ≠ b' := fun hb => hab (by rw [hb])
      obtain ⟨P, _, _, _, _, _, _, -, -, -, h1, h2, h3, h4, -⟩ := C104_same_axis eig heig ht id h k (signOf_cases b) true
      refine ⟨P, ?_, h2, fun _ => ?_⟩
      · simp only [signOf_not hb]; exact h1
      · simp only [decide_true]; exact ⟨h3, h4⟩
    · obtain ⟨P, _, _, _, _, _, _, _, _, h1, h2, h3, h4, -⟩ :=
        C104_different_axes eig heig ht id h hk (signOf_cases b) (signOf_cases b') true
      refine ⟨P, h1, h2, fun _ => ?_⟩
      simp only [hk, decide_false]
      exact ⟨h3, h4⟩

theorem mono_pair_cases : ∀ i j i' j' : Fin 3, i ≠ j → i' ≠ j' →
    (i = i' ∧ j = j') ∨ (i = j' ∧ j = i') ∨ (i = i' ∧ j ≠ j' ∧ i ≠ j') ∨ (j = j' ∧ i ≠ i' ∧ j ≠ i') ∨
      (i' = j ∧ i ≠ j' ∧ j ≠ j') ∨ (j' = i ∧ i ≠ i' ∧ j ≠ i') := by
  decide

/-- **C106**, cubic to monoclinic: of the sixty-six pairs of variants forty-two are twin pairs, eighteen of them compound
and twenty-four of type I and II. -/
theorem C106_monoclinic (eig : Mat3 → EigRes) (heig : ∀ A, Aᵀ = A → EigOK (eig A).vals (eig A).vecs A)
    (ht : t = .code ∨ t = .exact) (h : ClearlyMonoclinic p q r d) (hp : |p - 1| ≤ 1 / 10) (hq : |q - 1| ≤ 1 / 10)
    (hd : |d - 1| ≤ 1 / 10) (hr : |r| ≤ 1 / 20) (hrep : 7 / 10000 ≤ |(p - q) * repeatedStretch p q r d|)
    {i j : Fin 3} (hij : i ≠ j) {σ : ℝ} (hσ : σ = 1 ∨ σ = -1) :
    SystemOf eig t ⟨some (monoStretch p q r d i j σ), cubicR⟩ 42 18 24 := by
  obtain ⟨b, rfl⟩ := exists_sign hσ
  have hrep' : 1 / 10 ^ 4 ≤ |repeatedStretch p q r d| := by
    rw [abs_mul] at hrep
    have h1 : |p - q| ≤ 1 / 5 := by
      obtain ⟨p1, p2⟩ := abs_le.1 hp
      obtain ⟨q1, q2⟩ := abs_le.1 hq
      rw [abs_le]
      constructor <;> linarith
    have h2 := mul_le_mul_of_nonneg_right h1 (abs_nonneg (repeatedStretch p q r d))
    linarith
  refine system_of eig (fun a : {x : Fin 3 × Fin 3 // x.1 ≠ x.2} × Bool => monoStretch p q r d a.1.1.1 a.1.1.2 (signOf a.2))
    (fun a b => decide (a.1.1.1 = b.1.1.1) || decide (a.1.1.2 = b.1.1.2) ||
      (decide (a.1.1.1 = b.1.1.2) && decide (a.1.1.2 = b.1.1.1)))
    (fun a b => (decide (a.1.1.1 = b.1.1.1) && decide (a.1.1.2 = b.1.1.2)) ||
      (decide (a.1.1.1 = b.1.1.2) && decide (a.1.1.2 = b.1.1.1))) ?_ ?_ ?_ ?_ ?_
    (by decide +kernel) (by decide +kernel) (by decide +kernel) (⟨(i, j), hij⟩, b)
  · intro a
    obtain ⟨vs, h1, h2, h3, -, h5⟩ := C105_variants ht h a.1.2 (signOf_cases a.2)
    refine ⟨vs, h1, h2, h3, fun V => (h5 V).trans ?_⟩
    constructor
    · rintro ⟨i', j', σ', hn, hσ', rfl⟩
      obtain ⟨b, rfl⟩ := exists_sign hσ'
      exact ⟨(⟨(i', j'), hn⟩, b), rfl⟩
    · rintro ⟨⟨⟨⟨i', j'⟩, hn⟩, b⟩, rfl⟩
      exact ⟨i', j', signOf b, hn, signOf_cases b, rfl⟩
  · intro a
    exact (clearly_mono h (signOf_cases a.2)).spd a.1.2
  · rintro ⟨⟨⟨i, j⟩, -⟩, -⟩ ⟨⟨⟨i', j'⟩, -⟩, -⟩
    simp only [eq_comm (a := i), eq_comm (a := j), Bool.and_comm (decide (j' = i))]
  · rintro ⟨⟨⟨i, j⟩, -⟩, -⟩ ⟨⟨⟨i', j'⟩, -⟩, -⟩
    simp only [eq_comm (a := i), eq_comm (a := j), Bool.and_comm (decide (j' = i))]
  · rintro ⟨⟨⟨i, j⟩, hn⟩, b⟩ ⟨⟨⟨i', j'⟩, hn'⟩, b'⟩ hab
    have hn : i ≠ j := hn
    have hn' : i' ≠ j' := hn'
    have sb := signOf_cases b
    have sb' := signOf_cases b'
    rcases mono_pair_cases i j i' j' hn hn' with ⟨rfl, rfl⟩ | ⟨rfl, rfl⟩ | ⟨rfl, h1, h2⟩ | ⟨rfl, h1, h2⟩ | ⟨rfl, h1, h2⟩ |
      ⟨rfl, h1, h2⟩
    · have hb : b ≠ b' := fun hb => hab (by rw [hb])
      obtain ⟨⟨P, g1, g2, g3, g4, -⟩, -⟩ := C105_same_axis eig heig ht id h hn sb sb' true
      refine ⟨P, ?_, by simpa using g2, fun _ => by simpa using And.intro g3 g4⟩
      simp only [signOf_not hb]
      exact g1
    · obtain ⟨-, P, g1, g2, g3, g4, -⟩ := C105_same_axis eig heig ht id h hn sb sb' true
      exact ⟨P, g1, by simpa using g2, fun _ => by simpa using And.intro g3 g4⟩
    · obtain ⟨⟨P, g1, g2, g3, g4, -⟩, -⟩ := C105_half_turn eig heig ht id h hrep' hn h2 h1 sb sb' true
      exact ⟨P, g1, by simpa using g2, fun _ => by simpa [h1, h2, hn.symm] using And.intro g3 g4⟩
    · obtain ⟨-, P, g1, g2, g3, g4, -⟩ := C105_half_turn eig heig ht id h hrep' hn h1 h2 sb sb' true
      exact ⟨P, g1, by simpa using g2, fun _ => by simpa [h1, h2, hn] using And.intro g3 g4⟩
    · obtain ⟨⟨P, g1, g2⟩, -⟩ := C105_not_twinnable eig heig h hp hq hd hr hrep hn h1 h2 sb sb' true
      refine ⟨P, g1, ?_, ?_⟩
      · simpa [hn, h1, h2] using g2
      · simp [hn, h1, h2]
    · obtain ⟨-, P, g1, g2⟩ := C105_not_twinnable eig heig h hp hq hd hr hrep hn h1 h2 sb sb' true
      refine ⟨P, g1, ?_, ?_⟩
      · simpa [hn.symm, h1, h2] using g2
      · simp [hn.symm, h1, h2]

/-- Ni-Al, Cu-Al-Ni and Cu-Zn-Al meet the hypotheses. -/
example : ClearlyTetragonal (0.9392 : ℝ) 1.1302 ∧ ClearlyOrthorhombic (1.0619 : ℝ) 0.9178 1.023 ∧
    ClearlyMonoclinic (1.087 : ℝ) 1.010 0.025 0.9093 := by
  refine ⟨?_, ?_, ?_⟩ <;> norm_num [ClearlyTetragonal, ClearlyOrthorhombic, ClearlyMonoclinic, abs_of_pos, abs_le, le_abs]

end Verif.Props
