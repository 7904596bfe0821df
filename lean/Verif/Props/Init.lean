import Verif.Spec.Init
import Verif.Props.DirectRuns

/-!
# C72: the random initialisation of the direct search

`main_direct.py` lines 189-203 draw matrices near `L0 = floor(E_A^-1 E_M)` until `20 * nsol` of them
have been accepted. A draw is accepted if its determinant is in the window (for `vol_th` below 1: equal
to 1) and it is not equivalent to a solution held at that moment.
-/

namespace Verif.Props

open Verif.Model Verif.Spec Verif.Lemmas Matrix

variable {N : ℕ} {D : Type} [LinearOrder D] {GA GM : List (Matrix (Fin N) (Fin N) ℤ)}
  {dist : Matrix (Fin N) (Fin N) ℤ → D} {nsol : ℕ} {L0 : Matrix (Fin N) (Fin N) ℤ}

/-- If every acceptable matrix is excluded, its class is held. -/
theorem all_held (hA : IsMatGroup GA) (hM : IsMatGroup GM)
    (hd : ∀ L X, Equivalent GA GM L X → dist X = dist L)
    {seen : List (Matrix (Fin N) (Fin N) ℤ)} {sols : List (Sol (Matrix (Fin N) (Fin N) ℤ) D)}
    {ext : Finset (Matrix (Fin N) (Fin N) ℤ)}
    (h : Inv (eqlatcor GA GM) dist (fun L => L.det ≠ 0) nsol seen sols)
    (he : ExtInv (eqlatcor GA GM) (fun L => L.det ≠ 0) sols ext)
    (hcon : ∀ L, NearBy L0 L → L.det = 1 → L ∈ ext) :
    ∀ L, NearBy L0 L → L.det = 1 →
      (eqlatcor GA GM L, dist L) ∈ (sols.map (clsOf (eqlatcor GA GM))).toFinset := by
  have hsym := eqlatcor_isSymmetry hA hM hd
  intro L hL h1
  obtain ⟨s, hs, hx⟩ := he.sub L (hcon L hL h1) (by rw [h1]; decide)
  rw [List.mem_toFinset, List.mem_map]
  refine ⟨s, hs, ?_⟩
  simp only [clsOf]
  rw [hsym.eq_of_mem hx, hsym.dist_eq hx, (h.sound s hs).2.2]

theorem nodup_of_inequivalent (hA : IsMatGroup GA) (hM : IsMatGroup GM)
    {l : List (Matrix (Fin N) (Fin N) ℤ)} (h : l.Pairwise (fun a b => ¬ Equivalent GA GM a b)) :
    (l.map (fun b => (eqlatcor GA GM b, dist b))).Nodup := by
  rw [List.Nodup, List.pairwise_map]
  refine h.imp fun {a b} hab e => hab ?_
  rw [Prod.mk.injEq] at e
  exact (eqlatcor_eq_iff hA hM).1 e.1.symm

/-- In every state some draw would be accepted, if enough matrices compete. -/
theorem fresh_enough (hA : IsMatGroup GA) (hM : IsMatGroup GM)
    (hd : ∀ L X, Equivalent GA GM L X → dist X = dist L)
    (hb : EnoughNearBy GA GM dist L0 nsol)
    {seen : List (Matrix (Fin N) (Fin N) ℤ)} {sols : List (Sol (Matrix (Fin N) (Fin N) ℤ) D)}
    {ext : Finset (Matrix (Fin N) (Fin N) ℤ)}
    (h : Inv (eqlatcor GA GM) dist (fun L => L.det ≠ 0) nsol seen sols)
    (he : ExtInv (eqlatcor GA GM) (fun L => L.det ≠ 0) sols ext) :
    ∃ L, NearBy L0 L ∧ L.det = 1 ∧ L ∉ ext := by
  by_contra hcon
  push Not at hcon
  have key := all_held hA hM hd h he hcon
  rw [h.classes] at key
  obtain ⟨c, hc, hc1, better, hlen, hpw, hbet⟩ := hb
  have h1 := (mem_topN.1 (key c hc hc1)).2
  simp only at h1
  have h2 : (better.map (fun b => (eqlatcor GA GM b, dist b))).toFinset ⊆
      (seenClasses (eqlatcor GA GM) dist (fun L => L.det ≠ 0) seen).filter (fun y => y.2 < dist c) := by
    intro x hx
    rw [List.mem_toFinset, List.mem_map] at hx
    obtain ⟨b, hb, rfl⟩ := hx
    obtain ⟨g1, g2, g3⟩ := hbet b hb
    exact Finset.mem_filter.2 ⟨topN_subset _ _ (key b g1 g2), g3⟩
  have h3 := Finset.card_le_card h2
  rw [List.toFinset_card_of_nodup (nodup_of_inequivalent hA hM hpw), List.length_map, hlen] at h3
  omega

/-- A draw would be accepted while fewer solutions are held than there are classes. -/
theorem fresh_many (hA : IsMatGroup GA) (hM : IsMatGroup GM)
    (hd : ∀ L X, Equivalent GA GM L X → dist X = dist L) {count : ℕ}
    (hb : ManyNearBy GA GM L0 count)
    {seen : List (Matrix (Fin N) (Fin N) ℤ)} {sols : List (Sol (Matrix (Fin N) (Fin N) ℤ) D)}
    {ext : Finset (Matrix (Fin N) (Fin N) ℤ)}
    (h : Inv (eqlatcor GA GM) dist (fun L => L.det ≠ 0) nsol seen sols)
    (he : ExtInv (eqlatcor GA GM) (fun L => L.det ≠ 0) sols ext) (hl : sols.length < count) :
    ∃ L, NearBy L0 L ∧ L.det = 1 ∧ L ∉ ext := by
  by_contra hcon
  push Not at hcon
  have key := all_held hA hM hd h he hcon
  obtain ⟨reps, hlen, hpw, hreps⟩ := hb
  have h2 : (reps.map (fun b => (eqlatcor GA GM b, dist b))).toFinset ⊆
      (sols.map (clsOf (eqlatcor GA GM))).toFinset := by
    intro x hx
    rw [List.mem_toFinset, List.mem_map] at hx
    obtain ⟨b, hb, rfl⟩ := hx
    exact key b (hreps b hb).1 (hreps b hb).2
  have h3 := Finset.card_le_card h2
  rw [List.toFinset_card_of_nodup (nodup_of_inequivalent hA hM hpw), List.length_map,
    List.toFinset_card_of_nodup h.nodup, List.length_map, hlen] at h3
  omega

/-- An addition lengthens the list by at most one. -/
theorem length_step (hA : IsMatGroup GA) (hM : IsMatGroup GM)
    (hd : ∀ L X, Equivalent GA GM L X → dist X = dist L)
    {seen : List (Matrix (Fin N) (Fin N) ℤ)} {sols sols' : List (Sol (Matrix (Fin N) (Fin N) ℤ) D)}
    (h : Inv (eqlatcor GA GM) dist (fun L => L.det ≠ 0) nsol seen sols)
    {c : Matrix (Fin N) (Fin N) ℤ}
    (h' : Inv (eqlatcor GA GM) dist (fun L => L.det ≠ 0) nsol (seen ++ [c]) sols') :
    sols'.length ≤ sols.length + 1 := by
  have hsub : (sols'.map (clsOf (eqlatcor GA GM))).toFinset ⊆
      insert (eqlatcor GA GM c, dist c) (sols.map (clsOf (eqlatcor GA GM))).toFinset := by
    rw [h.classes, h'.classes, seenClasses_append]
    intro x hx
    rw [mem_topN, Finset.mem_union] at hx
    rw [Finset.mem_insert, mem_topN]
    rcases hx with ⟨hx | hx, hc⟩
    · refine Or.inr ⟨hx, lt_of_le_of_lt (Finset.card_le_card ?_) hc⟩
      exact Finset.filter_subset_filter _ Finset.subset_union_left
    · obtain ⟨y, hy, -, rfl⟩ := mem_seenClasses.1 hx
      rw [List.mem_singleton.1 hy]
      exact Or.inl rfl
  have h3 := (Finset.card_le_card hsub).trans (Finset.card_insert_le _ _)
  rwa [List.toFinset_card_of_nodup h.nodup, List.toFinset_card_of_nodup h'.nodup, List.length_map,
    List.length_map] at h3

theorem init_ends (hA : IsMatGroup GA) (hM : IsMatGroup GM)
    (hd : ∀ L X, Equivalent GA GM L X → dist X = dist L) (hn : 1 ≤ nsol)
    {count : ℕ} (hb : EnoughNearBy GA GM dist L0 nsol ∨ ManyNearBy GA GM L0 (count))
    {draw : ℕ → Matrix (Fin N) (Fin N) ℤ} (hf : FairDraws L0 draw) (k : ℕ) :
    ∀ (seen : List (Matrix (Fin N) (Fin N) ℤ))
      (sols : List (Sol (Matrix (Fin N) (Fin N) ℤ) D)) (ext : Finset (Matrix (Fin N) (Fin N) ℤ))
      (dm : Option D) (n : ℕ),
      Inv (eqlatcor GA GM) dist (fun L => L.det ≠ 0) nsol seen sols →
      ExtInv (eqlatcor GA GM) (fun L => L.det ≠ 0) sols ext → k + sols.length ≤ count →
      ∃ m, ∀ m' ≥ m, initLoop (eqlatcor GA GM) (fun L => L.det ≠ 0) (fun L => L.det = 1) nsol dist
        ((List.range' n m').map draw) k (sols, ext, dm) ≠ .ok none := by
  have hsym := eqlatcor_isSymmetry hA hM hd
  induction k with
  | zero =>
    intro seen sols ext dm n h he hl
    refine ⟨0, fun m' _ => ?_⟩
    cases m' <;> simp [initLoop, List.range'_succ]
  | succ k ih =>
    intro seen sols ext dm n h he hl
    obtain ⟨L, hL, hL1, hLe⟩ : ∃ L, NearBy L0 L ∧ L.det = 1 ∧ L ∉ ext := by
      rcases hb with hb | hb
      · exact fresh_enough hA hM hd hb h he
      · exact fresh_many hA hM hd hb h he (by omega)
    obtain ⟨p, hp, hpL⟩ := hf.2 L hL n
    obtain ⟨t, rfl⟩ : ∃ t, p = n + t := ⟨p - n, by omega⟩
    clear hp
    induction t generalizing n with
    | zero =>
      simp only [Nat.add_zero] at hpL
      obtain ⟨s1, e1, last, g1, g2, g3, -⟩ := addSol_spec hsym hn h he L
        (Or.inr (by rw [hL1]; decide))
      have := length_step hA hM hd h g2
      obtain ⟨m, hm⟩ := ih (seen ++ [L]) s1 e1 (some last.d) (n + 1) g2 g3 (by omega)
      refine ⟨m + 1, fun m' hm' => ?_⟩
      obtain ⟨q, rfl⟩ : ∃ q, m' = q + 1 := ⟨m' - 1, by omega⟩
      rw [List.range'_succ, List.map_cons, hpL, initLoop, if_neg (by simp [hLe, hL1]), g1]
      exact hm q (by omega)
    | succ t iht =>
      obtain ⟨m, hm⟩ := iht (n + 1) (by rw [← hpL]; congr 1; omega)
      by_cases hacc : draw n ∈ ext ∨ ¬ (draw n).det = 1
      · refine ⟨m + 1, fun m' hm' => ?_⟩
        obtain ⟨q, rfl⟩ : ∃ q, m' = q + 1 := ⟨m' - 1, by omega⟩
        rw [List.range'_succ, List.map_cons, initLoop, if_pos hacc]
        exact hm q (by omega)
      · have hacc' := hacc
        rw [not_or, not_not] at hacc'
        obtain ⟨s1, e1, last, g1, g2, g3, -⟩ := addSol_spec hsym hn h he (draw n)
          (Or.inr (by rw [hacc'.2]; decide))
        have := length_step hA hM hd h g2
        obtain ⟨m, hm⟩ := ih (seen ++ [draw n]) s1 e1 (some last.d) (n + 1) g2 g3 (by omega)
        refine ⟨m + 1, fun m' hm' => ?_⟩
        obtain ⟨q, rfl⟩ : ∃ q, m' = q + 1 := ⟨m' - 1, by omega⟩
        rw [List.range'_succ, List.map_cons, initLoop, if_neg hacc, g1]
        exact hm q (by omega)

/-- Without competition and with too few classes the initialisation never ends. -/
theorem init_hangs (hA : IsMatGroup GA) (hM : IsMatGroup GM)
    (hd : ∀ L X, Equivalent GA GM L X → dist X = dist L) (hn : 1 ≤ nsol)
    (h1 : ¬ EnoughNearBy GA GM dist L0 nsol) {count : ℕ} (h2 : ¬ ManyNearBy GA GM L0 (count))
    (samples : List (Matrix (Fin N) (Fin N) ℤ)) (hs : ∀ L ∈ samples, NearBy L0 L) (k : ℕ)
    (seen : List (Matrix (Fin N) (Fin N) ℤ))
    (sols : List (Sol (Matrix (Fin N) (Fin N) ℤ) D)) (ext : Finset (Matrix (Fin N) (Fin N) ℤ))
    (dm : Option D)
    (h : Inv (eqlatcor GA GM) dist (fun L => L.det ≠ 0) nsol seen sols)
    (he : ExtInv (eqlatcor GA GM) (fun L => L.det ≠ 0) sols ext)
    (hseen : ∀ L ∈ seen, NearBy L0 L ∧ L.det = 1) (hk : count ≤ k + sols.length) :
    initLoop (eqlatcor GA GM) (fun L => L.det ≠ 0) (fun L => L.det = 1) nsol dist samples k
      (sols, ext, dm) = .ok none := by
  have hsym := eqlatcor_isSymmetry hA hM hd
  -- a list of distinct classes of acceptable matrices is shorter than `count`
  have short : ∀ l : List (Matrix (Fin N) (Fin N) ℤ), l.Pairwise (fun a b => ¬ Equivalent GA GM a b) →
      (∀ r ∈ l, NearBy L0 r ∧ r.det = 1) → l.length < count := by
    intro l hl1 hl2
    by_contra hlen
    refine h2 ⟨l.take (count), by rw [List.length_take]; omega,
      hl1.sublist (List.take_sublist _ _), fun r hr => hl2 r (List.mem_of_mem_take hr)⟩
  -- nothing is ever dropped
  have keep : ∀ {seen : List (Matrix (Fin N) (Fin N) ℤ)}, (∀ L ∈ seen, NearBy L0 L ∧ L.det = 1) →
      topN nsol (seenClasses (eqlatcor GA GM) dist (fun L => L.det ≠ 0) seen) =
        seenClasses (eqlatcor GA GM) dist (fun L => L.det ≠ 0) seen := by
    intro seen hseen
    refine Finset.Subset.antisymm (topN_subset _ _) fun x hx => mem_topN.2 ⟨hx, ?_⟩
    by_contra hge
    push Not at hge
    obtain ⟨c, hc, -, rfl⟩ := mem_seenClasses.1 hx
    obtain ⟨T, hT, hTc⟩ := Finset.exists_subset_card_eq hge
    -- choose a member of every class in `T`
    have hrep : ∀ y ∈ T, ∃ b ∈ seen, (eqlatcor GA GM b, dist b) = y ∧ dist b < dist c := by
      intro y hy
      obtain ⟨g1, g2⟩ := Finset.mem_filter.1 (hT hy)
      obtain ⟨b, hb, -, e⟩ := mem_seenClasses.1 g1
      exact ⟨b, hb, e, by rw [← e] at g2; exact g2⟩
    choose! f hf1 hf2 hf3 using hrep
    refine h1 ⟨c, (hseen c hc).1, (hseen c hc).2, T.toList.map f, by simp [hTc], ?_, ?_⟩
    · rw [List.pairwise_map]
      refine T.nodup_toList.imp_of_mem fun {a b} ha hb hab e => hab ?_
      rw [Finset.mem_toList] at ha hb
      rw [← hf2 a ha, ← hf2 b hb, (eqlatcor_eq_iff hA hM).2 e, hd _ _ e]
    · intro b hb
      obtain ⟨y, hy, rfl⟩ := List.mem_map.1 hb
      rw [Finset.mem_toList] at hy
      exact ⟨(hseen _ (hf1 y hy)).1, (hseen _ (hf1 y hy)).2, hf3 y hy⟩
  -- the list is short
  have len : ∀ {seen : List (Matrix (Fin N) (Fin N) ℤ)}
      {sols : List (Sol (Matrix (Fin N) (Fin N) ℤ) D)}, (∀ L ∈ seen, NearBy L0 L ∧ L.det = 1) →
      Inv (eqlatcor GA GM) dist (fun L => L.det ≠ 0) nsol seen sols → sols.length < count := by
    intro seen sols hseen h
    have := short (sols.map Sol.l) ?_ ?_
    · rwa [List.length_map] at this
    · have hnd := h.nodup
      rw [List.Nodup, List.pairwise_map] at hnd
      rw [List.pairwise_map]
      refine hnd.imp_of_mem fun {a b} ha hb hab e => hab ?_
      rw [clsOf, clsOf, (h.sound a ha).2.2, (h.sound b hb).2.2, (eqlatcor_eq_iff hA hM).2 e, hd _ _ e]
    · intro r hr
      obtain ⟨s, hs, rfl⟩ := List.mem_map.1 hr
      exact hseen _ (h.sound s hs).1
  induction samples generalizing k seen sols ext dm with
  | nil =>
    obtain ⟨k, rfl⟩ : ∃ q, k = q + 1 := ⟨k - 1, by have := len hseen h; omega⟩
    rfl
  | cons l samples ih =>
    have ih := ih (fun L hL => hs L (List.mem_cons_of_mem _ hL))
    obtain ⟨k, rfl⟩ : ∃ q, k = q + 1 := ⟨k - 1, by have := len hseen h; omega⟩
    by_cases hacc : l ∈ ext ∨ ¬ l.det = 1
    · rw [initLoop, if_pos hacc]
      exact ih (k + 1) seen sols ext dm h he hseen hk
    · have hacc' := hacc
      rw [not_or, not_not] at hacc'
      obtain ⟨s1, e1, last, g1, g2, g3, -⟩ := addSol_spec hsym hn h he l
        (Or.inr (by rw [hacc'.2]; decide))
      have hseen' : ∀ L ∈ seen ++ [l], NearBy L0 L ∧ L.det = 1 := by
        intro L hL
        rcases List.mem_append.1 hL with hL | hL
        · exact hseen L hL
        · rw [List.mem_singleton.1 hL]
          exact ⟨hs l (by simp), hacc'.2⟩
      rw [initLoop, if_neg hacc, g1]
      refine ih k (seen ++ [l]) s1 e1 (some last.d) g2 g3 hseen' ?_
      have hni : (eqlatcor GA GM l, dist l) ∉ (sols.map (clsOf (eqlatcor GA GM))).toFinset := by
        intro hx
        rw [List.mem_toFinset, List.mem_map] at hx
        obtain ⟨s, hs, e⟩ := hx
        rw [clsOf, Prod.mk.injEq] at e
        exact hacc'.1 (he.sup s hs l (by rw [e.1]; exact hsym.self_mem l))
      have hsub : insert (eqlatcor GA GM l, dist l) (sols.map (clsOf (eqlatcor GA GM))).toFinset ⊆
          (s1.map (clsOf (eqlatcor GA GM))).toFinset := by
        rw [h.classes, keep hseen, g2.classes, keep hseen', seenClasses_append, Finset.insert_subset_iff]
        refine ⟨Finset.mem_union_right _ (mem_seenClasses.2 ⟨l, by simp, ?_, rfl⟩),
          Finset.subset_union_left⟩
        rw [hacc'.2]; decide
      have e := Finset.card_le_card hsub
      rw [Finset.card_insert_of_notMem hni, List.toFinset_card_of_nodup h.nodup,
        List.toFinset_card_of_nodup g2.nodup, List.length_map, List.length_map] at e
      omega

/-- C72, exactly when it holds: with a fair sequence of draws the initialisation ends if and only if
enough matrices near `L0` compete or they fall into at least `20 * nsol` classes; and if it does not end
for one fair sequence it ends for no sequence. -/
theorem C72_characterised (hA : IsMatGroup GA) (hM : IsMatGroup GM)
    (hd : ∀ L X, Equivalent GA GM L X → dist X = dist L) (hn : 1 ≤ nsol)
    (draw : ℕ → Matrix (Fin N) (Fin N) ℤ) (hf : FairDraws L0 draw) :
    (∃ m, initLoop (eqlatcor GA GM) (fun L => L.det ≠ 0) (fun L => L.det = 1) nsol dist
        ((List.range m).map draw) (20 * nsol) ([], ∅, none) ≠ .ok none) ↔
      EnoughNearBy GA GM dist L0 nsol ∨ ManyNearBy GA GM L0 (20 * nsol) := by
  constructor
  · rintro ⟨m, hm⟩
    by_contra hcon
    rw [not_or] at hcon
    refine hm (init_hangs hA hM hd hn hcon.1 hcon.2 _ ?_ _ [] [] ∅ none Inv.nil ExtInv.nil (by simp)
      (by simp))
    intro L hL
    obtain ⟨i, -, rfl⟩ := List.mem_map.1 hL
    exact hf.1 i
  · intro hb
    obtain ⟨m, hm⟩ := init_ends hA hM hd hn hb hf (20 * nsol) [] [] ∅ none 0 Inv.nil ExtInv.nil
      (by simp)
    exact ⟨m, by rw [List.range_eq_range']; exact hm m le_rfl⟩

/-- C72, what holds: if enough matrices near `L0` compete or they fall into very many classes, the
initialisation ends with `nsol` or more of them for every fair
sequence of draws. -/
theorem C72_init_partial (hA : IsMatGroup GA) (hM : IsMatGroup GM)
    (hd : ∀ L X, Equivalent GA GM L X → dist X = dist L) (hn : 1 ≤ nsol)
    (hb : EnoughNearBy GA GM dist L0 nsol ∨ ManyNearBy GA GM L0 (20 * nsol))
    (draw : ℕ → Matrix (Fin N) (Fin N) ℤ) (hf : FairDraws L0 draw) :
    ∃ m, ∀ m' ≥ m, ∃ sols ext dmax,
      initLoop (eqlatcor GA GM) (fun L => L.det ≠ 0) (fun L => L.det = 1) nsol dist
        ((List.range m').map draw) (20 * nsol) ([], ∅, none) = .ok (some (sols, ext, some dmax)) ∧
      nsol ≤ sols.length ∧ ∀ s ∈ sols, NearBy L0 s.l ∧ s.l.det = 1 ∧ s.d = dist s.l := by
  have hsym := eqlatcor_isSymmetry hA hM hd
  obtain ⟨m, hm⟩ := init_ends hA hM hd hn hb hf (20 * nsol) [] [] ∅ none 0 Inv.nil ExtInv.nil
    (by simp)
  refine ⟨m, fun m' hm' => ?_⟩
  have := hm m' hm'
  rw [← List.range_eq_range'] at this
  rcases initLoop_spec hsym hn (volOk := fun L => L.det = 1) (by intro L hL; rw [hL]; decide)
    ((List.range m').map draw) (20 * nsol) [] [] ∅ none Inv.nil ExtInv.nil rfl (by simp; omega) with
    h | ⟨acc, s, e, d, h1, h2, h3⟩
  · exact absurd h this
  · refine ⟨s, e, d, h1, h3.full, fun x hx => ?_⟩
    obtain ⟨g1, -, g3⟩ := h3.inv.sound x hx
    rw [List.nil_append] at g1
    obtain ⟨k1, k2⟩ := h2 _ g1
    obtain ⟨i, -, hi⟩ := List.mem_map.1 k1
    exact ⟨hi ▸ hf.1 i, k2, g3⟩

/-- With at most `nsol` classes near `L0` an initialisation that wants more than `nsol` matrices never ends. -/
theorem few_hangs (hA : IsMatGroup GA) (hM : IsMatGroup GM)
    (hd : ∀ L X, Equivalent GA GM L X → dist X = dist L) (hn : 1 ≤ nsol)
    (hb : FewNearBy GA GM L0 nsol) {count : ℕ} (hc : nsol < count) (samples : List (Matrix (Fin N) (Fin N) ℤ))
    (hs : ∀ L ∈ samples, NearBy L0 L) :
    initLoop (eqlatcor GA GM) (fun L => L.det ≠ 0) (fun L => L.det = 1) nsol dist samples count
      ([], ∅, none) = .ok none := by
  obtain ⟨reps, hlen, hreps⟩ := hb
  have bound : ∀ l : List (Matrix (Fin N) (Fin N) ℤ), l.Pairwise (fun a b => ¬ Equivalent GA GM a b) →
      (∀ r ∈ l, NearBy L0 r ∧ r.det = 1) → l.length ≤ nsol := by
    intro l h1 h2
    have hsub : (l.map (fun r => (eqlatcor GA GM r, dist r))).toFinset ⊆
        (reps.map (fun r => (eqlatcor GA GM r, dist r))).toFinset := by
      intro x hx
      rw [List.mem_toFinset, List.mem_map] at hx ⊢
      obtain ⟨b, hb, rfl⟩ := hx
      obtain ⟨r, hr, hrL⟩ := hreps b (h2 b hb).1 (h2 b hb).2
      exact ⟨r, hr, by rw [(eqlatcor_eq_iff hA hM).2 hrL, hd _ _ hrL]⟩
    have e := Finset.card_le_card hsub
    rw [List.toFinset_card_of_nodup (nodup_of_inequivalent hA hM h1)] at e
    have := List.toFinset_card_le (reps.map (fun r => (eqlatcor GA GM r, dist r)))
    simp only [List.length_map] at e this
    omega
  refine init_hangs hA hM hd hn (count := count) ?_ ?_ samples hs _ [] [] ∅ none Inv.nil ExtInv.nil (by simp) (by simp)
  · rintro ⟨c, hc, hc1, better, hl, hpw, hbet⟩
    have := bound (c :: better) (List.pairwise_cons.2 ⟨fun b hb e => ?_, hpw⟩) ?_
    · simp at this
      omega
    · have h1 := hd _ _ e
      exact absurd (hbet b hb).2.2 (by rw [h1]; exact lt_irrefl _)
    · intro r hr
      rcases List.mem_cons.1 hr with rfl | hr
      · exact ⟨hc, hc1⟩
      · exact ⟨(hbet r hr).1, (hbet r hr).2.1⟩
  · rintro ⟨l, hl, hpw, hmem⟩
    have := bound l hpw hmem
    omega

/-- C72, what goes wrong: with at most `nsol` classes near `L0` the initialisation accepts them all and
then draws for ever, whatever is drawn. -/
theorem C72_few (hA : IsMatGroup GA) (hM : IsMatGroup GM)
    (hd : ∀ L X, Equivalent GA GM L X → dist X = dist L) (hn : 1 ≤ nsol)
    (hb : FewNearBy GA GM L0 nsol) (samples : List (Matrix (Fin N) (Fin N) ℤ))
    (hs : ∀ L ∈ samples, NearBy L0 L) :
    initLoop (eqlatcor GA GM) (fun L => L.det ≠ 0) (fun L => L.det = 1) nsol dist samples (20 * nsol)
      ([], ∅, none) = .ok none :=
  few_hangs hA hM hd hn hb (by omega) samples hs

/-- C72, what holds, for the search as it is called: for valid lattices and enough matrices near `L0`
every fair sequence of draws has a prefix with which the search ends. -/
theorem C72_direct_partial (hN1 : 1 ≤ N) (hN : N ≤ 3) {EA EM EMinv : Matrix (Fin N) (Fin N) ℝ}
    {alpha : ℝ} (h : SearchSetting EA EM EMinv GA GM alpha) (sliceSz : ℕ) (hn : 1 ≤ nsol)
    (hsz : 1 ≤ sliceSz)
    (hb : EnoughNearBy GA GM (fun L => cauchyDist L EA EMinv) L0 nsol ∨ ManyNearBy GA GM L0 (20 * nsol))
    (draw : ℕ → Matrix (Fin N) (Fin N) ℤ) (hf : FairDraws L0 draw) :
    ∃ m, ∀ m' ≥ m, ∃ rounds, ∀ fuel ≥ rounds, ∀ trace,
      directSearch GA GM nsol (fun L => cauchyDist L EA EMinv) sliceSz (rmaxFn alpha)
        (fun L => L.det = 1) ((List.range m').map draw) fuel ≠ .ok (none, trace) := by
  obtain ⟨m, hm⟩ := C72_init_partial h.groupA h.groupM (setting_class h) hn hb draw hf
  refine ⟨m, fun m' hm' => C38_cauchy_terminates hN1 hN h nsol sliceSz hn hsz _ ?_⟩
  obtain ⟨s, e, d, h1, -⟩ := hm m' hm'
  rw [h1]
  simp

/-- fair sequences of draws exist -/
theorem fairDraws_exist (L0 : Matrix (Fin N) (Fin N) ℤ) : ∃ draw, FairDraws L0 draw := by
  have hfin : {L | NearBy L0 L}.Finite := by
    refine (Set.Finite.pi' (fun i => Set.Finite.pi' (fun j =>
      Set.finite_Icc (L0 i j - 1) (L0 i j + 1)))).subset ?_
    intro L hL i j
    have := abs_le.1 (hL i j)
    exact ⟨by omega, by omega⟩
  have h0 : NearBy L0 L0 := fun i j => by simp
  set l := hfin.toFinset.toList
  have hl : ∀ L, L ∈ l ↔ NearBy L0 L := by
    intro L
    rw [Finset.mem_toList, Set.Finite.mem_toFinset]
    rfl
  have hpos : 0 < l.length := List.length_pos_of_mem ((hl L0).2 h0)
  refine ⟨fun k => l[k % l.length]'(Nat.mod_lt _ hpos), fun k => (hl _).1 (List.getElem_mem _), ?_⟩
  intro L hL k
  obtain ⟨i, hi, e⟩ := List.getElem_of_mem ((hl L).2 hL)
  refine ⟨i + l.length * k, by nlinarith, ?_⟩
  simp only [Nat.add_mul_mod_self_left, Nat.mod_eq_of_lt hi, e]

/-! ### The square lattice onto itself: three solutions can be found, four cannot -/

/-- the matrices near the identity -/
theorem nearBy_one (L : Matrix (Fin 2) (Fin 2) ℤ) (h : NearBy 1 L) :
    ∃ x ∈ [-1, 0, 1], ∃ y ∈ [-1, 0, 1], ∃ z ∈ [-1, 0, 1], ∃ w ∈ [-1, 0, 1],
      L = !![1 + x, y; z, 1 + w] := by
  have key : ∀ t : ℤ, |t| ≤ 1 → t ∈ [-1, 0, 1] := by
    intro t ht
    rw [abs_le] at ht
    simp only [List.mem_cons, List.not_mem_nil, or_false]
    omega
  refine ⟨_, key _ (h 0 0), _, key _ (h 0 1), _, key _ (h 1 0), _, key _ (h 1 1), ?_⟩
  ext i j
  fin_cases i <;> fin_cases j <;> simp

/-- representatives of the classes near the identity -/
def squareReps : List (Matrix (Fin 2) (Fin 2) ℤ) :=
  [!![1, 0; 0, 1], !![1, 1; 0, 1], !![0, 1; -1, 2], !![2, 1; 1, 1]]

theorem square_few : FewNearBy square square (1 : Matrix (Fin 2) (Fin 2) ℤ) 4 := by
  refine ⟨squareReps, by decide, fun L hL h1 => ?_⟩
  have H : ∀ x ∈ ([-1, 0, 1] : List ℤ), ∀ y ∈ ([-1, 0, 1] : List ℤ), ∀ z ∈ ([-1, 0, 1] : List ℤ),
      ∀ w ∈ ([-1, 0, 1] : List ℤ), (1 + x) * (1 + w) - y * z = 1 →
        ∃ r ∈ squareReps, !![1 + x, y; z, 1 + w] ∈ eqlatcor square square r := by
    decide +kernel
  obtain ⟨x, hx, y, hy, z, hz, w, hw, rfl⟩ := nearBy_one L hL
  rw [Matrix.det_fin_two] at h1
  obtain ⟨r, hr, hm⟩ := H x hx y hy z hz w hw (by simpa using h1)
  exact ⟨r, hr, mem_eqlatcor.1 hm⟩

theorem square_enough : EnoughNearBy square square
    (fun L => cauchyDist L (1 : Matrix (Fin 2) (Fin 2) ℝ) 1) (1 : Matrix (Fin 2) (Fin 2) ℤ) 3 := by
  refine ⟨!![2, 1; 1, 1], ?_, by simp [Matrix.det_fin_two], [!![1, 0; 0, 1], !![1, 1; 0, 1],
    !![0, 1; -1, 2]], rfl, ?_, ?_⟩
  · unfold NearBy; decide +kernel
  · refine List.Pairwise.imp (R := fun a b => b ∉ eqlatcor square square a)
      (fun {a b} h h' => h (mem_eqlatcor.2 h')) ?_
    decide +kernel
  · have H : ∀ b ∈ ([!![1, 0; 0, 1], !![1, 1; 0, 1], !![0, 1; -1, 2]] :
        List (Matrix (Fin 2) (Fin 2) ℤ)), (∀ i j, |b i j - (1 : Matrix (Fin 2) (Fin 2) ℤ) i j| ≤ 1) ∧
          b.det = 1 ∧ squareDist b < squareDist !![2, 1; 1, 1] := by
      decide +kernel
    intro b hb
    obtain ⟨h1, h2, h3⟩ := H b hb
    refine ⟨h1, h2, ?_⟩
    simp only
    rw [squareDist_eq, squareDist_eq]
    exact strictMono_div 1 one_pos h3

/-- C72 fails: asked for four solutions for a square lattice onto itself the direct search never gets
past its initialisation, whatever is drawn. -/
theorem C72_square_fails :
    ∃ (EA EM EMinv : Matrix (Fin 2) (Fin 2) ℝ) (GA GM : List (Matrix (Fin 2) (Fin 2) ℤ)) (alpha : ℝ)
      (L0 : Matrix (Fin 2) (Fin 2) ℤ),
      ValidSetting EA EM EMinv GA GM alpha ∧ EA * L0.map (Int.cast : ℤ → ℝ) = EM ∧
      ∀ samples : List (Matrix (Fin 2) (Fin 2) ℤ), (∀ L ∈ samples, NearBy L0 L) → ∀ sliceSz fuel,
        directSearch GA GM 4 (fun L => cauchyDist L EA EMinv) sliceSz (rmaxFn alpha)
          (fun L => L.det = 1) samples fuel = .ok (none, []) := by
  refine ⟨1, 1, 1, square, square, 1 / 2, 1, square_setting, by simp, fun samples hs sliceSz fuel => ?_⟩
  unfold directSearch
  rw [C72_few square_group square_group (setting_class square_setting.search) (by decide) square_few samples hs]

/-- C72 fails for one solution: for two lattices whose bases differ by a factor of three or more in
length no trial matrix has determinant one. -/
theorem C72_scaled_fails (EA EM EMinv : Matrix (Fin 2) (Fin 2) ℝ)
    (GA GM : List (Matrix (Fin 2) (Fin 2) ℤ)) (alpha : ℝ)
    (h : ValidSetting EA EM EMinv GA GM alpha) (k : ℤ) (hk : 3 ≤ k) (nsol : ℕ) (hn : 1 ≤ nsol)
    (L0 : Matrix (Fin 2) (Fin 2) ℤ) (hL0 : EA * L0.map (Int.cast : ℤ → ℝ) = EM)
    (hEM : EM = (k : ℝ) • EA)
    (samples : List (Matrix (Fin 2) (Fin 2) ℤ)) (hs : ∀ L ∈ samples, NearBy L0 L) (sliceSz fuel : ℕ) :
    directSearch GA GM nsol (fun L => cauchyDist L EA EMinv) sliceSz (rmaxFn alpha)
      (fun L => L.det = 1) samples fuel = .ok (none, []) := by
  have e : L0 = !![k, 0; 0, k] := by
    have h1 : L0.map (Int.cast : ℤ → ℝ) = (k : ℝ) • (1 : Matrix (Fin 2) (Fin 2) ℝ) := by
      have : EA⁻¹ * (EA * L0.map (Int.cast : ℤ → ℝ)) = EA⁻¹ * (k : ℝ) • EA := by rw [hL0, hEM]
      rwa [← Matrix.mul_assoc, Matrix.nonsing_inv_mul _ h.invA, Matrix.one_mul, Matrix.mul_smul,
        Matrix.nonsing_inv_mul _ h.invA] at this
    ext i j
    have := congrFun (congrFun h1 i) j
    fin_cases i <;> fin_cases j <;> simp at this ⊢ <;> exact_mod_cast this
  subst e
  have few : FewNearBy GA GM !![k, 0; 0, k] nsol := by
    refine ⟨[], by simp, fun L hL h1 => ?_⟩
    exfalso
    have a := abs_le.1 (hL 0 0)
    have b := abs_le.1 (hL 0 1)
    have c := abs_le.1 (hL 1 0)
    have d := abs_le.1 (hL 1 1)
    simp at a b c d
    rw [Matrix.det_fin_two] at h1
    nlinarith [mul_nonneg (show 0 ≤ L 0 0 - 2 by omega) (show 0 ≤ L 1 1 - 2 by omega),
      mul_nonneg (show 0 ≤ 1 - L 0 1 by omega) (show 0 ≤ 1 + L 1 0 by omega),
      mul_nonneg (show 0 ≤ 1 + L 0 1 by omega) (show 0 ≤ 1 - L 1 0 by omega)]
  unfold directSearch
  rw [C72_few h.groupA h.groupM (setting_class h.search) hn few samples hs]

/-- the hypotheses of `C72_direct_partial` are met by the square lattice and three solutions -/
example : ValidSetting (1 : Matrix (Fin 2) (Fin 2) ℝ) 1 1 square square (1 / 2) ∧
    EnoughNearBy square square (fun L => cauchyDist L (1 : Matrix (Fin 2) (Fin 2) ℝ) 1) 1 3 ∧
    ∃ draw, FairDraws (1 : Matrix (Fin 2) (Fin 2) ℤ) draw :=
  ⟨square_setting, square_enough, fairDraws_exist 1⟩

/-- the hypotheses of `C72_scaled_fails` are met by the square lattice and one three times as large -/
example : ValidSetting (1 : Matrix (Fin 2) (Fin 2) ℝ) ((3 : ℝ) • 1) ((1 / 3 : ℝ) • 1) square square
      (1 / 162) ∧
    (1 : Matrix (Fin 2) (Fin 2) ℝ) * (!![3, 0; 0, 3] : Matrix (Fin 2) (Fin 2) ℤ).map (Int.cast : ℤ → ℝ)
      = (3 : ℝ) • 1 ∧ NearBy !![3, 0; 0, 3] !![2, -1; 1, 2] := by
  refine ⟨⟨by simp, ?_, square_group, square_group, square_sym, fun M => ?_, by norm_num, ?_⟩, ?_, ?_⟩
  · rw [Matrix.smul_mul, Matrix.mul_smul, Matrix.one_mul, smul_smul]
    norm_num
  · rw [square_sym]
    unfold IsLatticeSym
    refine exists_congr fun Q => and_congr_right fun _ => ?_
    rw [Matrix.mul_smul, Matrix.smul_mul]
    exact (smul_right_injective _ (three_ne_zero (α := ℝ))).eq_iff.symm
  · intro X hX
    have h1 := fro_mul_transpose X
    rw [show fro X = 1 from hX] at h1
    have e : (1 : Matrix (Fin 2) (Fin 2) ℝ) * X * ((1 / 3 : ℝ) • 1)
        * ((1 : Matrix (Fin 2) (Fin 2) ℝ) * X * ((1 / 3 : ℝ) • 1))ᵀ = (1 / 9 : ℝ) • (X * Xᵀ) := by
      rw [Matrix.one_mul, Matrix.mul_smul, Matrix.mul_one, Matrix.transpose_smul, Matrix.smul_mul,
        Matrix.mul_smul, smul_smul]
      norm_num
    rw [e]
    have e2 : ∑ i, ∑ j, ((1 / 9 : ℝ) • (X * Xᵀ)) i j ^ 2 = (1 / 81 : ℝ) * fro (X * Xᵀ) := by
      simp only [fro, Finset.mul_sum, Matrix.smul_apply, smul_eq_mul, mul_pow]
      norm_num
    rw [e2]
    push_cast at h1
    linarith
  · ext i j
    fin_cases i <;> fin_cases j <;> simp
  · unfold NearBy; decide +kernel

end Verif.Props
