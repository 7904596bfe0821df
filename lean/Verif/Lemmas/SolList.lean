import Verif.Lemmas.TopN
import Verif.Model.SolList
import Mathlib.Data.Finset.Lattice.Fold

/-! # Lemmas about the solution lists -/

namespace Verif.Lemmas

open Verif.Spec Verif.Model

section generic

variable {α D : Type} [DecidableEq α] [LinearOrder D]

/-- the scored class of a list entry -/
def clsOf (eq : α → Finset α) (s : Sol α D) : Finset α × D := (eq s.l, s.d)

/-- The list `sols` is the correct answer for the candidates `seen`. -/
structure Inv (eq : α → Finset α) (dist : α → D) (adm : α → Prop) [DecidablePred adm] (n : ℕ)
    (seen : List α) (sols : List (Sol α D)) : Prop where
  sorted : sols.Pairwise (fun a b => a.d ≤ b.d)
  nodup : (sols.map (clsOf eq)).Nodup
  classes : (sols.map (clsOf eq)).toFinset = topN n (seenClasses eq dist adm seen)
  sound : ∀ s ∈ sols, s.l ∈ seen ∧ adm s.l ∧ s.d = dist s.l

variable {eq : α → Finset α} {dist : α → D} {adm : α → Prop} [DecidablePred adm] {n : ℕ}

theorem mem_seenClasses {cs : List α} {x : Finset α × D} :
    x ∈ seenClasses eq dist adm cs ↔ ∃ c ∈ cs, adm c ∧ (eq c, dist c) = x := by
  unfold seenClasses
  simp only [List.mem_toFinset, List.mem_map, List.mem_filter, decide_eq_true_eq]
  constructor
  · rintro ⟨c, ⟨h1, h2⟩, h3⟩; exact ⟨c, h1, h2, h3⟩
  · rintro ⟨c, h1, h2, h3⟩; exact ⟨c, ⟨h1, h2⟩, h3⟩

theorem seenClasses_append (cs ds : List α) :
    seenClasses eq dist adm (cs ++ ds) = seenClasses eq dist adm cs ∪ seenClasses eq dist adm ds := by
  ext x
  simp only [Finset.mem_union, mem_seenClasses, List.mem_append]
  constructor
  · rintro ⟨c, h1 | h1, h2⟩
    · exact Or.inl ⟨c, h1, h2⟩
    · exact Or.inr ⟨c, h1, h2⟩
  · rintro (⟨c, h1, h2⟩ | ⟨c, h1, h2⟩)
    · exact ⟨c, Or.inl h1, h2⟩
    · exact ⟨c, Or.inr h1, h2⟩

theorem seenClasses_single_adm {c : α} (h : adm c) :
    seenClasses eq dist adm [c] = {(eq c, dist c)} := by
  ext x
  simp only [mem_seenClasses, List.mem_singleton, Finset.mem_singleton]
  constructor
  · rintro ⟨c', rfl, -, rfl⟩; rfl
  · rintro rfl; exact ⟨c, rfl, h, rfl⟩

theorem seenClasses_single_not {c : α} (h : ¬adm c) : seenClasses eq dist adm [c] = ∅ := by
  ext x
  simp only [mem_seenClasses, List.mem_singleton]
  constructor
  · rintro ⟨c', rfl, h', -⟩; exact absurd h' h
  · simp

theorem Inv.nil : Inv eq dist adm n [] ([] : List (Sol α D)) := by
  refine ⟨by simp, by simp, ?_, by simp⟩
  simp [seenClasses, topN]

/-- a candidate that adds no new class -/
theorem Inv.skip {seen : List α} {sols : List (Sol α D)} (h : Inv eq dist adm n seen sols) {c : α}
    (hc : ¬adm c ∨ (eq c, dist c) ∈ seenClasses eq dist adm seen) :
    Inv eq dist adm n (seen ++ [c]) sols := by
  refine ⟨h.sorted, h.nodup, ?_, fun s hs => ?_⟩
  · rw [h.classes, seenClasses_append]
    by_cases ha : adm c
    · rcases hc with hc | hc
      · exact absurd ha hc
      · rw [seenClasses_single_adm ha, Finset.union_eq_left.mpr (by simpa using hc)]
    · rw [seenClasses_single_not ha, Finset.union_empty]
  · obtain ⟨h1, h2⟩ := h.sound s hs
    exact ⟨List.mem_append_left _ h1, h2⟩

/-- a candidate with at least `n` strictly better classes in the list -/
theorem Inv.worse {seen : List α} {sols : List (Sol α D)} (h : Inv eq dist adm n seen sols) {c : α}
    (hc : n ≤ sols.length) (hd : ∀ s ∈ sols, s.d < dist c) :
    Inv eq dist adm n (seen ++ [c]) sols := by
  refine ⟨h.sorted, h.nodup, ?_, fun s hs => ?_⟩
  · rw [seenClasses_append, topN_union_of_worse, h.classes]
    intro x hx
    obtain ⟨c', hc', -, rfl⟩ := mem_seenClasses.mp hx
    rw [List.mem_singleton] at hc'
    subst hc'
    have : (sols.map (clsOf eq)).toFinset ⊆
        (seenClasses eq dist adm seen).filter (fun y => y.2 < dist c') := by
      intro y hy
      rw [Finset.mem_filter]
      refine ⟨?_, ?_⟩
      · rw [h.classes] at hy
        exact topN_subset _ _ hy
      · rw [List.mem_toFinset, List.mem_map] at hy
        obtain ⟨s, hs, rfl⟩ := hy
        exact hd s hs
    have h2 := Finset.card_le_card this
    rw [List.toFinset_card_of_nodup h.nodup, List.length_map] at h2
    exact hc.trans h2
  · obtain ⟨h1, h2⟩ := h.sound s hs
    exact ⟨List.mem_append_left _ h1, h2⟩

/-- inserting a candidate of a new class and truncating -/
theorem Inv.insert {seen : List α} {sols : List (Sol α D)} (h : Inv eq dist adm n seen sols)
    (hn : 1 ≤ n) {c : α} (ha : adm c) (hc : ∀ s ∈ sols, eq s.l ≠ eq c) :
    Inv eq dist adm n (seen ++ [c]) (truncN Sol.d n (insertLeft Sol.d ⟨c, dist c⟩ sols)) := by
  set l := insertLeft Sol.d (⟨c, dist c⟩ : Sol α D) sols with hl
  have hperm : l.Perm (⟨c, dist c⟩ :: sols) := insertLeft_perm _ _ _
  have hs : l.Pairwise (fun a b => a.d ≤ b.d) := insertLeft_sorted _ _ _ h.sorted
  have hnd : (l.map (clsOf eq)).Nodup := by
    rw [(hperm.map _).nodup_iff, List.map_cons, List.nodup_cons]
    refine ⟨?_, h.nodup⟩
    intro hm
    rw [List.mem_map] at hm
    obtain ⟨s, hs, he⟩ := hm
    exact hc s hs (congrArg Prod.fst he)
  have hsub := truncN_sublist Sol.d n l
  refine ⟨hs.sublist hsub, hnd.sublist (hsub.map _), ?_, ?_⟩
  · rw [truncN_topN Sol.d hn l hs (clsOf eq) (fun _ => rfl) hnd]
    have : (l.map (clsOf eq)).toFinset = topN n (seenClasses eq dist adm seen) ∪ {(eq c, dist c)} := by
      rw [← h.classes, List.toFinset_eq_of_perm _ _ (hperm.map _), List.map_cons,
        List.toFinset_cons, Finset.insert_eq, Finset.union_comm]
      rfl
    rw [this, topN_union, seenClasses_append, seenClasses_single_adm ha]
  · intro s hs
    have := hperm.mem_iff.mp (hsub.subset hs)
    rcases List.mem_cons.mp this with rfl | h'
    · exact ⟨by simp, ha, rfl⟩
    · obtain ⟨h1, h2⟩ := h.sound s h'
      exact ⟨List.mem_append_left _ h1, h2⟩

/-! ### Python list helpers -/

theorem pyGet?_neg_one {σ : Type} (l : List σ) : pyGet? l (-1) = l.getLast? := by
  unfold pyGet?
  simp only [show ¬ (0 : ℤ) ≤ -1 by decide, if_false]
  cases l with
  | nil => simp
  | cons a l =>
    rw [List.getLast?_eq_getElem?]
    simp only [List.length_cons]
    rw [if_pos (by omega)]
    congr 1
    omega

theorem pyGet?_pred {σ : Type} (l : List σ) {n : ℕ} (hn : 1 ≤ n) :
    pyGet? l ((n : ℤ) - 1) = l[n - 1]? := by
  unfold pyGet?
  rw [if_pos (by omega)]
  congr 1
  omega

theorem insertIdx_append_length {σ : Type} (a b : List σ) (s : σ) :
    (a ++ b).insertIdx a.length s = a ++ s :: b := by
  induction a with
  | nil => simp
  | cons x a ih => simp [ih]

omit [DecidableEq α] in
theorem insertIdx_searchsorted (sols : List (Sol α D)) (s : Sol α D) :
    sols.insertIdx (searchsorted (sols.map Sol.d) s.d) s = insertLeft Sol.d s sols := by
  unfold searchsorted insertLeft
  rw [List.takeWhile_map, List.length_map]
  have : (fun x : Sol α D => decide (x.d < s.d)) = (fun y => decide (y < s.d)) ∘ Sol.d := rfl
  rw [← this]
  have h2 := insertIdx_append_length (sols.takeWhile (fun x : Sol α D => decide (x.d < s.d)))
    (sols.dropWhile (fun x : Sol α D => decide (x.d < s.d))) s
  rw [List.takeWhile_append_dropWhile] at h2
  exact h2

theorem insertIdx_findIdx {σ : Type} (p q : σ → Bool) (h : ∀ x, q x = !p x) (l : List σ) (s : σ) :
    l.insertIdx ((l.findIdx? p).getD l.length) s = l.takeWhile q ++ s :: l.dropWhile q := by
  induction l with
  | nil => simp
  | cons a l ih =>
    rw [List.findIdx?_cons]
    cases hp : p a with
    | true =>
      have hq : q a = false := by rw [h, hp]; rfl
      simp [hq]
    | false =>
      have hq : q a = true := by rw [h, hp]; rfl
      simp only [Bool.false_eq_true, if_false, List.takeWhile_cons, hq, if_true, List.dropWhile_cons,
        List.length_cons, List.cons_append]
      rw [← ih]
      cases hf : List.findIdx? p l with
      | none => simp
      | some i => simp

omit [DecidableEq α] in
theorem insertIdx_hnfPos (sols : List (Sol α D)) (s : Sol α D) :
    sols.insertIdx (hnfPos sols s.d) s = insertLeft Sol.d s sols := by
  unfold hnfPos insertLeft
  apply insertIdx_findIdx
  intro x
  by_cases h : x.d < s.d
  · simp [h]
  · simp [h, not_lt.mp h]

/-! ### `main_direct.py` -/

omit [DecidableEq α] in
theorem filter_snoc_of_sorted {sols : List (Sol α D)} {last : Sol α D} (r : D)
    (hs : (sols ++ [last]).Pairwise (fun a b => a.d ≤ b.d)) (h : last.d ≤ r) :
    (sols ++ [last]).filter (fun x => decide (x.d ≤ r)) = sols ++ [last] := by
  rw [List.filter_eq_self]
  intro x hx
  rw [List.pairwise_append] at hs
  simp only [decide_eq_true_eq]
  rcases List.mem_append.mp hx with hx | hx
  · exact (hs.2.2 x hx last (by simp)).trans h
  · rw [List.mem_singleton] at hx; subst hx; exact h

theorem popLoop_spec (eq : α → Finset α) {n : ℕ} (hn : 1 ≤ n) (ref : Sol α D) :
    ∀ (fuel : ℕ) (sols : List (Sol α D)) (ext : Finset α), sols.length ≤ fuel →
      sols[n - 1]? = some ref → sols.Pairwise (fun a b => a.d ≤ b.d) →
      (popLoop eq n fuel sols ext).1 = sols.filter (fun x => decide (x.d ≤ ref.d)) ∧
      ∀ x, x ∈ (popLoop eq n fuel sols ext).2 ↔
        x ∈ ext ∧ ∀ s ∈ sols, ref.d < s.d → x ∉ eq s.l := by
  intro fuel
  induction fuel with
  | zero =>
    intro sols ext hf hr _
    have : sols = [] := List.length_eq_zero_iff.mp (by omega)
    subst this
    simp at hr
  | succ fuel ih =>
    intro sols ext hf hr hs
    have hne : sols ≠ [] := by rintro rfl; simp at hr
    obtain ⟨init, last, rfl⟩ : ∃ init last, sols = init ++ [last] :=
      ⟨sols.dropLast, sols.getLast hne, (List.dropLast_append_getLast hne).symm⟩
    unfold popLoop
    rw [pyGet?_neg_one, pyGet?_pred _ hn, hr]
    simp only [List.getLast?_append, List.getLast?_singleton, Option.some_or, List.dropLast_concat]
    split_ifs with hlt
    · have hlen : n - 1 < init.length := by
        by_contra hge
        have h1 : n - 1 < (init ++ [last]).length := by
          by_contra h2
          rw [List.getElem?_eq_none (by omega)] at hr
          simp at hr
        have h2 : n - 1 = init.length := by
          rw [List.length_append, List.length_singleton] at h1; omega
        rw [h2, List.getElem?_append_right (le_refl _)] at hr
        simp only [Nat.sub_self, List.getElem?_cons_zero, Option.some.injEq] at hr
        rw [hr] at hlt
        exact lt_irrefl _ hlt
      have hr' : init[n - 1]? = some ref := by
        rw [List.getElem?_append_left hlen] at hr
        exact hr
      rw [List.pairwise_append] at hs
      obtain ⟨h1, h2⟩ := ih init (ext \ eq last.l) (by
        rw [List.length_append, List.length_singleton] at hf; omega) hr' hs.1
      refine ⟨?_, ?_⟩
      · rw [h1, List.filter_append]
        simp [not_le.mpr hlt]
      · intro x
        rw [h2, Finset.mem_sdiff]
        constructor
        · rintro ⟨⟨h3, h4⟩, h5⟩
          refine ⟨h3, fun s hs' hd => ?_⟩
          rcases List.mem_append.mp hs' with h6 | h6
          · exact h5 s h6 hd
          · rw [List.mem_singleton] at h6; subst h6; exact h4
        · rintro ⟨h3, h4⟩
          exact ⟨⟨h3, h4 last (by simp) hlt⟩, fun s hs' => h4 s (by simp [hs'])⟩
    · rw [not_lt] at hlt
      refine ⟨(filter_snoc_of_sorted _ hs hlt).symm, ?_⟩
      intro x
      refine ⟨fun h => ⟨h, fun s hs' hd => ?_⟩, fun h => h.1⟩
      exfalso
      have := filter_snoc_of_sorted ref.d hs hlt
      rw [List.filter_eq_self] at this
      have := this s hs'
      simp only [decide_eq_true_eq] at this
      exact absurd hd (not_lt.mpr this)

theorem popLoop_truncN (eq : α → Finset α) {n : ℕ} (hn : 1 ≤ n) (sols : List (Sol α D))
    (ext : Finset α) (h : n < sols.length) (hs : sols.Pairwise (fun a b => a.d ≤ b.d)) :
    (popLoop eq n sols.length sols ext).1 = truncN Sol.d n sols ∧
    ∀ x, x ∈ (popLoop eq n sols.length sols ext).2 ↔
      x ∈ ext ∧ ∀ s ∈ sols, s ∉ truncN Sol.d n sols → x ∉ eq s.l := by
  have h' : n - 1 < sols.length := by omega
  obtain ⟨h1, h2⟩ := popLoop_spec eq hn sols[n - 1] sols.length sols ext le_rfl
    (List.getElem?_eq_getElem h') hs
  have e : truncN Sol.d n sols = sols.filter (fun x => decide (x.d ≤ (sols[n - 1]).d)) := by
    unfold truncN
    rw [if_pos h, List.getElem?_eq_getElem h']
  refine ⟨by rw [h1, e], ?_⟩
  intro x
  rw [h2, e]
  refine and_congr_right (fun _ => forall₂_congr (fun s hs' => ?_))
  simp [hs']

/-- Among admissible candidates, `ext_sols` holds exactly the classes of the kept solutions. -/
structure ExtInv (eq : α → Finset α) (adm : α → Prop) (sols : List (Sol α D))
    (ext : Finset α) : Prop where
  sup : ∀ s ∈ sols, ∀ x ∈ eq s.l, x ∈ ext
  sub : ∀ x ∈ ext, adm x → ∃ s ∈ sols, x ∈ eq s.l

theorem truncN_of_inv (hn : 1 ≤ n) {seen : List α} {sols : List (Sol α D)}
    (h : Inv eq dist adm n seen sols) : truncN Sol.d n sols = sols := by
  have h1 := truncN_topN Sol.d hn sols h.sorted (clsOf eq) (fun _ => rfl) h.nodup
  rw [h.classes, topN_idem, ← h.classes] at h1
  have h2 := truncN_sublist Sol.d n sols
  apply h2.eq_of_length
  have e1 := List.toFinset_card_of_nodup h.nodup
  have e2 := List.toFinset_card_of_nodup (h.nodup.sublist (h2.map (clsOf eq)))
  rw [h1, e1] at e2
  simpa using e2.symm

theorem addSol_spec (hsym : IsSymmetry eq dist adm) (hn : 1 ≤ n) {seen : List α}
    {sols : List (Sol α D)} {ext : Finset α} (h : Inv eq dist adm n seen sols)
    (he : ExtInv eq adm sols ext) (c : α) (hne : sols ≠ [] ∨ adm c) :
    ∃ sols' ext' last, addSol eq adm n ⟨c, dist c⟩ sols ext = .ok (sols', ext', last.d) ∧
      Inv eq dist adm n (seen ++ [c]) sols' ∧ ExtInv eq adm sols' ext' ∧
      sols'.getLast? = some last ∧ (n ≤ sols.length → n ≤ sols'.length) ∧
      (sols.length ≤ sols'.length ∨ n ≤ sols'.length) ∧
      (c ∉ ext → adm c → sols.length + 1 ≤ sols'.length ∨ n ≤ sols'.length) ∧
      (∀ s ∈ sols', s ∈ sols ∨ s.d = dist c) := by
  have fin : ∀ (P : List (Sol α D) → Finset α → Prop) (l : List (Sol α D)) (e : Finset α), l ≠ [] →
      P l e → ∃ sols' ext' last, (match pyGet? l (-1) with
        | none => Except.error Err.indexError
        | some s => Except.ok (l, e, s.d) : Except Err _) = .ok (sols', ext', last.d) ∧
        P sols' ext' ∧ sols'.getLast? = some last := by
    intro P l e hl hP
    refine ⟨l, e, l.getLast hl, ?_, hP, List.getLast?_eq_some_getLast hl⟩
    rw [pyGet?_neg_one, List.getLast?_eq_some_getLast hl]
  unfold addSol
  by_cases hc : c ∈ ext
  · -- already known
    simp only [hc, if_true]
    have hsk : ¬adm c ∨ (eq c, dist c) ∈ seenClasses eq dist adm seen := by
      by_cases ha : adm c
      · right
        obtain ⟨s, hs, hx⟩ := he.sub c hc ha
        obtain ⟨h1, h2, h3⟩ := h.sound s hs
        rw [hsym.eq_of_mem hx, hsym.dist_eq hx]
        exact mem_seenClasses.mpr ⟨s.l, h1, h2, rfl⟩
      · exact Or.inl ha
    have hne' : sols ≠ [] := by
      rcases hne with h' | h'
      · exact h'
      · rintro rfl
        obtain ⟨s, hs, -⟩ := he.sub c hc h'
        simp at hs
    obtain ⟨s', e', last, h1, h2, h3⟩ := fin (fun l e => l = sols ∧ e = ext) sols ext hne' ⟨rfl, rfl⟩
    obtain ⟨rfl, rfl⟩ := h2
    exact ⟨s', e', last, h1, h.skip hsk, he, h3, fun h => h, Or.inl le_rfl,
      fun h' => absurd trivial h', fun s hs => Or.inl hs⟩
  · simp only [hc, if_false]
    by_cases ha : adm c
    · -- a new class
      simp only [ha, if_true]
      have hins := insertIdx_searchsorted sols (⟨c, dist c⟩ : Sol α D)
      simp only at hins
      rw [hins]
      set l := insertLeft Sol.d (⟨c, dist c⟩ : Sol α D) sols with hl
      have hnew : ∀ s ∈ sols, eq s.l ≠ eq c := by
        intro s hs he'
        apply hc
        exact he.sup s hs c (by rw [he']; exact hsym.self_mem c)
      have hinv := h.insert hn ha hnew
      rw [← hl] at hinv
      have hperm : l.Perm (⟨c, dist c⟩ :: sols) := insertLeft_perm _ _ _
      have hlen : l.length = sols.length + 1 := insertLeft_length _ _ _
      have hsorted : l.Pairwise (fun a b => a.d ≤ b.d) := insertLeft_sorted _ _ _ h.sorted
      have hmem : ∀ s ∈ l, s ∈ sols ∨ s.d = dist c := by
        intro s hs
        rcases List.mem_cons.mp (hperm.mem_iff.mp hs) with rfl | h'
        · exact Or.inr rfl
        · exact Or.inl h'
      -- common facts on the truncated list and the pruned set
      have hext : ∀ (e : Finset α), (∀ x, x ∈ e ↔ x ∈ ext ∪ eq c ∧
          ∀ s ∈ l, s ∉ truncN Sol.d n l → x ∉ eq s.l) →
          ExtInv eq adm (truncN Sol.d n l) e := by
        intro e hE
        refine ⟨?_, ?_⟩
        · intro s hs x hx
          rw [hE, Finset.mem_union]
          have hs' := (truncN_sublist Sol.d n l).subset hs
          refine ⟨?_, ?_⟩
          · rcases List.mem_cons.mp (hperm.mem_iff.mp hs') with rfl | h'
            · exact Or.inr hx
            · exact Or.inl (he.sup s h' x hx)
          · intro t ht hnt hxt
            apply hnt
            have hnd : (l.map (clsOf eq)).Nodup := by
              rw [(hperm.map _).nodup_iff, List.map_cons, List.nodup_cons]
              refine ⟨?_, h.nodup⟩
              intro hm
              rw [List.mem_map] at hm
              obtain ⟨s, hs, he⟩ := hm
              exact hnew s hs (congrArg Prod.fst he)
            have heq : eq s.l = eq t.l := by
              rw [← hsym.eq_of_mem hx, hsym.eq_of_mem hxt]
            have hd : ∀ u ∈ l, u.d = dist u.l := by
              intro u hu
              rcases List.mem_cons.mp (hperm.mem_iff.mp hu) with rfl | h'
              · rfl
              · exact (h.sound u h').2.2
            have hdd : s.d = t.d := by
              rw [hd s hs', hd t ht, ← hsym.dist_eq hx, hsym.dist_eq hxt]
            have : s = t := List.inj_on_of_nodup_map hnd hs' ht (by
              unfold clsOf; rw [heq, hdd])
            rw [← this]
            exact hs
        · intro x hx hax
          rw [hE, Finset.mem_union] at hx
          obtain ⟨hx, hnot⟩ := hx
          have : ∃ s ∈ l, x ∈ eq s.l := by
            rcases hx with hx | hx
            · obtain ⟨s, hs, h'⟩ := he.sub x hx hax
              exact ⟨s, hperm.mem_iff.mpr (by simp [hs]), h'⟩
            · exact ⟨⟨c, dist c⟩, hperm.mem_iff.mpr (by simp), hx⟩
          obtain ⟨s, hs, h'⟩ := this
          refine ⟨s, ?_, h'⟩
          by_contra hnt
          exact hnot s hs hnt h'
      have hlen1 : n ≤ sols.length → n ≤ (truncN Sol.d n l).length := fun h' =>
        truncN_length Sol.d hn l hsorted (by omega)
      have hlen2 : sols.length + 1 ≤ (truncN Sol.d n l).length ∨ n ≤ (truncN Sol.d n l).length := by
        by_cases h' : n ≤ l.length
        · exact Or.inr (truncN_length Sol.d hn l hsorted h')
        · left
          unfold truncN
          rw [if_neg (by omega)]
          omega
      have hnil : truncN Sol.d n l ≠ [] := by
        intro h0
        rw [h0] at hlen2
        simp at hlen2
        omega
      have concl : ∀ e : Finset α, (∀ x, x ∈ e ↔ x ∈ ext ∪ eq c ∧
          ∀ s ∈ l, s ∉ truncN Sol.d n l → x ∉ eq s.l) → ∀ r : List (Sol α D) × Finset α,
          r.1 = truncN Sol.d n l → r.2 = e →
          ∃ sols' ext' last, (match pyGet? r.1 (-1) with
        | none => Except.error Err.indexError
        | some s => Except.ok (r.1, r.2, s.d) : Except Err _) = .ok (sols', ext', last.d) ∧
      Inv eq dist adm n (seen ++ [c]) sols' ∧ ExtInv eq adm sols' ext' ∧
      sols'.getLast? = some last ∧ (n ≤ sols.length → n ≤ sols'.length) ∧
      (sols.length ≤ sols'.length ∨ n ≤ sols'.length) ∧
      (¬False → True → sols.length + 1 ≤ sols'.length ∨ n ≤ sols'.length) ∧
      (∀ s ∈ sols', s ∈ sols ∨ s.d = dist c) := by
        rintro e hE ⟨l', e'⟩ h1 h2
        simp only at h1 h2
        subst h1 h2
        obtain ⟨s', e'', last, g1, g2, g3⟩ := fin (fun l' e => l' = truncN Sol.d n l ∧ e = e')
          (truncN Sol.d n l) e' hnil ⟨rfl, rfl⟩
        obtain ⟨rfl, rfl⟩ := g2
        exact ⟨_, _, last, g1, hinv, hext _ hE, g3, hlen1,
          hlen2.imp_left (fun h => by omega), fun _ _ => hlen2,
          fun s hs => hmem s ((truncN_sublist Sol.d n l).subset hs)⟩
      by_cases hlt : n < l.length
      · simp only [hlt, if_true]
        obtain ⟨p1, p2⟩ := popLoop_truncN eq hn l (ext ∪ eq c) hlt hsorted
        exact concl _ p2 _ p1 rfl
      · simp only [hlt, if_false]
        have e : truncN Sol.d n l = l := by unfold truncN; rw [if_neg hlt]
        refine concl (ext ∪ eq c) ?_ (l, ext ∪ eq c) e.symm rfl
        intro x
        rw [e]
        exact ⟨fun h => ⟨h, fun s hs hns => absurd hs hns⟩, fun h => h.1⟩
    · -- a singular candidate
      simp only [ha, if_false]
      have hne' : sols ≠ [] := hne.resolve_right ha
      have htr := truncN_of_inv hn h
      have hst : ∃ e, (if n < sols.length then popLoop eq n sols.length sols (ext ∪ eq c)
          else (sols, ext ∪ eq c)) = (sols, e) ∧ ∀ x, x ∈ e ↔ x ∈ ext ∪ eq c := by
        split_ifs with hlt
        · obtain ⟨p1, p2⟩ := popLoop_truncN eq hn sols (ext ∪ eq c) hlt h.sorted
          rw [htr] at p1 p2
          refine ⟨(popLoop eq n sols.length sols (ext ∪ eq c)).2, Prod.ext p1 rfl, ?_⟩
          intro x
          rw [p2]
          exact ⟨fun h => h.1, fun h => ⟨h, fun s hs hns => absurd hs hns⟩⟩
        · exact ⟨_, rfl, fun x => Iff.rfl⟩
      obtain ⟨e, hst1, hst2⟩ := hst
      rw [hst1]
      obtain ⟨s', e', last, h1, h2, h3⟩ := fin (fun l e' => l = sols ∧ e' = e) sols e hne' ⟨rfl, rfl⟩
      obtain ⟨rfl, rfl⟩ := h2
      refine ⟨s', e', last, h1, h.skip (Or.inl ha), ⟨?_, ?_⟩, h3, fun h => h, Or.inl le_rfl,
        fun _ h' => h'.elim, fun s hs => Or.inl hs⟩
      · intro s hs x hx
        rw [hst2, Finset.mem_union]
        exact Or.inl (he.sup s hs x hx)
      · intro x hx hax
        rw [hst2, Finset.mem_union] at hx
        rcases hx with hx | hx
        · exact he.sub x hx hax
        · exact absurd ((hsym.adm_iff hx).mp hax) ha

/-! ### sequences of candidates -/

theorem Inv.congr {seen seen' : List α} {sols : List (Sol α D)} (h : Inv eq dist adm n seen sols)
    (hs : ∀ x, x ∈ seen ↔ x ∈ seen') : Inv eq dist adm n seen' sols := by
  refine ⟨h.sorted, h.nodup, ?_, fun s hs' => ?_⟩
  · rw [h.classes]
    congr 1
    ext x
    simp only [mem_seenClasses, hs]
  · obtain ⟨h1, h2⟩ := h.sound s hs'
    exact ⟨(hs _).mp h1, h2⟩

theorem Inv.worse_list {seen : List α} {sols : List (Sol α D)} (h : Inv eq dist adm n seen sols)
    (cs : List α) (hc : n ≤ sols.length) (hd : ∀ c ∈ cs, ∀ s ∈ sols, s.d < dist c) :
    Inv eq dist adm n (seen ++ cs) sols := by
  induction cs generalizing seen with
  | nil => simpa using h
  | cons c cs ih =>
    have := ih (h.worse hc (hd c (by simp))) (fun c' hc' => hd c' (by simp [hc']))
    simpa using this

omit [DecidableEq α] [LinearOrder D] [DecidablePred adm] in
theorem ExtInv.nil : ExtInv eq adm ([] : List (Sol α D)) ∅ := ⟨by simp, by simp⟩

omit [DecidableEq α] in
theorem le_last_of_sorted {sols : List (Sol α D)} {last : Sol α D}
    (hs : sols.Pairwise (fun a b => a.d ≤ b.d)) (hl : sols.getLast? = some last) :
    ∀ s ∈ sols, s.d ≤ last.d := by
  obtain ⟨ys, rfl⟩ := List.getLast?_eq_some_iff.mp hl
  intro s hs'
  rw [List.pairwise_append] at hs
  rcases List.mem_append.mp hs' with h | h
  · exact hs.2.2 s h last (by simp)
  · rw [List.mem_singleton] at h; subst h; exact le_rfl

theorem addSols_spec (hsym : IsSymmetry eq dist adm) (hn : 1 ≤ n) (cs : List α) :
    ∀ (seen : List α) (sols : List (Sol α D)) (ext : Finset α), Inv eq dist adm n seen sols →
      ExtInv eq adm sols ext → (sols ≠ [] ∨ ∀ c, cs.head? = some c → adm c) →
      ∃ sols' ext', addSols eq adm n dist cs (sols, ext) = .ok (sols', ext') ∧
        Inv eq dist adm n (seen ++ cs) sols' ∧ ExtInv eq adm sols' ext' ∧
        (n ≤ sols.length → n ≤ sols'.length) ∧ (sols ≠ [] ∨ cs ≠ [] → sols' ≠ []) := by
  induction cs with
  | nil =>
    intro seen sols ext h he _
    exact ⟨sols, ext, rfl, by simpa using h, he, fun h => h, fun h => by simpa using h⟩
  | cons c cs ih =>
    intro seen sols ext h he hh
    obtain ⟨sols1, ext1, last, h1, h2, h3, h4, h5, -, -, -⟩ := addSol_spec hsym hn h he c
      (hh.imp_right (fun h' => h' c rfl))
    have hne : sols1 ≠ [] := by rintro rfl; simp at h4
    obtain ⟨sols2, ext2, g1, g2, g3, g4, g5⟩ := ih _ sols1 ext1 h2 h3 (Or.inl hne)
    refine ⟨sols2, ext2, ?_, by simpa using g2, g3, fun h' => g4 (h5 h'), fun _ => g5 (Or.inl hne)⟩
    unfold addSols
    rw [h1]
    exact g1

theorem argmin_spec : ∀ (ds : List D), ds ≠ [] →
    ∃ d, ds[argmin ds]? = some d ∧ ∀ x ∈ ds, d ≤ x := by
  intro ds
  induction ds with
  | nil => intro h; exact absurd rfl h
  | cons d ds ih =>
    intro _
    cases ds with
    | nil => exact ⟨d, by simp [argmin], by simp⟩
    | cons d' ds =>
      unfold argmin
      split_ifs with h
      · refine ⟨d, by simp, ?_⟩
        rw [List.all_eq_true] at h
        intro x hx
        rcases List.mem_cons.mp hx with rfl | hx
        · exact le_rfl
        · simpa using h x hx
      · obtain ⟨m, h1, h2⟩ := ih (by simp)
        refine ⟨m, by simpa using h1, ?_⟩
        intro x hx
        rcases List.mem_cons.mp hx with rfl | hx
        · have h3 : ∃ y ∈ d' :: ds, ¬ x ≤ y := by
            by_contra hcon
            apply h
            rw [List.all_eq_true]
            intro y hy
            by_contra hy2
            exact hcon ⟨y, hy, by simpa using hy2⟩
          obtain ⟨y, hy, hxy⟩ := h3
          exact (h2 y hy).trans (not_le.mp hxy).le
        · exact h2 x hx

theorem updateLoop_spec (hsym : IsSymmetry eq dist adm) (hn : 1 ≤ n) :
    ∀ (fuel : ℕ) (ls : List α) (seen : List α) (sols : List (Sol α D)) (ext : Finset α)
      (last : Sol α D), ls.length ≤ fuel → Inv eq dist adm n seen sols →
      ExtInv eq adm sols ext → n ≤ sols.length → sols.getLast? = some last →
      ∃ sols' ext' last', updateLoop eq adm n fuel ls (ls.map dist) sols ext last.d
          = .ok (sols', ext', last'.d) ∧
        Inv eq dist adm n (seen ++ ls) sols' ∧ ExtInv eq adm sols' ext' ∧ n ≤ sols'.length ∧
        sols'.getLast? = some last' ∧ last'.d ≤ last.d := by
  intro fuel
  induction fuel with
  | zero =>
    intro ls seen sols ext last hf h he hl hlast
    have : ls = [] := List.length_eq_zero_iff.mp (by omega)
    subst this
    exact ⟨sols, ext, last, rfl, by simpa using h, he, hl, hlast, le_rfl⟩
  | succ fuel ih =>
    intro ls seen sols ext last hf h he hl hlast
    unfold updateLoop
    by_cases hls : ls = []
    · subst hls
      exact ⟨sols, ext, last, by simp, by simpa using h, he, hl, hlast, le_rfl⟩
    · obtain ⟨dmin, hd1, hd2⟩ := argmin_spec (ls.map dist) (by simpa using hls)
      set k := argmin (ls.map dist) with hk
      have hklt : k < ls.length := by
        by_contra hge
        rw [List.getElem?_eq_none (by simpa using hge)] at hd1
        simp at hd1
      have hlk : ls[k]? = some ls[k] := List.getElem?_eq_getElem hklt
      have hdk : dmin = dist ls[k] := by
        rw [List.getElem?_map, hlk] at hd1
        simpa using hd1.symm
      rw [hd1, hlk]
      simp only
      have hmem : ∀ x, x ∈ (seen ++ [ls[k]]) ++ ls.eraseIdx k ↔ x ∈ seen ++ ls := by
        intro x
        have hp : (ls[k] :: ls.eraseIdx k).Perm ls := List.getElem_cons_eraseIdx_perm hklt
        rw [List.append_assoc, List.singleton_append, List.mem_append, List.mem_append,
          hp.mem_iff]
      split_ifs with hle
      · have hne : sols ≠ [] := by rintro rfl; simp at hlast
        obtain ⟨sols1, ext1, last1, h1, h2, h3, h4, h5, -, -, h6⟩ := addSol_spec hsym hn h he ls[k]
          (Or.inl hne)
        rw [hdk, h1]
        simp only
        have hlast1 : last1.d ≤ last.d := by
          have hm : last1 ∈ sols1 := List.mem_of_getLast? h4
          rcases h6 last1 hm with h' | h'
          · exact le_last_of_sorted h.sorted hlast last1 h'
          · rw [h', ← hdk]; exact hle
        rw [List.eraseIdx_map]
        obtain ⟨sols2, ext2, last2, g1, g2, g3, g4, g5, g6⟩ := ih (ls.eraseIdx k) _ sols1 ext1 last1
          (by rw [List.length_eraseIdx_of_lt hklt]; omega) h2 h3 (h5 hl) h4
        exact ⟨sols2, ext2, last2, g1, g2.congr hmem, g3, g4, g5, g6.trans hlast1⟩
      · refine ⟨sols, ext, last, rfl, ?_, he, hl, hlast, le_rfl⟩
        apply h.worse_list ls hl
        intro c hc s hs
        refine lt_of_le_of_lt (le_last_of_sorted h.sorted hlast s hs) ?_
        exact lt_of_lt_of_le (not_le.mp hle) (hd2 _ (List.mem_map_of_mem hc))

theorem updateSol_spec (hsym : IsSymmetry eq dist adm) (hn : 1 ≤ n) (ls : List α) {seen : List α}
    {sols : List (Sol α D)} {ext : Finset α} {last : Sol α D} (h : Inv eq dist adm n seen sols)
    (he : ExtInv eq adm sols ext) (hl : n ≤ sols.length) (hlast : sols.getLast? = some last) :
    ∃ sols' ext' last', updateSol eq adm n dist ls sols ext last.d
        = .ok (decide (last'.d < last.d), sols', ext', last'.d) ∧
      Inv eq dist adm n (seen ++ ls) sols' ∧ ExtInv eq adm sols' ext' ∧ n ≤ sols'.length ∧
      sols'.getLast? = some last' ∧ last'.d ≤ last.d := by
  obtain ⟨sols', ext', last', h1, h2⟩ := updateLoop_spec hsym hn ls.length ls seen sols ext last
    le_rfl h he hl hlast
  refine ⟨sols', ext', last', ?_, h2⟩
  unfold updateSol
  rw [h1]

end generic

end Verif.Lemmas
