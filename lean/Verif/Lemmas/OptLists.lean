import Verif.Lemmas.SolMerge
import Verif.Lemmas.LatCor

/-!
# The lists of `lat_opt` for an arbitrary distance

No relation between the distance and the classes is assumed here.
-/

namespace Verif.Lemmas

open Verif.Model Verif.Spec

section
variable {α D : Type} [DecidableEq α] [LinearOrder D]

omit [DecidableEq α] in
theorem insertIdx_sorted (x : D) : ∀ (l : List D) (i : ℕ), l.Pairwise (· ≤ ·) →
    l.findIdx? (fun d => decide (x ≤ d)) = some i →
    (l.insertIdx i x).Pairwise (· ≤ ·) ∧ i ≤ l.length ∧
      (∀ d, (l.insertIdx i x).head? = some d → ∀ d', l.head? = some d' → d ≤ d') := by
  intro l
  induction l with
  | nil => intro i _ h; simp at h
  | cons a l ih =>
    intro i hp h
    rw [List.findIdx?_cons] at h
    obtain ⟨ha, hl⟩ := List.pairwise_cons.mp hp
    split_ifs at h with hxa
    · simp only [Option.some.injEq] at h
      subst h
      have hxa : x ≤ a := by simpa using hxa
      refine ⟨?_, by simp, ?_⟩
      · rw [List.insertIdx_zero, List.pairwise_cons]
        refine ⟨fun b hb => ?_, hp⟩
        rcases List.mem_cons.mp hb with rfl | hb
        · exact hxa
        · exact hxa.trans (ha b hb)
      · intro d hd d' hd'
        simp at hd hd'
        rw [← hd, ← hd']; exact hxa
    · obtain ⟨j, hj, rfl⟩ := Option.map_eq_some_iff.mp h
      have hxa : a < x := by simpa using hxa
      obtain ⟨h1, h2, h3⟩ := ih j hl hj
      refine ⟨?_, by simp; omega, ?_⟩
      · rw [List.insertIdx_succ_cons, List.pairwise_cons]
        refine ⟨fun b hb => ?_, h1⟩
        rcases List.eq_or_mem_of_mem_insertIdx hb with rfl | hb
        · exact hxa.le
        · exact ha b hb
      · intro d hd d' hd'
        rw [List.insertIdx_succ_cons] at hd
        simp at hd hd'
        rw [← hd, ← hd']

theorem optTruncate_take (nsol : ℕ) : ∀ (fuel : ℕ) (dopt : List D) (lopt : List α),
    dopt.length = lopt.length → ∃ k, optTruncate nsol fuel dopt lopt = (dopt.take k, lopt.take k) ∧
      1 ≤ k := by
  intro fuel
  induction fuel with
  | zero =>
    intro dopt lopt hl
    exact ⟨dopt.length + 1, by simp [optTruncate, hl], by omega⟩
  | succ fuel ih =>
    intro dopt lopt hl
    have hkeep : ∃ k, (dopt, lopt) = (dopt.take k, lopt.take k) ∧ 1 ≤ k :=
      ⟨dopt.length + 1, by simp [hl], by omega⟩
    simp only [optTruncate]
    split_ifs with hlt
    · split
      · rename_i last ref e1 e2
        split_ifs with hlt2
        · have hn : 1 ≤ nsol := by
            by_contra h0
            have h0 : nsol = 0 := by omega
            rw [h0] at e2
            have : pyGet? dopt (-1) = some ref := e2
            rw [e1] at this
            rw [Option.some.inj this] at hlt2
            exact lt_irrefl _ hlt2
          obtain ⟨k, hk, hk1⟩ := ih dopt.dropLast lopt.dropLast (by simp [hl])
          rw [hk]
          refine ⟨min k (dopt.length - 1), ?_, ?_⟩
          · rw [List.dropLast_eq_take, List.dropLast_eq_take, List.take_take, List.take_take, ← hl]
          · omega
        · exact hkeep
      · exact hkeep
    · exact hkeep

/-- The invariant of the two lists. -/
structure ListsOK (GA GM : List (Matrix (Fin 3) (Fin 3) ℤ)) (dist : Matrix (Fin 3) (Fin 3) ℤ → D)
    (visited : List (Matrix (Fin 3) (Fin 3) ℤ)) (st : OptState (Matrix (Fin 3) (Fin 3) ℤ) D) :
    Prop where
  distances : st.dopt = st.lopt.map dist
  sorted : st.dopt.Pairwise (· ≤ ·)
  inequivalent : st.lopt.Pairwise fun L L' => ¬ Equivalent GA GM L L'
  from_visited : ∀ L ∈ st.lopt, L ∈ visited
  closed : ∀ L ∈ st.lopt, ∀ X, Equivalent GA GM L X → X ∈ st.ext
  nonempty : visited ≠ [] → st.lopt ≠ []
  first : ∀ L, visited.head? = some L → ∀ d, st.dopt.head? = some d → d ≤ dist L

end

theorem mem_eqlatcor_iff {GA GM : List (Matrix (Fin 3) (Fin 3) ℤ)} {L X : Matrix (Fin 3) (Fin 3) ℤ} :
    X ∈ eqlatcor GA GM L ↔ Equivalent GA GM L X := by
  simp only [eqlatcor, List.mem_toFinset, List.mem_flatMap, List.mem_map, Equivalent]
  constructor
  · rintro ⟨a, ha, b, hb, rfl⟩; exact ⟨a, ha, b, hb, rfl⟩
  · rintro ⟨a, ha, b, hb, rfl⟩; exact ⟨a, ha, b, hb, rfl⟩

variable {D : Type} [LinearOrder D] {GA GM : List (Matrix (Fin 3) (Fin 3) ℤ)}
  {dist : Matrix (Fin 3) (Fin 3) ℤ → D}

theorem listsOK_update (hA : IsMatGroup GA) (hM : IsMatGroup GM) {nsol : ℕ}
    {visited : List (Matrix (Fin 3) (Fin 3) ℤ)} {st : OptState (Matrix (Fin 3) (Fin 3) ℤ) D}
    (h : ListsOK GA GM dist visited st) (hv : visited = [] → st.lopt = [])
    (c : Matrix (Fin 3) (Fin 3) ℤ) :
    ListsOK GA GM dist (visited ++ [c]) (updateSolutions (eqlatcor GA GM) nsol dist st c).2 := by
  have hlen : st.dopt.length = st.lopt.length := by rw [h.distances]; simp
  have hhead : ∀ L, (visited ++ [c]).head? = some L → st.lopt ≠ [] → ∀ d, st.dopt.head? = some d →
      d ≤ dist L := by
    intro L hL hne d hd
    cases visited with
    | nil => exact absurd (hv rfl) hne
    | cons a l => exact h.first L (by simpa using hL) d hd
  unfold updateSolutions
  by_cases h1 : 0 < st.dopt.length ∧ c ∉ st.ext
  · rw [if_pos h1]
    obtain ⟨hpos, hext⟩ := h1
    have hne : st.lopt ≠ [] := by
      intro h0; rw [hlen, h0] at hpos; simp at hpos
    have hneq : ∀ L ∈ st.lopt, ¬ Equivalent GA GM L c := fun L hL he => hext (h.closed L hL c he)
    have hsymm : ∀ X Y : Matrix (Fin 3) (Fin 3) ℤ, ¬ Equivalent GA GM X Y → ¬ Equivalent GA GM Y X :=
      fun X Y hXY hYX => hXY (equivalent_symm hA hM hYX)
    split
    · rename_i i hi
      obtain ⟨s1, s2, s3⟩ := insertIdx_sorted (dist c) st.dopt i h.sorted hi
      obtain ⟨k, hk, hk1⟩ := optTruncate_take (α := Matrix (Fin 3) (Fin 3) ℤ) nsol
        (st.dopt.insertIdx i (dist c)).length (st.dopt.insertIdx i (dist c)) (st.lopt.insertIdx i c)
        (by rw [List.length_insertIdx, List.length_insertIdx, hlen])
      simp only [hk]
      have hperm : (st.lopt.insertIdx i c).Perm (c :: st.lopt) :=
        List.perm_insertIdx c st.lopt (hlen ▸ s2)
      refine ⟨?_, ?_, ?_, ?_, ?_, ?_, ?_⟩
      · simp only
        rw [h.distances, ← List.map_insertIdx, List.map_take]
      · exact s1.sublist (List.take_sublist _ _)
      · refine List.Pairwise.sublist (List.take_sublist _ _) ?_
        rw [hperm.pairwise_iff (fun {x y} => hsymm x y), List.pairwise_cons]
        exact ⟨fun L hL => hsymm _ _ (hneq L hL), h.inequivalent⟩
      · intro L hL
        rcases List.mem_cons.mp (hperm.mem_iff.mp (List.mem_of_mem_take hL)) with rfl | hL
        · simp
        · exact List.mem_append_left _ (h.from_visited L hL)
      · intro L hL X hX
        rcases List.mem_cons.mp (hperm.mem_iff.mp (List.mem_of_mem_take hL)) with rfl | hL
        · exact Finset.mem_union_right _ (mem_eqlatcor_iff.mpr hX)
        · exact Finset.mem_union_left _ (h.closed L hL X hX)
      · intro _ h0
        have : (st.lopt.insertIdx i c).length = 0 := by
          have := congrArg List.length h0
          simp only [List.length_take, List.length_nil] at this
          have := hk1
          omega
        rw [hperm.length_eq] at this
        simp at this
      · intro L hL d hd
        have hd' : (st.dopt.insertIdx i (dist c)).head? = some d := by
          have := hk1
          rw [List.head?_take] at hd
          rwa [if_neg (by omega)] at hd
        obtain ⟨d', hd''⟩ : ∃ d', st.dopt.head? = some d' := by
          cases hst : st.dopt with
          | nil => rw [hst] at hpos; simp at hpos
          | cons a l => exact ⟨a, rfl⟩
        exact (s3 d hd' d' hd'').trans (hhead L hL hne d' hd'')
    · rename_i hi
      rw [List.findIdx?_eq_none_iff] at hi
      have hgt : ∀ d ∈ st.dopt, d < dist c := fun d hd => by simpa using hi d hd
      split_ifs with h3
      · refine ⟨?_, ?_, ?_, ?_, ?_, ?_, ?_⟩
        · simp [h.distances]
        · rw [List.pairwise_append]
          exact ⟨h.sorted, by simp, fun a ha b hb => by
            rw [List.mem_singleton.mp hb]; exact (hgt a ha).le⟩
        · rw [List.pairwise_append]
          exact ⟨h.inequivalent, by simp, fun a ha b hb => by
            rw [List.mem_singleton.mp hb]; exact hneq a ha⟩
        · intro L hL
          rcases List.mem_append.mp hL with hL | hL
          · exact List.mem_append_left _ (h.from_visited L hL)
          · exact List.mem_append_right _ hL
        · intro L hL X hX
          rcases List.mem_append.mp hL with hL | hL
          · exact Finset.mem_union_left _ (h.closed L hL X hX)
          · rw [List.mem_singleton.mp hL] at hX
            exact Finset.mem_union_right _ (mem_eqlatcor_iff.mpr hX)
        · intro _ h0; simp at h0
        · intro L hL d hd
          cases hst : st.dopt with
          | nil => rw [hst] at hpos; simp at hpos
          | cons a l =>
            simp only [hst] at hd
            exact hhead L hL hne d (by rw [hst]; simpa using hd)
      · exact ⟨h.distances, h.sorted, h.inequivalent,
          fun L hL => List.mem_append_left _ (h.from_visited L hL), h.closed, fun _ => hne,
          fun L hL d hd => hhead L hL hne d hd⟩
  rw [if_neg h1]
  by_cases h2 : st.dopt.length = 0
  · rw [if_pos h2]
    have hl0 : st.lopt = [] := List.length_eq_zero_iff.mp (by rw [← hlen]; exact h2)
    have hd0 : st.dopt = [] := List.length_eq_zero_iff.mp h2
    have hv0 : visited = [] := by
      by_contra hne
      exact h.nonempty hne hl0
    refine ⟨?_, ?_, ?_, ?_, ?_, ?_, ?_⟩ <;> simp only [hl0, hd0, hv0, List.nil_append]
    · simp
    · simp
    · simp
    · simp
    · intro L hL X hX
      rw [List.mem_singleton.mp hL] at hX
      exact Finset.mem_union_right _ (mem_eqlatcor_iff.mpr hX)
    · simp
    · intro L hL d hd
      simp at hL hd
      rw [← hL, ← hd]
  · rw [if_neg h2]
    have hne : st.lopt ≠ [] := by
      intro h0; rw [hlen, h0] at h2; simp at h2
    exact ⟨h.distances, h.sorted, h.inequivalent,
      fun L hL => List.mem_append_left _ (h.from_visited L hL), h.closed, fun _ => hne,
      fun L hL d hd => hhead L hL hne d hd⟩

theorem listsOK_fold (hA : IsMatGroup GA) (hM : IsMatGroup GM) {nsol : ℕ}
    (visited : List (Matrix (Fin 3) (Fin 3) ℤ)) :
    ListsOK GA GM dist visited (visited.foldl
      (fun st L => (updateSolutions (eqlatcor GA GM) nsol dist st L).2) ⟨[], [], ∅⟩) := by
  induction visited using List.reverseRecOn with
  | nil => exact ⟨rfl, by simp, by simp, by simp, by simp, by simp, by simp⟩
  | append_singleton vs c ih =>
    rw [List.foldl_append]
    refine listsOK_update hA hM ih (fun h => ?_) c
    rw [h]; rfl

end Verif.Lemmas
