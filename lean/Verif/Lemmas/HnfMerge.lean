import Verif.Lemmas.SolMerge
import Verif.Lemmas.OptLists
import Verif.Model.LatOpt

/-!
# Merging the results of the sublattices, without any condition on their number
-/

namespace Verif.Lemmas

open Verif.Model Verif.Spec

variable {D : Type} [LinearOrder D] {GA GM : List Z3} {dist : Z3 → D} {n : ℕ}

/-- The invariant of merging. -/
structure MInv (GA GM : List Z3) (dist : Z3 → D) (n : ℕ) (seen : List Z3) (sols : List (Sol Z3 D))
    (ext : Finset Z3) : Prop where
  sorted : sols.Pairwise fun a b => a.d ≤ b.d
  distances : ∀ s ∈ sols, s.d = dist s.l
  inequivalent : sols.Pairwise fun a b => ¬ Equivalent GA GM a.l b.l
  origin : ∀ s ∈ sols, s.l ∈ seen
  sup : ∀ s ∈ sols, ∀ X, Equivalent GA GM s.l X → X ∈ ext
  sub : ∀ x ∈ ext, ∃ c ∈ seen, Equivalent GA GM c x
  nonempty : seen ≠ [] → sols ≠ []
  first : (∀ L X, Equivalent GA GM L X → dist X = dist L) → ∀ c ∈ seen, ∃ s ∈ sols, s.d ≤ dist c
  few : ∀ s ∈ sols, (sols.filter fun u => u.d < s.d).length < n

theorem MInv.nil : MInv GA GM dist n [] ([] : List (Sol Z3 D)) ∅ :=
  ⟨.nil, by simp, .nil, by simp, by simp, by simp, by simp, by simp, by simp⟩

/-- truncation keeps something at least as good as each entry -/
theorem truncN_le {l : List (Sol Z3 D)} (hn : 1 ≤ n) {s : Sol Z3 D} (hs : s ∈ l) :
    ∃ t ∈ truncN Sol.d n l, t.d ≤ s.d := by
  unfold truncN
  split_ifs with h
  · have h' : n - 1 < l.length := by omega
    rw [List.getElem?_eq_getElem h']
    simp only
    by_cases hle : s.d ≤ l[n - 1].d
    · exact ⟨s, List.mem_filter.mpr ⟨hs, by simpa using hle⟩, le_rfl⟩
    · exact ⟨l[n - 1], List.mem_filter.mpr ⟨List.getElem_mem _, by simp⟩, (not_le.mp hle).le⟩
  · exact ⟨s, hs, le_rfl⟩

/-- what is left after truncation has fewer than `n` better entries -/
theorem truncN_few {l : List (Sol Z3 D)} (hn : 1 ≤ n) (hl : l.Pairwise fun a b => a.d ≤ b.d) {s : Sol Z3 D}
    (hs : s ∈ truncN Sol.d n l) : ((truncN Sol.d n l).filter fun u => u.d < s.d).length < n := by
  have hsub := truncN_sublist Sol.d n l
  refine lt_of_le_of_lt (hsub.filter _).length_le ?_
  by_cases h : n < l.length
  · have h' : n - 1 < l.length := by omega
    have hle : s.d ≤ l[n - 1].d := by
      unfold truncN at hs
      rw [if_pos h, List.getElem?_eq_getElem h'] at hs
      simpa using (List.mem_filter.mp hs).2
    have hsplit : l = l.take (n - 1) ++ l.drop (n - 1) := (List.take_append_drop _ _).symm
    have hdrop : (l.drop (n - 1)).filter (fun u => u.d < s.d) = [] := by
      rw [List.filter_eq_nil_iff]
      intro u hu
      obtain ⟨i, hi, rfl⟩ := List.mem_iff_getElem.mp hu
      rw [List.getElem_drop]
      have : l[n - 1].d ≤ (l[n - 1 + i]'(by rw [List.length_drop] at hi; omega)).d := by
        rcases Nat.eq_zero_or_pos i with rfl | h0
        · exact le_rfl
        · exact List.pairwise_iff_getElem.mp hl _ _ h' _ (by omega)
      simpa using hle.trans this
    rw [hsplit, List.filter_append, hdrop, List.append_nil]
    refine lt_of_le_of_lt (List.length_filter_le _ _) ?_
    rw [List.length_take]
    omega
  · have : (l.filter fun u => u.d < s.d).length < l.length := by
      refine List.length_filter_lt_length_iff_exists.mpr ⟨s, hsub.subset hs, by simp⟩
    omega

theorem MInv.more {seen : List Z3} {sols : List (Sol Z3 D)} {ext : Finset Z3} (h : MInv GA GM dist n seen sols ext)
    {cs : List Z3} (hne : cs ≠ [] → sols ≠ [])
    (hc : (∀ L X, Equivalent GA GM L X → dist X = dist L) → ∀ c ∈ cs, ∃ s ∈ sols, s.d ≤ dist c) :
    MInv GA GM dist n (seen ++ cs) sols ext where
  sorted := h.sorted
  distances := h.distances
  inequivalent := h.inequivalent
  origin s hs := List.mem_append_left _ (h.origin s hs)
  sup := h.sup
  sub x hx := by
    obtain ⟨c, hc, he⟩ := h.sub x hx
    exact ⟨c, List.mem_append_left _ hc, he⟩
  nonempty := by
    intro h0
    by_cases hs : seen = []
    · exact hne (by rintro rfl; exact h0 (by rw [hs]; rfl))
    · exact h.nonempty hs
  first hd c hcs := by
    rcases List.mem_append.mp hcs with h1 | h1
    · exact h.first hd c h1
    · exact hc hd c h1
  few := h.few

theorem hnfAddSol_inv (hA : IsMatGroup GA) (hM : IsMatGroup GM) (hn : 1 ≤ n) {seen : List Z3}
    {sols : List (Sol Z3 D)} {ext : Finset Z3} (h : MInv GA GM dist n seen sols ext) (s : Sol Z3 D)
    (hd : s.d = dist s.l) :
    MInv GA GM dist n (seen ++ [s.l]) (hnfAddSol (eqlatcor GA GM) n sols ext s).1
      (hnfAddSol (eqlatcor GA GM) n sols ext s).2 ∧ (hnfAddSol (eqlatcor GA GM) n sols ext s).1 ≠ [] := by
  unfold hnfAddSol
  split_ifs with hc
  · obtain ⟨c, hcs, he⟩ := h.sub s.l hc
    have hne : sols ≠ [] := h.nonempty (List.ne_nil_of_mem hcs)
    refine ⟨h.more (fun _ => hne) ?_, hne⟩
    intro hdist x hx
    rw [List.mem_singleton] at hx
    subst hx
    obtain ⟨u, hu, hle⟩ := h.first hdist c hcs
    exact ⟨u, hu, by rw [hdist _ _ he]; exact hle⟩
  · have hs1 := insertLeft_sorted Sol.d s sols h.sorted
    have hp := insertLeft_perm Sol.d s sols
    rw [insertIdx_hnfPos, hnfTruncate_eq hn _ hs1]
    have hsub := truncN_sublist Sol.d n (insertLeft Sol.d s sols)
    have hmem : ∀ x ∈ truncN Sol.d n (insertLeft Sol.d s sols), x = s ∨ x ∈ sols := by
      intro x hx
      exact List.mem_cons.mp (hp.mem_iff.mp (hsub.subset hx))
    have hnot : ∀ x ∈ sols, ¬ Equivalent GA GM x.l s.l := fun x hx he => hc (h.sup x hx _ he)
    have hsin : s ∈ insertLeft Sol.d s sols := hp.mem_iff.mpr (by simp)
    refine ⟨⟨hs1.sublist hsub, ?_, ?_, ?_, ?_, ?_, ?_, ?_, fun x hx => truncN_few hn hs1 hx⟩, ?_⟩
    · intro x hx
      rcases hmem x hx with rfl | hx
      · exact hd
      · exact h.distances x hx
    · refine List.Pairwise.sublist hsub ?_
      refine (hp.pairwise_iff (fun {a b} hab he => hab (equivalent_symm hA hM he))).mpr ?_
      refine List.pairwise_cons.mpr ⟨fun x hx he => hnot x hx (equivalent_symm hA hM he), h.inequivalent⟩
    · intro x hx
      rcases hmem x hx with rfl | hx
      · simp
      · exact List.mem_append_left _ (h.origin x hx)
    · intro x hx X he
      rw [Finset.mem_union]
      rcases hmem x hx with rfl | hx
      · exact Or.inr (mem_eqlatcor_iff.mpr he)
      · exact Or.inl (h.sup x hx X he)
    · intro x hx
      rcases Finset.mem_union.mp hx with hx | hx
      · obtain ⟨c, hcs, he⟩ := h.sub x hx
        exact ⟨c, List.mem_append_left _ hcs, he⟩
      · exact ⟨s.l, by simp, mem_eqlatcor_iff.mp hx⟩
    · intro _ h0
      obtain ⟨t, ht, -⟩ := truncN_le hn hsin
      rw [show truncN Sol.d n (insertLeft Sol.d s sols) = [] from h0] at ht
      simp at ht
    · intro hdist c hcs
      have : ∃ u ∈ insertLeft Sol.d s sols, u.d ≤ dist c := by
        rcases List.mem_append.mp hcs with h1 | h1
        · obtain ⟨u, hu, hle⟩ := h.first hdist c h1
          exact ⟨u, hp.mem_iff.mpr (List.mem_cons_of_mem _ hu), hle⟩
        · rw [List.mem_singleton] at h1
          subst h1
          exact ⟨s, hsin, hd.le⟩
      obtain ⟨u, hu, hle⟩ := this
      obtain ⟨v, hv, hvu⟩ := truncN_le hn hu
      exact ⟨v, hv, hvu.trans hle⟩
    · intro h0
      obtain ⟨t, ht, -⟩ := truncN_le hn hsin
      rw [show truncN Sol.d n (insertLeft Sol.d s sols) = [] from h0] at ht
      simp at ht

theorem hnfMergeAll_inv (hA : IsMatGroup GA) (hM : IsMatGroup GM) (hn : 1 ≤ n) : ∀ (new : List (Sol Z3 D))
    (seen : List Z3) (sols : List (Sol Z3 D)) (ext : Finset Z3), MInv GA GM dist n seen sols ext →
    (∀ s ∈ new, s.d = dist s.l) →
    MInv GA GM dist n (seen ++ new.map Sol.l) (hnfMergeAll (eqlatcor GA GM) n new sols ext).1
      (hnfMergeAll (eqlatcor GA GM) n new sols ext).2 := by
  intro new
  induction new with
  | nil => intro seen sols ext h _; simpa [hnfMergeAll] using h
  | cons s new ih =>
    intro seen sols ext h hd
    obtain ⟨h1, -⟩ := hnfAddSol_inv hA hM hn h s (hd s (by simp))
    have := ih _ _ _ h1 (fun t ht => hd t (by simp [ht]))
    simpa [hnfMergeAll] using this

theorem hnfMergeMore_inv (hA : IsMatGroup GA) (hM : IsMatGroup GM) (hn : 1 ≤ n) : ∀ (new : List (Sol Z3 D))
    (seen : List Z3) (sols : List (Sol Z3 D)) (ext : Finset Z3), MInv GA GM dist n seen sols ext →
    sols ≠ [] → (∀ s ∈ new, s.d = dist s.l) → new.Pairwise (fun a b => a.d ≤ b.d) →
    MInv GA GM dist n (seen ++ new.map Sol.l) (hnfMergeMore (eqlatcor GA GM) n new sols ext).1
      (hnfMergeMore (eqlatcor GA GM) n new sols ext).2 := by
  intro new
  induction new with
  | nil => intro seen sols ext h _ _ _; simpa [hnfMergeMore] using h
  | cons s new ih =>
    intro seen sols ext h hne hd hp
    unfold hnfMergeMore
    rw [pyGet?_neg_one, List.getLast?_eq_some_getLast hne]
    simp only
    split_ifs with hle
    · obtain ⟨h1, h2⟩ := hnfAddSol_inv hA hM hn h s (hd s (by simp))
      have := ih _ _ _ h1 h2 (fun t ht => hd t (by simp [ht])) (List.pairwise_cons.mp hp).2
      simpa using this
    · refine h.more (fun _ => hne) ?_
      intro hdist c hc
      obtain ⟨u, hu, rfl⟩ := List.mem_map.mp hc
      refine ⟨sols.getLast hne, List.getLast_mem hne, ?_⟩
      rw [← hd u hu]
      refine (not_le.mp hle).le.trans ?_
      rcases List.mem_cons.mp hu with rfl | hu
      · exact le_rfl
      · exact (List.pairwise_cons.mp hp).1 u hu

/-- merging one more result -/
theorem hnfMerge_inv (hA : IsMatGroup GA) (hM : IsMatGroup GM) (hn : 1 ≤ n) (new : List (Sol Z3 D))
    {seen : List Z3} {st : List (Sol Z3 D) × Finset Z3} (h : MInv GA GM dist n seen st.1 st.2)
    (hd : ∀ s ∈ new, s.d = dist s.l) (hp : new.Pairwise (fun a b => a.d ≤ b.d)) :
    MInv GA GM dist n (seen ++ new.map Sol.l) (hnfMerge (eqlatcor GA GM) n st new).1
      (hnfMerge (eqlatcor GA GM) n st new).2 := by
  unfold hnfMerge
  split_ifs with h0
  · exact hnfMergeAll_inv hA hM hn new _ _ _ h hd
  · exact hnfMergeMore_inv hA hM hn new _ _ _ h (by rintro h1; rw [h1] at h0; simp at h0) hd hp

end Verif.Lemmas
