import Mathlib.Data.List.TakeWhile
import Verif.Lemmas.SolList

/-!
# Lemmas about the solution lists of `main_hnf.py` and `lat_opt.py`
-/

namespace Verif.Lemmas

open Verif.Model Verif.Spec

variable {α D : Type} [DecidableEq α] [LinearOrder D]

omit [DecidableEq α] in
theorem hnfTruncate_eq {n : ℕ} (hn : 1 ≤ n) (sols : List (Sol α D))
    (hs : sols.Pairwise (fun a b => a.d ≤ b.d)) : hnfTruncate n sols = truncN Sol.d n sols := by
  unfold hnfTruncate truncN
  split_ifs with h
  · rw [pyGet?_pred _ hn]
    have h' : n - 1 < sols.length := by omega
    rw [List.getElem?_eq_getElem h']
    simp only
    set ref := sols[n - 1] with href
    set B := sols.drop n with hB
    have hAB : sols = sols.take n ++ B := (List.take_append_drop n sols).symm
    have hBl : B.length = sols.length - n := by rw [hB, List.length_drop]
    have e1 : sols.reverse.take (sols.length - n) = B.reverse := by
      rw [List.take_reverse, hB]
      congr 2
      omega
    rw [e1]
    set X := B.reverse.takeWhile (fun s => decide (ref.d < s.d)) with hX
    set Y := B.reverse.dropWhile (fun s => decide (ref.d < s.d)) with hY
    have hXY : B.reverse = X ++ Y := (List.takeWhile_append_dropWhile ..).symm
    have hBr : B = Y.reverse ++ X.reverse := by
      rw [← List.reverse_append, ← hXY, List.reverse_reverse]
    have hBs : B.Pairwise (fun a b => a.d ≤ b.d) := hs.sublist (List.drop_sublist _ _)
    have hYs : ∀ y ∈ Y, y.d ≤ ref.d := by
      cases hYc : Y with
      | nil => simp
      | cons y0 Y' =>
        have h0 : y0.d ≤ ref.d := by
          have := List.head?_dropWhile_not (fun s : Sol α D => decide (ref.d < s.d)) B.reverse
          rw [← hY, hYc] at this
          simpa using this
        have hYp : (y0 :: Y').Pairwise (fun a b => b.d ≤ a.d) := by
          have : B.reverse.Pairwise (fun a b => b.d ≤ a.d) := List.pairwise_reverse.mpr hBs
          rw [hXY, hYc, List.pairwise_append] at this
          exact this.2.1
        intro y hy
        rcases List.mem_cons.mp hy with rfl | hy
        · exact h0
        · exact ((List.pairwise_cons.mp hYp).1 y hy).trans h0
    have hXs : ∀ x ∈ X, ¬ x.d ≤ ref.d := by
      intro x hx
      have := List.all_takeWhile (p := fun s : Sol α D => decide (ref.d < s.d)) (l := B.reverse)
      rw [← hX, List.all_eq_true] at this
      simpa using this x hx
    have hAs : ∀ a ∈ sols.take n, a.d ≤ ref.d := by
      intro a ha
      obtain ⟨i, hi, rfl⟩ := List.mem_iff_getElem.mp ha
      rw [List.getElem_take]
      rw [List.length_take] at hi
      rcases Nat.lt_or_ge i (n - 1) with h2 | h2
      · exact List.pairwise_iff_getElem.mp hs i (n - 1) _ _ h2
      · have : i = n - 1 := by omega
        subst this; exact le_rfl
    have e2 : sols.filter (fun x => decide (x.d ≤ ref.d)) = sols.take n ++ Y.reverse := by
      conv_lhs => rw [hAB, hBr, List.filter_append, List.filter_append]
      rw [List.filter_eq_self.mpr (fun a ha => by simpa using hAs a ha),
        List.filter_eq_self.mpr (fun a ha => by simpa using hYs a (by simpa using ha)),
        List.filter_eq_nil_iff.mpr (fun a ha => by simpa using hXs a (by simpa using ha)),
        List.append_nil]
    rw [e2]
    have hlen : sols.length = (sols.take n ++ Y.reverse).length + X.length := by
      conv_lhs => rw [hAB, hBr]
      simp only [List.length_append, List.length_reverse]
      omega
    have e3 : sols = (sols.take n ++ Y.reverse) ++ X.reverse := by
      conv_lhs => rw [hAB, hBr]
      rw [List.append_assoc]
    rw [show sols.length - X.length = (sols.take n ++ Y.reverse).length by omega]
    generalize sols.take n ++ Y.reverse = Z at e3 ⊢
    rw [e3, List.take_left]
  · rfl

section generic
variable {eq : α → Finset α} {dist : α → D} {n : ℕ}

/-- `EXT_SOLS2` covers the kept solutions and holds only equivalents of seen candidates. -/
structure ExtSeen (eq : α → Finset α) (seen : List α) (sols : List (Sol α D)) (ext : Finset α) :
    Prop where
  sup : ∀ s ∈ sols, ∀ x ∈ eq s.l, x ∈ ext
  sub : ∀ x ∈ ext, ∃ c ∈ seen, x ∈ eq c

abbrev IsSym (eq : α → Finset α) (dist : α → D) : Prop := IsSymmetry eq dist (fun _ => True)

abbrev InvT (eq : α → Finset α) (dist : α → D) (n : ℕ) (seen : List α) (sols : List (Sol α D)) :
    Prop := Inv eq dist (fun _ => True) n seen sols

omit [DecidableEq α] [LinearOrder D] in
theorem ExtSeen.mono {seen seen' : List α} {sols : List (Sol α D)} {ext : Finset α}
    (h : ExtSeen eq seen sols ext) (hs : ∀ x ∈ seen, x ∈ seen') : ExtSeen eq seen' sols ext :=
  ⟨h.sup, fun x hx => by obtain ⟨c, hc, h'⟩ := h.sub x hx; exact ⟨c, hs c hc, h'⟩⟩

/-- what happens when a candidate outside `ext` is inserted and the list truncated -/
theorem insert_step (hsym : IsSym eq dist) (hn : 1 ≤ n) {seen : List α} {sols : List (Sol α D)}
    {ext : Finset α} (h : InvT eq dist n seen sols) (he : ExtSeen eq seen sols ext) {c : α}
    (hc : c ∉ ext) :
    InvT eq dist n (seen ++ [c]) (truncN Sol.d n (insertLeft Sol.d ⟨c, dist c⟩ sols)) ∧
    ExtSeen eq (seen ++ [c]) (truncN Sol.d n (insertLeft Sol.d ⟨c, dist c⟩ sols)) (ext ∪ eq c) ∧
    (n ≤ sols.length → n ≤ (truncN Sol.d n (insertLeft Sol.d ⟨c, dist c⟩ sols)).length) := by
  refine ⟨h.insert hn trivial ?_, ⟨?_, ?_⟩, ?_⟩
  · intro s hs he'
    exact hc (he.sup s hs c (by rw [he']; exact hsym.self_mem c))
  · intro s hs x hx
    have := (insertLeft_perm Sol.d _ _).mem_iff.mp ((truncN_sublist Sol.d n _).subset hs)
    rw [Finset.mem_union]
    rcases List.mem_cons.mp this with rfl | h'
    · exact Or.inr hx
    · exact Or.inl (he.sup s h' x hx)
  · intro x hx
    rcases Finset.mem_union.mp hx with hx | hx
    · obtain ⟨c', hc', h'⟩ := he.sub x hx
      exact ⟨c', by simp [hc'], h'⟩
    · exact ⟨c, by simp, hx⟩
  · intro hl
    apply truncN_length Sol.d hn _ (insertLeft_sorted _ _ _ h.sorted)
    rw [insertLeft_length]
    omega

theorem skip_step (hsym : IsSym eq dist) {seen : List α} {sols : List (Sol α D)}
    {ext : Finset α} (h : InvT eq dist n seen sols) (he : ExtSeen eq seen sols ext) {c : α}
    (hc : c ∈ ext) :
    InvT eq dist n (seen ++ [c]) sols ∧ ExtSeen eq (seen ++ [c]) sols ext := by
  refine ⟨h.skip (Or.inr ?_), he.mono (by simp +contextual)⟩
  obtain ⟨c', hc', hx⟩ := he.sub c hc
  rw [hsym.eq_of_mem hx, hsym.dist_eq hx]
  exact mem_seenClasses.mpr ⟨c', hc', trivial, rfl⟩

theorem hnfAddSol_spec (hsym : IsSym eq dist) (hn : 1 ≤ n) {seen : List α} {sols : List (Sol α D)}
    {ext : Finset α} (h : InvT eq dist n seen sols) (he : ExtSeen eq seen sols ext) (s : Sol α D)
    (hd : s.d = dist s.l) :
    InvT eq dist n (seen ++ [s.l]) (hnfAddSol eq n sols ext s).1 ∧
    ExtSeen eq (seen ++ [s.l]) (hnfAddSol eq n sols ext s).1 (hnfAddSol eq n sols ext s).2 ∧
    (n ≤ sols.length → n ≤ (hnfAddSol eq n sols ext s).1.length) := by
  unfold hnfAddSol
  split_ifs with hc
  · obtain ⟨h1, h2⟩ := skip_step hsym h he hc
    exact ⟨h1, h2, fun h => h⟩
  · have hs : s = ⟨s.l, dist s.l⟩ := by rw [← hd]
    rw [insertIdx_hnfPos, hnfTruncate_eq hn _ (insertLeft_sorted _ _ _ h.sorted)]
    have := insert_step hsym hn h he hc
    rw [← hs] at this
    exact this

theorem hnfMergeAll_spec (hsym : IsSym eq dist) (hn : 1 ≤ n) : ∀ (new : List (Sol α D))
    (seen : List α) (sols : List (Sol α D)) (ext : Finset α), InvT eq dist n seen sols →
    ExtSeen eq seen sols ext → (∀ s ∈ new, s.d = dist s.l) →
    InvT eq dist n (seen ++ new.map Sol.l) (hnfMergeAll eq n new sols ext).1 ∧
    ExtSeen eq (seen ++ new.map Sol.l) (hnfMergeAll eq n new sols ext).1
      (hnfMergeAll eq n new sols ext).2 := by
  intro new
  induction new with
  | nil => intro seen sols ext h he _; exact ⟨by simpa [hnfMergeAll] using h, by simpa [hnfMergeAll] using he⟩
  | cons s new ih =>
    intro seen sols ext h he hd
    obtain ⟨h1, h2, -⟩ := hnfAddSol_spec hsym hn h he s (hd s (by simp))
    have := ih _ _ _ h1 h2 (fun t ht => hd t (by simp [ht]))
    simpa [hnfMergeAll] using this

theorem hnfMergeMore_spec (hsym : IsSym eq dist) (hn : 1 ≤ n) : ∀ (new : List (Sol α D))
    (seen : List α) (sols : List (Sol α D)) (ext : Finset α), InvT eq dist n seen sols →
    ExtSeen eq seen sols ext → (∀ s ∈ new, s.d = dist s.l) →
    new.Pairwise (fun a b => a.d ≤ b.d) → n ≤ sols.length →
    InvT eq dist n (seen ++ new.map Sol.l) (hnfMergeMore eq n new sols ext).1 ∧
    ExtSeen eq (seen ++ new.map Sol.l) (hnfMergeMore eq n new sols ext).1
      (hnfMergeMore eq n new sols ext).2 ∧ n ≤ (hnfMergeMore eq n new sols ext).1.length := by
  intro new
  induction new with
  | nil =>
    intro seen sols ext h he _ _ hl
    exact ⟨by simpa [hnfMergeMore] using h, by simpa [hnfMergeMore] using he, by simpa [hnfMergeMore] using hl⟩
  | cons s new ih =>
    intro seen sols ext h he hd hp hl
    have hne : sols ≠ [] := by rintro rfl; simp at hl; omega
    unfold hnfMergeMore
    rw [pyGet?_neg_one, List.getLast?_eq_some_getLast hne]
    simp only
    split_ifs with hle
    · obtain ⟨h1, h2, h3⟩ := hnfAddSol_spec hsym hn h he s (hd s (by simp))
      have := ih _ _ _ h1 h2 (fun t ht => hd t (by simp [ht])) (List.pairwise_cons.mp hp).2 (h3 hl)
      simpa using this
    · refine ⟨?_, he.mono (by simp +contextual), hl⟩
      apply h.worse_list _ hl
      intro c hc t ht
      obtain ⟨u, hu, rfl⟩ := List.mem_map.mp hc
      rw [← hd u hu]
      refine lt_of_le_of_lt (le_last_of_sorted h.sorted (List.getLast?_eq_some_getLast hne) t ht) ?_
      refine lt_of_lt_of_le (not_le.mp hle) ?_
      rcases List.mem_cons.mp hu with rfl | hu
      · exact le_rfl
      · exact (List.pairwise_cons.mp hp).1 u hu

/-- folding `merge_sols` over later results, once the list is full -/
theorem hnfMerge_fold_full (hsym : IsSym eq dist) (hn : 1 ≤ n) : ∀ (rs : List (List (Sol α D)))
    (seen : List α) (sols : List (Sol α D)) (ext : Finset α), InvT eq dist n seen sols →
    ExtSeen eq seen sols ext → (∀ r ∈ rs, ∀ s ∈ r, s.d = dist s.l) →
    (∀ r ∈ rs, r.Pairwise (fun a b => a.d ≤ b.d)) → n ≤ sols.length →
    InvT eq dist n (seen ++ rs.flatMap (fun r => r.map Sol.l))
      (rs.foldl (hnfMerge eq n) (sols, ext)).1 := by
  intro rs
  induction rs with
  | nil => intro seen sols ext h _ _ _ _; simpa using h
  | cons r rs ih =>
    intro seen sols ext h he hd hp hl
    have e : hnfMerge eq n (sols, ext) r = hnfMergeMore eq n r sols ext := by
      unfold hnfMerge
      rw [if_neg (by simp only; omega)]
    obtain ⟨h1, h2, h3⟩ := hnfMergeMore_spec hsym hn r seen sols ext h he (hd r (by simp))
      (hp r (by simp)) hl
    rw [List.foldl_cons, e]
    have := ih _ _ _ h1 h2 (fun t ht => hd t (by simp [ht])) (fun t ht => hp t (by simp [ht])) h3
    simpa using this

theorem hnfMerge_empty (hsym : IsSym eq dist) (hn : 1 ≤ n) (r : List (Sol α D))
    (hd : ∀ s ∈ r, s.d = dist s.l) :
    InvT eq dist n (r.map Sol.l) (hnfMerge eq n ([], ∅) r).1 ∧
    ExtSeen eq (r.map Sol.l) (hnfMerge eq n ([], ∅) r).1 (hnfMerge eq n ([], ∅) r).2 := by
  have := hnfMergeAll_spec (eq := eq) (dist := dist) hsym hn r [] [] ∅ Inv.nil ⟨by simp, by simp⟩ hd
  simpa [hnfMerge] using this

/-! ### `lat_opt.py` -/

theorem optTruncate_eq (eq : α → Finset α) (hn : 1 ≤ n) : ∀ (fuel : ℕ) (sols : List (Sol α D)) (e : Finset α),
    n ≤ sols.length → optTruncate n fuel (sols.map Sol.d) (sols.map Sol.l) =
      ((popLoop eq n fuel sols e).1.map Sol.d, (popLoop eq n fuel sols e).1.map Sol.l) := by
  intro fuel
  induction fuel with
  | zero => intro sols e _; rfl
  | succ fuel ih =>
    intro sols e h
    unfold optTruncate popLoop
    rw [pyGet?_neg_one, pyGet?_neg_one, pyGet?_pred _ hn, pyGet?_pred _ hn]
    have h' : n - 1 < sols.length := by omega
    have hne : sols ≠ [] := by rintro rfl; simp at h'
    rw [List.getElem?_map, List.getElem?_eq_getElem h', List.getLast?_map,
      List.getLast?_eq_some_getLast hne]
    simp only [Option.map_some, List.length_map]
    split_ifs with h1 h2 h2
    · rw [← ih _ (e \ eq (sols.getLast hne).l) (by rw [List.length_dropLast]; omega), List.map_dropLast, List.map_dropLast]
    · rfl
    · exfalso
      have : n = sols.length := by omega
      subst this
      rw [List.getLast_eq_getElem] at h2
      exact lt_irrefl _ h2
    · rfl

/-- a list of solutions as the two parallel lists of `lat_opt` -/
def toOpt (sols : List (Sol α D)) (ext : Finset α) : OptState α D :=
  ⟨sols.map Sol.d, sols.map Sol.l, ext⟩

omit [DecidableEq α] in
theorem insertIdx_map_insertLeft (sols : List (Sol α D)) (s : Sol α D) (i : ℕ)
    (hi : (sols.map Sol.d).findIdx? (fun d => decide (s.d ≤ d)) = some i) :
    (sols.map Sol.d).insertIdx i s.d = (insertLeft Sol.d s sols).map Sol.d ∧
    (sols.map Sol.l).insertIdx i s.l = (insertLeft Sol.d s sols).map Sol.l := by
  have e : hnfPos sols s.d = i := by
    unfold hnfPos
    rw [List.findIdx?_map] at hi
    have : ((fun d => decide (s.d ≤ d)) ∘ Sol.d : Sol α D → Bool) = fun x => decide (s.d ≤ x.d) := rfl
    rw [this] at hi
    rw [hi]
    rfl
  rw [← insertIdx_hnfPos, e]
  exact ⟨(List.map_insertIdx ..).symm, (List.map_insertIdx ..).symm⟩

omit [DecidableEq α] in
theorem insertLeft_append (sols : List (Sol α D)) (s : Sol α D)
    (h : ∀ t ∈ sols, t.d < s.d) : insertLeft Sol.d s sols = sols ++ [s] := by
  unfold insertLeft
  have : ∀ t ∈ sols, decide (t.d < s.d) = true := fun t ht => by simpa using h t ht
  have h2 : sols.dropWhile (fun x => decide (x.d < s.d)) = [] := List.dropWhile_eq_nil_iff.mpr this
  have h3 := List.takeWhile_append_dropWhile (p := fun x : Sol α D => decide (x.d < s.d)) (l := sols)
  rw [h2, List.append_nil] at h3
  rw [h2, h3]

theorem updateSolutions_spec (hsym : IsSym eq dist) (hn : 1 ≤ n) {seen : List α}
    {sols : List (Sol α D)} {ext : Finset α} (h : InvT eq dist n seen sols)
    (he : ExtSeen eq seen sols ext) (c : α) :
    ∃ sols' ext', (updateSolutions eq n dist (toOpt sols ext) c).2 = toOpt sols' ext' ∧
      InvT eq dist n (seen ++ [c]) sols' ∧ ExtSeen eq (seen ++ [c]) sols' ext' ∧
      sols' ≠ [] ∧ (∀ s ∈ sols', s.l ∈ sols.map Sol.l ∨ s.l = c) ∧
      ((updateSolutions eq n dist (toOpt sols ext) c).1 = false → sols' = sols) := by
  have hmem : ∀ s ∈ truncN Sol.d n (insertLeft Sol.d ⟨c, dist c⟩ sols),
      s.l ∈ sols.map Sol.l ∨ s.l = c := by
    intro s hs
    have := (insertLeft_perm Sol.d _ _).mem_iff.mp ((truncN_sublist Sol.d n _).subset hs)
    rcases List.mem_cons.mp this with rfl | h'
    · exact Or.inr rfl
    · exact Or.inl (List.mem_map_of_mem h')
  have hlenpos : ∀ l : List (Sol α D), l.Pairwise (fun a b => a.d ≤ b.d) → l ≠ [] →
      truncN Sol.d n l ≠ [] := by
    intro l hl hne h0
    by_cases hlen : n ≤ l.length
    · have := truncN_length Sol.d hn l hl hlen
      rw [h0] at this
      simp at this
      omega
    · unfold truncN at h0
      rw [if_neg (by omega)] at h0
      exact hne h0
  unfold updateSolutions
  by_cases hne : sols = []
  · subst hne
    have hc : c ∉ ext ∨ c ∈ ext := by tauto
    simp only [toOpt, List.map_nil, List.length_nil, lt_irrefl, false_and, if_false, if_true,
      List.nil_append]
    have hempty : seen = [] := by
      by_contra hs
      obtain ⟨c0, seen', rfl⟩ := List.exists_cons_of_ne_nil hs
      have h1 := h.classes
      have h2 : (seenClasses eq dist (fun _ => True) (c0 :: seen')).Nonempty :=
        ⟨_, mem_seenClasses.mpr ⟨c0, by simp, trivial, rfl⟩⟩
      obtain ⟨m, hm, hmin⟩ := Finset.exists_min_image _ (fun x => x.2) h2
      have h3 : m ∈ topN n (seenClasses eq dist (fun _ => True) (c0 :: seen')) := by
        rw [mem_topN]
        refine ⟨hm, ?_⟩
        rw [Finset.filter_eq_empty_iff.mpr (fun y hy => not_lt.mpr (hmin y hy))]
        rw [Finset.card_empty]
        omega
      rw [← h1] at h3
      simp at h3
    subst hempty
    have hext : c ∉ ext := by
      intro hc
      obtain ⟨c', hc', -⟩ := he.sub c hc
      simp at hc'
    obtain ⟨h1, h2, -⟩ := insert_step hsym hn h he hext
    have e : truncN Sol.d n (insertLeft Sol.d (⟨c, dist c⟩ : Sol α D) []) = [⟨c, dist c⟩] := by
      unfold truncN insertLeft
      rw [if_neg (by simp; omega)]
      rfl
    rw [e] at h1 h2
    exact ⟨[⟨c, dist c⟩], ext ∪ eq c, rfl, h1, h2, by simp, by simp, by simp⟩
  · have hpos : 0 < sols.length := List.length_pos_iff.mpr hne
    by_cases hc : c ∈ ext
    · rw [if_neg (by simp [toOpt, hc]), if_neg (by simp [toOpt, hne])]
      obtain ⟨h1, h2⟩ := skip_step hsym h he hc
      exact ⟨sols, ext, rfl, h1, h2, hne, fun s hs => Or.inl (List.mem_map_of_mem hs), fun _ => rfl⟩
    · rw [if_pos ⟨by simpa [toOpt] using hpos, by simpa [toOpt] using hc⟩]
      obtain ⟨h1, h2, h3⟩ := insert_step hsym hn h he hc
      have hsorted := insertLeft_sorted Sol.d (⟨c, dist c⟩ : Sol α D) sols h.sorted
      have hne' := hlenpos _ hsorted (by
        intro h0
        have := insertLeft_length Sol.d (⟨c, dist c⟩ : Sol α D) sols
        rw [h0] at this
        simp at this)
      cases hf : List.findIdx? (fun d => decide (dist c ≤ d)) (toOpt sols ext).dopt with
      | some i =>
        simp only
        obtain ⟨e1, e2⟩ := insertIdx_map_insertLeft sols ⟨c, dist c⟩ i hf
        refine ⟨_, _, ?_, h1, h2, hne', hmem, by simp⟩
        unfold toOpt
        simp only at e1 e2 ⊢
        rw [e1, e2, List.length_map]
        by_cases hlen : n < (insertLeft Sol.d (⟨c, dist c⟩ : Sol α D) sols).length
        · rw [optTruncate_eq eq hn _ _ ∅ hlen.le]
          rw [(popLoop_truncN eq hn _ ∅ hlen hsorted).1]
        · have e3 : truncN Sol.d n (insertLeft Sol.d (⟨c, dist c⟩ : Sol α D) sols)
              = insertLeft Sol.d ⟨c, dist c⟩ sols := by
            unfold truncN; rw [if_neg hlen]
          rw [e3]
          have e4 : ∀ (fuel : ℕ) (a : List D) (b : List α), ¬ n < a.length →
              optTruncate n fuel a b = (a, b) := by
            intro fuel a b hab
            cases fuel with
            | zero => rfl
            | succ f => unfold optTruncate; rw [if_neg hab]
          rw [e4 _ _ _ (by simpa using hlen)]
      | none =>
        simp only
        have hall : ∀ t ∈ sols, t.d < dist c := by
          rw [List.findIdx?_eq_none_iff] at hf
          intro t ht
          have := hf t.d (List.mem_map_of_mem ht)
          simpa using this
        by_cases hlen : sols.length < n
        · rw [if_pos (by simpa [toOpt] using hlen)]
          have e3 : truncN Sol.d n (insertLeft Sol.d (⟨c, dist c⟩ : Sol α D) sols)
              = sols ++ [⟨c, dist c⟩] := by
            rw [insertLeft_append _ _ hall]
            unfold truncN
            rw [if_neg (by simp; omega)]
          rw [e3] at h1 h2 hne' hmem
          exact ⟨_, _, by simp [toOpt], h1, h2, hne', hmem, by simp⟩
        · rw [if_neg (by simpa [toOpt] using hlen)]
          exact ⟨sols, ext, rfl, h.worse (by omega) hall, he.mono (by simp +contextual), hne,
            fun s hs => Or.inl (List.mem_map_of_mem hs), fun _ => rfl⟩

/-- visiting a sequence of nodes -/
theorem updateSolutions_fold (hsym : IsSym eq dist) (hn : 1 ≤ n) : ∀ (cs : List α) (seen : List α)
    (sols : List (Sol α D)) (ext : Finset α), InvT eq dist n seen sols → ExtSeen eq seen sols ext →
    ∃ sols' ext', cs.foldl (fun st c => (updateSolutions eq n dist st c).2) (toOpt sols ext)
        = toOpt sols' ext' ∧
      InvT eq dist n (seen ++ cs) sols' ∧ ExtSeen eq (seen ++ cs) sols' ext' := by
  intro cs
  induction cs with
  | nil => intro seen sols ext h he; exact ⟨sols, ext, rfl, by simpa using h, by simpa using he⟩
  | cons c cs ih =>
    intro seen sols ext h he
    obtain ⟨s1, e1, h1, h2, h3, -⟩ := updateSolutions_spec hsym hn h he c
    obtain ⟨s2, e2, g1, g2, g3⟩ := ih _ s1 e1 h2 h3
    refine ⟨s2, e2, ?_, by simpa using g2, by simpa using g3⟩
    rw [List.foldl_cons, h1]
    exact g1

end generic

end Verif.Lemmas
