import Verif.Lemmas.LatCor
import Mathlib.Tactic.FinCases

/-!
# Properties C35 - C37, C40, C41, C46 : the solution lists of the searches

`GA`, `GM` are the two symmetry groups used by the code (lists of integer matrices), `dist` is the
distance, which has to be constant on symmetry classes (proved for the distances of the code in
`Verif.Props.Dist`), `nsol ≥ 1` is the requested number of solutions.  `BestClasses` is the
specification (`Verif.Spec.LatCor`).
-/

namespace Verif.Props

open Matrix Verif.Model Verif.Spec Verif.Lemmas

section
variable {N : ℕ} {D : Type} [LinearOrder D]
variable (GA GM : List (Matrix (Fin N) (Fin N) ℤ)) (dist : Matrix (Fin N) (Fin N) ℤ → D) (nsol : ℕ)

/-! ## C35 -/

/-- C35: offering any sequence of candidates (the first one non-singular, as the initialisation of
`lat_cor` guarantees) to `add_sol` never fails and leaves exactly the best inequivalent ones. -/
theorem C35_best_classes (hA : IsMatGroup GA) (hM : IsMatGroup GM)
    (hd : ∀ L X, Equivalent GA GM L X → dist X = dist L) (hn : 1 ≤ nsol)
    (c : Matrix (Fin N) (Fin N) ℤ) (hc : c.det ≠ 0) (cs : List (Matrix (Fin N) (Fin N) ℤ)) :
    ∃ sols ext, addSols (eqlatcor GA GM) (fun L => L.det ≠ 0) nsol dist (c :: cs) ([], ∅)
        = .ok (sols, ext) ∧
      BestClasses GA GM dist nsol (c :: cs) (sols.map (fun s => (s.l, s.d))) := by
  obtain ⟨sols, ext, h1, h2, -⟩ := addSols_spec (eqlatcor_isSymmetry hA hM hd) hn (c :: cs) [] [] ∅
    Inv.nil ExtInv.nil (Or.inr (by rintro x hx; simp at hx; subst hx; exact hc))
  exact ⟨sols, ext, h1, bestClasses_of_inv hA hM hd (fun _ _ => Iff.rfl) (by simpa using h2)⟩

/-- C35, the excluded case: a singular first candidate makes `add_sol` raise `IndexError`
(`sols[-1]` of an empty list). -/
theorem C35_singular_first (c : Matrix (Fin N) (Fin N) ℤ) (hc : c.det = 0)
    (cs : List (Matrix (Fin N) (Fin N) ℤ)) :
    addSols (eqlatcor GA GM) (fun L => L.det ≠ 0) nsol dist (c :: cs) ([], ∅)
      = .error .indexError := by
  simp [addSols, addSol, hc, pyGet?]

/-! ## C36 -/

/-- C36: the order of the candidates influences neither the distances nor the classes. -/
theorem C36_order_independent (hA : IsMatGroup GA) (hM : IsMatGroup GM)
    (hd : ∀ L X, Equivalent GA GM L X → dist X = dist L) (hn : 1 ≤ nsol)
    (c c' : Matrix (Fin N) (Fin N) ℤ) (hc : c.det ≠ 0) (hc' : c'.det ≠ 0)
    (cs cs' : List (Matrix (Fin N) (Fin N) ℤ)) (hp : (c :: cs).Perm (c' :: cs')) :
    ∃ sols ext sols' ext',
      addSols (eqlatcor GA GM) (fun L => L.det ≠ 0) nsol dist (c :: cs) ([], ∅) = .ok (sols, ext) ∧
      addSols (eqlatcor GA GM) (fun L => L.det ≠ 0) nsol dist (c' :: cs') ([], ∅) = .ok (sols', ext') ∧
      sols.map Sol.d = sols'.map Sol.d ∧
      (∀ s ∈ sols, ∃ t ∈ sols', Equivalent GA GM s.l t.l ∧ s.d = t.d) ∧
      (∀ t ∈ sols', ∃ s ∈ sols, Equivalent GA GM t.l s.l ∧ t.d = s.d) := by
  obtain ⟨sols, ext, h1, h2, -⟩ := addSols_spec (eqlatcor_isSymmetry hA hM hd) hn (c :: cs) [] [] ∅
    Inv.nil ExtInv.nil (Or.inr (by rintro x hx; simp at hx; subst hx; exact hc))
  obtain ⟨sols', ext', h1', h2', -⟩ := addSols_spec (eqlatcor_isSymmetry hA hM hd) hn (c' :: cs')
    [] [] ∅ Inv.nil ExtInv.nil (Or.inr (by rintro x hx; simp at hx; subst hx; exact hc'))
  rw [List.nil_append] at h2 h2'
  obtain ⟨e1, e2⟩ := bestClasses_unique (fun x => hp.mem_iff) h2 h2'
  exact ⟨sols, ext, sols', ext', h1, h1', e1, exists_equiv_of_classes hA hM e2,
    exists_equiv_of_classes hA hM e2.symm⟩

/-- C36 / C37: once the initialisation has filled the list, cutting the remaining candidates into
slices in any way and processing each with `update_sol` (which stops early inside every slice) gives
the right answer for all candidates. -/
theorem C36_batches (hA : IsMatGroup GA) (hM : IsMatGroup GM)
    (hd : ∀ L X, Equivalent GA GM L X → dist X = dist L) (hn : 1 ≤ nsol)
    (c : Matrix (Fin N) (Fin N) ℤ) (hc : c.det ≠ 0) (init : List (Matrix (Fin N) (Fin N) ℤ))
    (sols : List (Sol (Matrix (Fin N) (Fin N) ℤ) D)) (ext : Finset (Matrix (Fin N) (Fin N) ℤ))
    (h0 : addSols (eqlatcor GA GM) (fun L => L.det ≠ 0) nsol dist (c :: init) ([], ∅)
      = .ok (sols, ext)) (hfull : nsol ≤ sols.length)
    (batches : List (List (Matrix (Fin N) (Fin N) ℤ))) :
    ∃ last sols' ext' last', sols.getLast? = some last ∧
      updateSols (eqlatcor GA GM) (fun L => L.det ≠ 0) nsol dist batches (sols, ext, last.d)
        = .ok (sols', ext', last'.d) ∧ sols'.getLast? = some last' ∧
      BestClasses GA GM dist nsol (c :: init ++ batches.flatten) (sols'.map (fun s => (s.l, s.d))) := by
  obtain ⟨sols0, ext0, h1, h2, h3, -⟩ := addSols_spec (eqlatcor_isSymmetry hA hM hd) hn (c :: init)
    [] [] ∅ Inv.nil ExtInv.nil (Or.inr (by rintro x hx; simp at hx; subst hx; exact hc))
  rw [h0] at h1
  cases h1
  have hne : sols ≠ [] := by rintro rfl; simp at hfull; omega
  obtain ⟨s', e', l', g1, g2, -, -, g3, -⟩ := updateSols_spec (eqlatcor_isSymmetry hA hM hd) hn batches
    _ sols ext _ h2 h3 hfull (List.getLast?_eq_some_getLast hne)
  exact ⟨_, s', e', l', List.getLast?_eq_some_getLast hne, g1, g3,
    bestClasses_of_inv hA hM hd (fun _ _ => Iff.rfl) (by simpa using g2)⟩

/-! ## C37 -/

/-- C37: in every state the direct search can be in (list filled by the initialisation, then any
slices processed), `update_sol` on the next slice gives the right answer for all candidates so far, the
threshold does not increase, stays the largest kept distance, and `updated` says whether it
decreased. -/
theorem C37_update_sol (hA : IsMatGroup GA) (hM : IsMatGroup GM)
    (hd : ∀ L X, Equivalent GA GM L X → dist X = dist L) (hn : 1 ≤ nsol)
    (c : Matrix (Fin N) (Fin N) ℤ) (hc : c.det ≠ 0) (init : List (Matrix (Fin N) (Fin N) ℤ))
    (sols : List (Sol (Matrix (Fin N) (Fin N) ℤ) D)) (ext : Finset (Matrix (Fin N) (Fin N) ℤ))
    (h0 : addSols (eqlatcor GA GM) (fun L => L.det ≠ 0) nsol dist (c :: init) ([], ∅)
      = .ok (sols, ext)) (hfull : nsol ≤ sols.length)
    (last : Sol (Matrix (Fin N) (Fin N) ℤ) D) (hlast : sols.getLast? = some last)
    (batches : List (List (Matrix (Fin N) (Fin N) ℤ)))
    (sols1 : List (Sol (Matrix (Fin N) (Fin N) ℤ) D)) (ext1 : Finset (Matrix (Fin N) (Fin N) ℤ))
    (dmax1 : D)
    (h1 : updateSols (eqlatcor GA GM) (fun L => L.det ≠ 0) nsol dist batches (sols, ext, last.d)
      = .ok (sols1, ext1, dmax1))
    (slice : List (Matrix (Fin N) (Fin N) ℤ)) :
    ∃ updated sols2 ext2 dmax2,
      updateSol (eqlatcor GA GM) (fun L => L.det ≠ 0) nsol dist slice sols1 ext1 dmax1
        = .ok (updated, sols2, ext2, dmax2) ∧
      BestClasses GA GM dist nsol (c :: init ++ batches.flatten ++ slice)
        (sols2.map (fun s => (s.l, s.d))) ∧
      nsol ≤ sols2.length ∧
      dmax2 ≤ dmax1 ∧ (updated = true ↔ dmax2 < dmax1) ∧
      (∃ s ∈ sols2, s.d = dmax2) ∧ ∀ s ∈ sols2, s.d ≤ dmax2 := by
  obtain ⟨sols0, ext0, e1, e2, e3, -⟩ := addSols_spec (eqlatcor_isSymmetry hA hM hd) hn (c :: init)
    [] [] ∅ Inv.nil ExtInv.nil (Or.inr (by rintro x hx; simp at hx; subst hx; exact hc))
  rw [h0] at e1
  cases e1
  obtain ⟨s', e', l', g1, g2, g3, g4, g5, -⟩ := updateSols_spec (eqlatcor_isSymmetry hA hM hd) hn
    batches _ sols ext _ e2 e3 hfull hlast
  rw [h1] at g1
  cases g1
  obtain ⟨s2, e2', l2, k1, k2, -, k3, k4, k5⟩ := updateSol_spec (eqlatcor_isSymmetry hA hM hd) hn
    slice g2 g3 g4 g5
  refine ⟨_, s2, e2', l2.d, k1, bestClasses_of_inv hA hM hd (fun _ _ => Iff.rfl) (by simpa using k2),
    k3, k5, by simp, ⟨l2, List.mem_of_getLast? k4, rfl⟩, le_last_of_sorted k2.sorted k4⟩

/-! ## C40 -/

/-- C40, proved part: if the results of the first merged sublattice are at least `nsol` inequivalent
ones, merging all (sorted) results leaves exactly the best inequivalent ones.  Missing: result
lists shorter than `nsol` (`C40_underfull_fails`).  The elements are the products `h l`. -/
theorem C40_merge_partial (hA : IsMatGroup GA) (hM : IsMatGroup GM)
    (hd : ∀ L X, Equivalent GA GM L X → dist X = dist L) (hn : 1 ≤ nsol)
    (r : List (Sol (Matrix (Fin N) (Fin N) ℤ) D)) (rs : List (List (Sol (Matrix (Fin N) (Fin N) ℤ) D)))
    (hdist : ∀ q ∈ r :: rs, ∀ s ∈ q, s.d = dist s.l)
    (hdet : ∀ q ∈ r :: rs, ∀ s ∈ q, s.l.det ≠ 0)
    (hsort : ∀ q ∈ r :: rs, q.Pairwise (fun a b => a.d ≤ b.d))
    (hineq : r.Pairwise (fun s t => ¬ Equivalent GA GM s.l t.l)) (hlen : nsol ≤ r.length) :
    BestClasses GA GM dist nsol ((r :: rs).flatten.map Sol.l)
      (((r :: rs).foldl (hnfMerge (eqlatcor GA GM) nsol) ([], ∅)).1.map (fun s => (s.l, s.d))) := by
  refine bestClasses_of_inv hA hM hd ?_ (hnfMerge_best hA hM hd hn r rs hdist hsort hineq hlen)
  intro x hx
  obtain ⟨s, hs, rfl⟩ := List.mem_map.mp hx
  obtain ⟨q, hq, hs⟩ := List.mem_flatten.mp hs
  simp [hdet q hq s hs]

/-! ## C41 -/

/-- C41: for every pool size, task list and schedule, at every poll the number of running tasks is
bounded by the pool size and nothing is lost or duplicated. -/
theorem C41_invariant {τ : Type} (poolsize : ℕ) (ready : τ → ℕ → Bool) (tasks : List τ) (k : ℕ) :
    (pollRun poolsize ready tasks k).queue.length ≤ poolsize ∧
    ((pollRun poolsize ready tasks k).merged ++ (pollRun poolsize ready tasks k).queue ++
      (pollRun poolsize ready tasks k).rest).Perm tasks :=
  ⟨(pollRun_inv ready tasks k).bound, (pollRun_inv ready tasks k).perm⟩

/-- C41: for every pool size `≥ 1` and every schedule in which each task eventually becomes ready, the
loop ends, and whenever it has ended every task has been merged exactly once. -/
theorem C41_all_merged_once {τ : Type} (poolsize : ℕ) (hp : 1 ≤ poolsize) (ready : τ → ℕ → Bool)
    (tasks : List τ) (hr : ∀ t ∈ tasks, ∃ T, ∀ k, T ≤ k → ready t k = true) :
    (∃ K, (pollRun poolsize ready tasks K).queue = []) ∧
    ∀ k, (pollRun poolsize ready tasks k).queue = [] →
      (pollRun poolsize ready tasks k).merged.Perm tasks := by
  obtain ⟨K, hK⟩ := pollRun_terminates (poolsize := poolsize) ready tasks hr
  exact ⟨⟨K, hK K le_rfl⟩, fun k => pollRun_done hp ready tasks k⟩

/-- C41, proved part: whatever the schedule, the kept classes and distances are the same, provided
that every sublattice returns at least `nsol` inequivalent solutions.  Missing: shorter result lists
(`C41_schedule_fails`). -/
theorem C41_schedule_independent_partial {τ : Type} (hA : IsMatGroup GA) (hM : IsMatGroup GM)
    (hd : ∀ L X, Equivalent GA GM L X → dist X = dist L) (hn : 1 ≤ nsol)
    (tasks : List τ) (res : τ → List (Sol (Matrix (Fin N) (Fin N) ℤ) D))
    (hdist : ∀ t ∈ tasks, ∀ s ∈ res t, s.d = dist s.l)
    (hsort : ∀ t ∈ tasks, (res t).Pairwise (fun a b => a.d ≤ b.d))
    (hineq : ∀ t ∈ tasks, (res t).Pairwise (fun s t => ¬ Equivalent GA GM s.l t.l))
    (hlen : ∀ t ∈ tasks, nsol ≤ (res t).length)
    (p p' : ℕ) (hp : 1 ≤ p) (hp' : 1 ≤ p') (ready ready' : τ → ℕ → Bool) (k k' : ℕ)
    (hk : (pollRun p ready tasks k).queue = []) (hk' : (pollRun p' ready' tasks k').queue = []) :
    let final := (((pollRun p ready tasks k).merged.map res).foldl
      (hnfMerge (eqlatcor GA GM) nsol) ([], ∅)).1
    let final' := (((pollRun p' ready' tasks k').merged.map res).foldl
      (hnfMerge (eqlatcor GA GM) nsol) ([], ∅)).1
    final.map Sol.d = final'.map Sol.d ∧
      (∀ s ∈ final, ∃ t ∈ final', Equivalent GA GM s.l t.l ∧ s.d = t.d) ∧
      (∀ s ∈ final', ∃ t ∈ final, Equivalent GA GM s.l t.l ∧ s.d = t.d) := by
  have h1 := pollRun_done hp ready tasks k hk
  have h2 := pollRun_done hp' ready' tasks k' hk'
  have key : ∀ m : List τ, m.Perm tasks → InvT (eqlatcor GA GM) dist nsol
      ((m.map res).flatten.map Sol.l)
      ((m.map res).foldl (hnfMerge (eqlatcor GA GM) nsol) ([], ∅)).1 := by
    intro m hm
    cases m with
    | nil => exact Inv.nil
    | cons t m =>
      have ht : ∀ u ∈ t :: m, u ∈ tasks := fun u hu => hm.mem_iff.mp hu
      rw [List.map_cons]
      refine hnfMerge_best hA hM hd hn _ _ ?_ ?_ (hineq t (ht t (by simp))) (hlen t (ht t (by simp)))
      · intro q hq
        rw [← List.map_cons (f := res), List.mem_map] at hq
        obtain ⟨u, hu, rfl⟩ := hq
        exact hdist u (ht u hu)
      · intro q hq
        rw [← List.map_cons (f := res), List.mem_map] at hq
        obtain ⟨u, hu, rfl⟩ := hq
        exact hsort u (ht u hu)
  have hmem : ∀ x, x ∈ (((pollRun p ready tasks k).merged.map res).flatten.map Sol.l) ↔
      x ∈ (((pollRun p' ready' tasks k').merged.map res).flatten.map Sol.l) := by
    intro x
    have := (((h1.trans h2.symm).map res).flatten.map Sol.l).mem_iff (a := x)
    exact this
  obtain ⟨e1, e2⟩ := bestClasses_unique hmem (key _ h1) (key _ h2)
  exact ⟨e1, exists_equiv_of_classes hA hM e2, exists_equiv_of_classes hA hM e2.symm⟩

/-! ## C46 -/

/-- C46: after visiting any sequence of (non-singular) nodes, the two parallel lists `lopt`, `dopt`
of `lat_opt` hold exactly the best inequivalent visited nodes.  `GA`, `GM` are the groups `SOLG1`,
`SOLG2`. -/
theorem C46_best_visited (hA : IsMatGroup GA) (hM : IsMatGroup GM)
    (hd : ∀ L X, Equivalent GA GM L X → dist X = dist L) (hn : 1 ≤ nsol)
    (visited : List (Matrix (Fin N) (Fin N) ℤ)) (hdet : ∀ L ∈ visited, L.det ≠ 0) :
    let st := visited.foldl (fun st L => (updateSolutions (eqlatcor GA GM) nsol dist st L).2)
      ⟨[], [], ∅⟩
    st.lopt.length = st.dopt.length ∧
      BestClasses GA GM dist nsol visited (st.lopt.zip st.dopt) := by
  intro st
  obtain ⟨sols, ext, h1, h2, -⟩ := updateSolutions_fold (eqlatcor_isSym hA hM hd) hn visited [] [] ∅
    Inv.nil ⟨by simp, by simp⟩
  have e : st = toOpt sols ext := h1
  rw [e]
  refine ⟨by simp [toOpt], ?_⟩
  have := bestClasses_of_inv hA hM hd (adm := fun _ => True) (cs := visited)
    (fun c hc => by simp [hdet c hc]) (by simpa using h2)
  have e2 : (toOpt sols ext).lopt.zip (toOpt sols ext).dopt = pairs sols := by
    unfold toOpt pairs
    simp only
    rw [List.zip_map']
  rw [e2]
  exact this

/-- C46: hence the result does not depend on the visiting order. -/
theorem C46_order_independent (hA : IsMatGroup GA) (hM : IsMatGroup GM)
    (hd : ∀ L X, Equivalent GA GM L X → dist X = dist L) (hn : 1 ≤ nsol)
    (visited visited' : List (Matrix (Fin N) (Fin N) ℤ)) (hp : visited.Perm visited') :
    (visited.foldl (fun st L => (updateSolutions (eqlatcor GA GM) nsol dist st L).2)
      ⟨[], [], ∅⟩).dopt =
    (visited'.foldl (fun st L => (updateSolutions (eqlatcor GA GM) nsol dist st L).2)
      ⟨[], [], ∅⟩).dopt := by
  obtain ⟨sols, ext, h1, h2, -⟩ := updateSolutions_fold (eqlatcor_isSym hA hM hd) hn visited [] [] ∅
    Inv.nil ⟨by simp, by simp⟩
  obtain ⟨sols', ext', h1', h2', -⟩ := updateSolutions_fold (eqlatcor_isSym hA hM hd) hn visited' [] []
    ∅ Inv.nil ⟨by simp, by simp⟩
  have e := bestClasses_unique (fun x => hp.mem_iff) (by simpa using h2) (by simpa using h2')
  have a1 : (visited.foldl (fun st L => (updateSolutions (eqlatcor GA GM) nsol dist st L).2)
      ⟨[], [], ∅⟩) = toOpt sols ext := h1
  have a2 : (visited'.foldl (fun st L => (updateSolutions (eqlatcor GA GM) nsol dist st L).2)
      ⟨[], [], ∅⟩) = toOpt sols' ext' := h1'
  rw [a1, a2]
  exact e.1

end

/-! ## Concrete cases: hypotheses are met, and the failures of C40 and C41 -/

/-- the group `{1, -1}` -/
def pm1 : List (Matrix (Fin 2) (Fin 2) ℤ) := [!![1, 0; 0, 1], !![-1, 0; 0, -1]]

/-- a class function: the sum of the squared entries -/
def sq (L : Matrix (Fin 2) (Fin 2) ℤ) : ℤ := L 0 0 ^ 2 + L 0 1 ^ 2 + L 1 0 ^ 2 + L 1 1 ^ 2

theorem pm1_group : IsMatGroup pm1 := by
  refine ⟨?_, ?_, ?_⟩ <;> unfold pm1 <;> decide +kernel

theorem sq_class : ∀ L X, Equivalent pm1 pm1 L X → sq X = sq L := by
  rintro L X ⟨M1, h1, M2, h2, rfl⟩
  unfold pm1 at h1 h2
  simp only [List.mem_cons, List.not_mem_nil, or_false] at h1 h2
  rcases h1 with rfl | rfl <;> rcases h2 with rfl | rfl <;>
    simp [sq, Matrix.mul_apply, Matrix.vecMul, dotProduct, Fin.sum_univ_two]

example : (1 : Matrix (Fin 2) (Fin 2) ℤ).det ≠ 0 := by simp

/-- three classes offered (one twice, plus a singular one), two requested -/
example : (addSols (eqlatcor pm1 pm1) (fun L => L.det ≠ 0) 2 sq
    [!![2, 1; 1, 1], !![1, 0; 0, 0], !![1, 1; 0, 1], !![-1, -1; 0, -1], !![1, 0; 0, 1]] ([], ∅)).toOption.map
      (fun s => s.1) = some [⟨!![1, 0; 0, 1], 2⟩, ⟨!![1, 1; 0, 1], 3⟩] := by decide +kernel

/-- a run of `update_sol` from a full list -/
example : (updateSol (eqlatcor pm1 pm1) (fun L => L.det ≠ 0) 1 sq
    [!![1, 1; 0, 1], !![-1, 0; 0, -1], !![5, 0; 0, 1]] [⟨!![2, 1; 1, 1], 7⟩]
    (eqlatcor pm1 pm1 !![2, 1; 1, 1]) 7).toOption.map (fun s => (s.1, s.2.1, s.2.2.2))
      = some (true, [⟨!![-1, 0; 0, -1], 2⟩], 2) := by decide +kernel

/-- C40 fails for result lists shorter than `nsol`: two sublattices give one solution each, two
solutions are requested, and the second, worse one is dropped although the list is not full. -/
theorem C40_underfull_fails :
    ∃ (r1 r2 : List (Sol (Matrix (Fin 2) (Fin 2) ℤ) ℤ)),
      (∀ q ∈ [r1, r2], (∀ s ∈ q, s.d = sq s.l ∧ s.l.det ≠ 0) ∧
        q.Pairwise (fun a b => a.d ≤ b.d) ∧ q.Pairwise (fun s t => ¬ Equivalent pm1 pm1 s.l t.l)) ∧
      ¬ BestClasses pm1 pm1 sq 2 ([r1, r2].flatten.map Sol.l)
        (([r1, r2].foldl (hnfMerge (eqlatcor pm1 pm1) 2) ([], ∅)).1.map (fun s => (s.l, s.d))) := by
  refine ⟨[⟨!![1, 0; 0, 2], 5⟩], [⟨!![2, 1; 0, 1], 6⟩], ?_, ?_⟩
  · intro q hq
    simp only [List.mem_cons, List.not_mem_nil, or_false] at hq
    rcases hq with rfl | rfl
    · refine ⟨?_, by simp, by simp⟩
      intro s hs
      simp only [List.mem_singleton] at hs
      subst hs
      simp [sq, Matrix.det_fin_two]
    · refine ⟨?_, by simp, by simp⟩
      intro s hs
      simp only [List.mem_singleton] at hs
      subst hs
      simp [sq, Matrix.det_fin_two]
  · intro h
    have e : ([[⟨!![1, 0; 0, 2], 5⟩], [⟨!![2, 1; 0, 1], 6⟩]].foldl
        (hnfMerge (eqlatcor pm1 pm1) 2) ([], ∅)).1
        = ([⟨!![1, 0; 0, 2], 5⟩] : List (Sol (Matrix (Fin 2) (Fin 2) ℤ) ℤ)) := by decide +kernel
    rw [e] at h
    have h2 := (h.complete !![2, 1; 0, 1] (by simp)).mpr ⟨by simp [Matrix.det_fin_two], ?_⟩
    · obtain ⟨s, hs, he⟩ := h2
      simp only [List.map_cons, List.map_nil, List.mem_singleton] at hs
      subst hs
      have := sq_class _ _ he
      simp [sq] at this
    · refine lt_of_le_of_lt (Set.ncard_le_ncard (t := {{L | Equivalent pm1 pm1 !![1, 0; 0, 2] L}}) ?_
        (Set.finite_singleton _)) ?_
      · rintro K ⟨c, hc, -, hlt, rfl⟩
        simp only [List.flatten_cons, List.flatten_nil, List.append_nil, List.singleton_append,
          List.map_cons, List.map_nil, List.mem_cons, List.not_mem_nil, or_false] at hc
        rcases hc with rfl | rfl
        · rfl
        · exact absurd hlt (lt_irrefl _)
      · rw [Set.ncard_singleton]
        decide

/-- C41 fails for result lists shorter than `nsol`: two tasks, pool size 2, two schedules, different
results. -/
theorem C41_schedule_fails :
    ∃ (res : Bool → List (Sol (Matrix (Fin 2) (Fin 2) ℤ) ℤ)) (ready ready' : Bool → ℕ → Bool) (k : ℕ),
      (∀ t, (∀ s ∈ res t, s.d = sq s.l) ∧ (res t).Pairwise (fun a b => a.d ≤ b.d)) ∧
      (pollRun 2 ready [false, true] k).queue = [] ∧ (pollRun 2 ready' [false, true] k).queue = [] ∧
      (((pollRun 2 ready [false, true] k).merged.map res).foldl
        (hnfMerge (eqlatcor pm1 pm1) 2) ([], ∅)).1.map Sol.d ≠
      (((pollRun 2 ready' [false, true] k).merged.map res).foldl
        (hnfMerge (eqlatcor pm1 pm1) 2) ([], ∅)).1.map Sol.d := by
  refine ⟨fun t => bif t then [⟨!![2, 1; 0, 1], 6⟩] else [⟨!![1, 0; 0, 2], 5⟩],
    fun _ _ => true, fun t k => t || decide (1 ≤ k), 4, ?_, ?_⟩
  · intro t
    cases t <;> simp [sq]
  · decide +kernel

/-- C41 requires a positive pool size: with `poolsize = 0` nothing is merged at all. -/
theorem C41_poolsize_zero {τ : Type} (ready : τ → ℕ → Bool) (tasks : List τ) (k : ℕ) :
    (pollRun 0 ready tasks k).merged = [] ∧ (pollRun 0 ready tasks k).queue = [] := by
  induction k with
  | zero => cases tasks <;> simp [pollRun, pollInit]
  | succ k ih =>
    rw [pollRun_succ, pollStep_nil ih.2]
    exact ih

/-- the hypotheses of `C40_merge_partial` are met by two result lists of two solutions each -/
example : ∀ q ∈ ([[⟨!![1, 0; 0, 2], 5⟩, ⟨!![1, 1; 0, 2], 6⟩], [⟨!![2, 1; 0, 1], 6⟩]] :
    List (List (Sol (Matrix (Fin 2) (Fin 2) ℤ) ℤ))),
    (∀ s ∈ q, s.d = sq s.l ∧ s.l.det ≠ 0) := by decide +kernel
example : (hnfMerge (eqlatcor pm1 pm1) 2 (hnfMerge (eqlatcor pm1 pm1) 2 ([], ∅)
    [⟨!![1, 0; 0, 2], 5⟩, ⟨!![1, 1; 0, 2], 6⟩]) [⟨!![2, 1; 0, 1], 6⟩, ⟨!![2, 3; 0, 1], 14⟩]).1.map Sol.d
    = [5, 6, 6] := by decide +kernel

/-- a schedule with two workers and three tasks -/
example : pollRun 2 (fun t k => decide (t = 1 ∨ 2 ≤ k)) [0, 1, 2] 6 = ⟨[], [], [1, 0, 2]⟩ := by decide

example : (([!![2, 1; 1, 1], !![1, 1; 0, 1], !![1, 0; 0, 1], !![-1, 0; 0, -1]]).foldl
    (fun st L => (updateSolutions (eqlatcor pm1 pm1) 2 sq st L).2) ⟨[], [], ∅⟩).dopt = [2, 3] := by
  decide +kernel

end Verif.Props
