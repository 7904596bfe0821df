import Mathlib.LinearAlgebra.Matrix.NonsingularInverse
import Mathlib.LinearAlgebra.Matrix.Determinant.Basic
import Mathlib.Data.Finset.Lattice.Fold
import Verif.Lemmas.SolMerge
import Verif.Spec.LatCor
import Verif.Model.Par

/-!
# Lemmas: symmetry classes of lattice correspondences, and the polling loop
-/

namespace Verif.Lemmas

open Matrix Verif.Model Verif.Spec

section sym
variable {N : ℕ} {GA GM : List (Matrix (Fin N) (Fin N) ℤ)}

theorem mem_eqlatcor {L X : Matrix (Fin N) (Fin N) ℤ} :
    X ∈ eqlatcor GA GM L ↔ Equivalent GA GM L X := by
  unfold eqlatcor Equivalent
  simp only [List.mem_toFinset, List.mem_flatMap, List.mem_map]
  constructor
  · rintro ⟨M1, h1, M2, h2, rfl⟩; exact ⟨M1, h1, M2, h2, rfl⟩
  · rintro ⟨M1, h1, M2, h2, rfl⟩; exact ⟨M1, h1, M2, h2, rfl⟩

theorem equivalent_refl (hA : IsMatGroup GA) (hM : IsMatGroup GM) (L : Matrix (Fin N) (Fin N) ℤ) :
    Equivalent GA GM L L := ⟨1, hA.one_mem, 1, hM.one_mem, by simp⟩

theorem equivalent_symm (hA : IsMatGroup GA) (hM : IsMatGroup GM)
    {L X : Matrix (Fin N) (Fin N) ℤ} (h : Equivalent GA GM L X) : Equivalent GA GM X L := by
  obtain ⟨M1, h1, M2, h2, rfl⟩ := h
  obtain ⟨B1, hb1, e1⟩ := hA.inv_mem M1 h1
  obtain ⟨B2, hb2, e2⟩ := hM.inv_mem M2 h2
  refine ⟨B1, hb1, B2, hb2, ?_⟩
  have e1' : B1 * M1 = 1 := mul_eq_one_comm.mp e1
  calc L = (B1 * M1) * L * (M2 * B2) := by rw [e1', e2]; simp
    _ = B1 * (M1 * L * M2) * B2 := by simp only [Matrix.mul_assoc]

theorem equivalent_trans (hA : IsMatGroup GA) (hM : IsMatGroup GM)
    {L X Y : Matrix (Fin N) (Fin N) ℤ} (h : Equivalent GA GM L X) (h' : Equivalent GA GM X Y) :
    Equivalent GA GM L Y := by
  obtain ⟨M1, h1, M2, h2, rfl⟩ := h
  obtain ⟨M3, h3, M4, h4, rfl⟩ := h'
  exact ⟨M3 * M1, hA.mul_mem _ h3 _ h1, M2 * M4, hM.mul_mem _ h2 _ h4,
    by simp only [Matrix.mul_assoc]⟩

theorem det_ne_zero_of_group (hA : IsMatGroup GA) {M : Matrix (Fin N) (Fin N) ℤ} (h : M ∈ GA) :
    M.det ≠ 0 := by
  obtain ⟨B, -, e⟩ := hA.inv_mem M h
  have := congrArg Matrix.det e
  rw [Matrix.det_mul, Matrix.det_one] at this
  intro h0
  rw [h0] at this
  simp at this

theorem equivalent_det_iff (hA : IsMatGroup GA) (hM : IsMatGroup GM)
    {L X : Matrix (Fin N) (Fin N) ℤ} (h : Equivalent GA GM L X) : X.det ≠ 0 ↔ L.det ≠ 0 := by
  obtain ⟨M1, h1, M2, h2, rfl⟩ := h
  rw [Matrix.det_mul, Matrix.det_mul]
  have := det_ne_zero_of_group hA h1
  have := det_ne_zero_of_group hM h2
  simp_all

theorem eqlatcor_eq_iff (hA : IsMatGroup GA) (hM : IsMatGroup GM)
    {L X : Matrix (Fin N) (Fin N) ℤ} :
    eqlatcor GA GM X = eqlatcor GA GM L ↔ Equivalent GA GM L X := by
  constructor
  · intro h
    rw [← mem_eqlatcor, ← h, mem_eqlatcor]
    exact equivalent_refl hA hM X
  · intro h
    ext Y
    rw [mem_eqlatcor, mem_eqlatcor]
    exact ⟨fun h' => equivalent_trans hA hM h h',
      fun h' => equivalent_trans hA hM (equivalent_symm hA hM h) h'⟩

variable {D : Type} [LinearOrder D] {dist : Matrix (Fin N) (Fin N) ℤ → D}

omit [LinearOrder D] in
theorem eqlatcor_isSymmetry (hA : IsMatGroup GA) (hM : IsMatGroup GM)
    (hd : ∀ L X, Equivalent GA GM L X → dist X = dist L) :
    IsSymmetry (eqlatcor GA GM) dist (fun L => L.det ≠ 0) where
  self_mem c := mem_eqlatcor.mpr (equivalent_refl hA hM c)
  eq_of_mem h := (eqlatcor_eq_iff hA hM).mpr (mem_eqlatcor.mp h)
  dist_eq h := hd _ _ (mem_eqlatcor.mp h)
  adm_iff h := equivalent_det_iff hA hM (mem_eqlatcor.mp h)

omit [LinearOrder D] in
theorem eqlatcor_isSym (hA : IsMatGroup GA) (hM : IsMatGroup GM)
    (hd : ∀ L X, Equivalent GA GM L X → dist X = dist L) : IsSym (eqlatcor GA GM) dist where
  self_mem c := mem_eqlatcor.mpr (equivalent_refl hA hM c)
  eq_of_mem h := (eqlatcor_eq_iff hA hM).mpr (mem_eqlatcor.mp h)
  dist_eq h := hd _ _ (mem_eqlatcor.mp h)
  adm_iff _ := Iff.rfl

/-- a solution list as pairs -/
def pairs (sols : List (Sol (Matrix (Fin N) (Fin N) ℤ) D)) : List (Matrix (Fin N) (Fin N) ℤ × D) :=
  sols.map (fun s => (s.l, s.d))

theorem betterClasses_ncard (hA : IsMatGroup GA) (hM : IsMatGroup GM)
    (hd : ∀ L X, Equivalent GA GM L X → dist X = dist L)
    {adm : Matrix (Fin N) (Fin N) ℤ → Prop} [DecidablePred adm]
    {cs : List (Matrix (Fin N) (Fin N) ℤ)} (hadm : ∀ c ∈ cs, adm c ↔ c.det ≠ 0) (d : D) :
    (betterClasses GA GM dist cs d).ncard =
      ((seenClasses (eqlatcor GA GM) dist adm cs).filter (fun y => y.2 < d)).card := by
  have e : betterClasses GA GM dist cs d =
      (fun y : Finset (Matrix (Fin N) (Fin N) ℤ) × D => (↑y.1 : Set _)) ''
        ↑((seenClasses (eqlatcor GA GM) dist adm cs).filter (fun y => y.2 < d)) := by
    ext K
    simp only [betterClasses, Set.mem_ofPred_eq, Set.mem_image, Finset.mem_coe, Finset.mem_filter,
      mem_seenClasses]
    have hK : ∀ c, (↑(eqlatcor GA GM c) : Set (Matrix (Fin N) (Fin N) ℤ))
        = {L | Equivalent GA GM c L} := by
      intro c; ext X; simp [mem_eqlatcor]
    constructor
    · rintro ⟨c, hc, h0, hlt, rfl⟩
      exact ⟨_, ⟨⟨c, hc, (hadm c hc).mpr h0, rfl⟩, hlt⟩, hK c⟩
    · rintro ⟨y, ⟨⟨c, hc, h0, rfl⟩, hlt⟩, rfl⟩
      exact ⟨c, hc, (hadm c hc).mp h0, hlt, hK c⟩
  rw [e, Set.InjOn.ncard_image, Set.ncard_coe_finset]
  intro x hx y hy hxy
  simp only [Finset.mem_coe, Finset.mem_filter, mem_seenClasses] at hx hy
  obtain ⟨⟨c, -, -, rfl⟩, -⟩ := hx
  obtain ⟨⟨c', -, -, rfl⟩, -⟩ := hy
  have h1 : eqlatcor GA GM c = eqlatcor GA GM c' := by
    simpa using hxy
  have h2 := hd _ _ ((eqlatcor_eq_iff hA hM).mp h1)
  rw [Prod.mk.injEq]
  exact ⟨h1, h2⟩

theorem bestClasses_of_inv (hA : IsMatGroup GA) (hM : IsMatGroup GM)
    (hd : ∀ L X, Equivalent GA GM L X → dist X = dist L)
    {adm : Matrix (Fin N) (Fin N) ℤ → Prop} [DecidablePred adm] {nsol : ℕ}
    {cs : List (Matrix (Fin N) (Fin N) ℤ)} (hadm : ∀ c ∈ cs, adm c ↔ c.det ≠ 0)
    {sols : List (Sol (Matrix (Fin N) (Fin N) ℤ) D)}
    (h : Inv (eqlatcor GA GM) dist adm nsol cs sols) :
    BestClasses GA GM dist nsol cs (pairs sols) := by
  refine ⟨?_, ?_, ?_, ?_, ?_⟩
  · unfold pairs
    rw [List.pairwise_map]
    exact h.sorted
  · intro s hs
    obtain ⟨t, ht, rfl⟩ := List.mem_map.mp hs
    exact (h.sound t ht).2.2
  · unfold pairs
    rw [List.pairwise_map]
    have h1 : sols.Pairwise (fun a b => clsOf (eqlatcor GA GM) a ≠ clsOf (eqlatcor GA GM) b) := by
      have := h.nodup
      rwa [List.Nodup, List.pairwise_map] at this
    refine List.Pairwise.imp_of_mem ?_ h1
    intro a b ha hb hab he
    apply hab
    unfold clsOf
    rw [(eqlatcor_eq_iff hA hM).mpr he, (h.sound a ha).2.2, (h.sound b hb).2.2, hd _ _ he]
  · intro s hs
    obtain ⟨t, ht, rfl⟩ := List.mem_map.mp hs
    exact (h.sound t ht).1
  · intro L hL
    rw [betterClasses_ncard hA hM hd hadm]
    have key : (eqlatcor GA GM L, dist L) ∈ (sols.map (clsOf (eqlatcor GA GM))).toFinset ↔
        ∃ s ∈ pairs sols, Equivalent GA GM s.1 L := by
      rw [List.mem_toFinset, List.mem_map]
      constructor
      · rintro ⟨s, hs, e⟩
        refine ⟨(s.l, s.d), List.mem_map_of_mem hs, ?_⟩
        apply (eqlatcor_eq_iff hA hM).mp
        exact (congrArg Prod.fst e).symm
      · rintro ⟨s, hs, e⟩
        obtain ⟨t, ht, rfl⟩ := List.mem_map.mp hs
        refine ⟨t, ht, ?_⟩
        unfold clsOf
        rw [(eqlatcor_eq_iff hA hM).mpr e, (h.sound t ht).2.2, hd _ _ e]
    rw [← key, h.classes, mem_topN, ← hadm L hL]
    refine and_congr_left (fun _ => ?_)
    rw [mem_seenClasses]
    constructor
    · rintro ⟨c, hc, ha, e⟩
      have he := (eqlatcor_eq_iff hA hM).mp (congrArg Prod.fst e)
      rw [hadm L hL, ← equivalent_det_iff hA hM he, ← hadm c hc]
      exact ha
    · intro ha
      exact ⟨L, hL, ha, rfl⟩

/-- Two right answers for the same set of candidates have the same classes and distances. -/
theorem bestClasses_unique {nsol : ℕ}
    {adm : Matrix (Fin N) (Fin N) ℤ → Prop} [DecidablePred adm]
    {cs cs' : List (Matrix (Fin N) (Fin N) ℤ)} (hcs : ∀ x, x ∈ cs ↔ x ∈ cs')
    {sols sols' : List (Sol (Matrix (Fin N) (Fin N) ℤ) D)}
    (h : Inv (eqlatcor GA GM) dist adm nsol cs sols)
    (h' : Inv (eqlatcor GA GM) dist adm nsol cs' sols') :
    sols.map Sol.d = sols'.map Sol.d ∧
      (sols.map (clsOf (eqlatcor GA GM))).toFinset = (sols'.map (clsOf (eqlatcor GA GM))).toFinset := by
  have e : (sols.map (clsOf (eqlatcor GA GM))).toFinset
      = (sols'.map (clsOf (eqlatcor GA GM))).toFinset := by
    rw [(h.congr hcs).classes, h'.classes]
  exact ⟨sorted_keys_unique Sol.d sols sols' h.sorted h'.sorted (clsOf _) (fun _ => rfl)
    h.nodup h'.nodup e, e⟩

theorem exists_equiv_of_classes (hA : IsMatGroup GA) (hM : IsMatGroup GM)
    {sols sols' : List (Sol (Matrix (Fin N) (Fin N) ℤ) D)}
    (e : (sols.map (clsOf (eqlatcor GA GM))).toFinset
      = (sols'.map (clsOf (eqlatcor GA GM))).toFinset) :
    ∀ s ∈ sols, ∃ t ∈ sols', Equivalent GA GM s.l t.l ∧ s.d = t.d := by
  intro s hs
  have : clsOf (eqlatcor GA GM) s ∈ (sols.map (clsOf (eqlatcor GA GM))).toFinset := by
    rw [List.mem_toFinset]; exact List.mem_map_of_mem hs
  rw [e, List.mem_toFinset, List.mem_map] at this
  obtain ⟨t, ht, he⟩ := this
  refine ⟨t, ht, (eqlatcor_eq_iff hA hM).mp (congrArg Prod.fst he), (congrArg Prod.snd he).symm⟩

theorem hnfMerge_first_full (hA : IsMatGroup GA) (hM : IsMatGroup GM)
    (hd : ∀ L X, Equivalent GA GM L X → dist X = dist L) {nsol : ℕ} (hn : 1 ≤ nsol)
    (r : List (Sol (Matrix (Fin N) (Fin N) ℤ) D)) (hdist : ∀ s ∈ r, s.d = dist s.l)
    (hineq : r.Pairwise (fun s t => ¬ Equivalent GA GM s.l t.l)) (hlen : nsol ≤ r.length) :
    nsol ≤ (hnfMerge (eqlatcor GA GM) nsol ([], ∅) r).1.length := by
  obtain ⟨h1, h2⟩ := hnfMerge_empty (eqlatcor_isSym hA hM hd) hn r hdist
  have e : seenClasses (eqlatcor GA GM) dist (fun _ => True) (r.map Sol.l)
      = (r.map (fun s => (eqlatcor GA GM s.l, dist s.l))).toFinset := by
    ext x
    simp [mem_seenClasses]
  have hnd : (r.map (fun s => (eqlatcor GA GM s.l, dist s.l))).Nodup := by
    rw [List.Nodup, List.pairwise_map]
    refine hineq.imp ?_
    intro a b hab he
    exact hab ((eqlatcor_eq_iff hA hM).mp (congrArg Prod.fst he).symm)
  have hcard : nsol ≤ (seenClasses (eqlatcor GA GM) dist (fun _ => True) (r.map Sol.l)).card := by
    rw [e, List.toFinset_card_of_nodup hnd, List.length_map]
    exact hlen
  have h3 := topN_card hcard
  rw [← h1.classes, List.toFinset_card_of_nodup h1.nodup, List.length_map] at h3
  exact h3

theorem hnfMerge_best (hA : IsMatGroup GA) (hM : IsMatGroup GM)
    (hd : ∀ L X, Equivalent GA GM L X → dist X = dist L) {nsol : ℕ} (hn : 1 ≤ nsol)
    (r : List (Sol (Matrix (Fin N) (Fin N) ℤ) D)) (rs : List (List (Sol (Matrix (Fin N) (Fin N) ℤ) D)))
    (hdist : ∀ q ∈ r :: rs, ∀ s ∈ q, s.d = dist s.l)
    (hsort : ∀ q ∈ r :: rs, q.Pairwise (fun a b => a.d ≤ b.d))
    (hineq : r.Pairwise (fun s t => ¬ Equivalent GA GM s.l t.l)) (hlen : nsol ≤ r.length) :
    InvT (eqlatcor GA GM) dist nsol ((r :: rs).flatten.map Sol.l)
      ((r :: rs).foldl (hnfMerge (eqlatcor GA GM) nsol) ([], ∅)).1 := by
  obtain ⟨h1, h2⟩ := hnfMerge_empty (eqlatcor_isSym hA hM hd) hn r (hdist r (by simp))
  have h3 := hnfMerge_fold_full (eqlatcor_isSym hA hM hd) hn rs _ _ _ h1 h2
    (fun q hq => hdist q (by simp [hq])) (fun q hq => hsort q (by simp [hq]))
    (hnfMerge_first_full hA hM hd hn r (hdist r (by simp)) hineq hlen)
  have e : r.map Sol.l ++ rs.flatMap (fun q => q.map Sol.l) = (r :: rs).flatten.map Sol.l := by
    rw [List.flatten_cons, List.map_append, List.map_flatten, List.flatMap_def]
  rw [e] at h3
  exact h3

end sym

/-! ### batches -/

section batches
variable {α D : Type} [DecidableEq α] [LinearOrder D]
variable {eq : α → Finset α} {dist : α → D} {adm : α → Prop} [DecidablePred adm] {n : ℕ}

theorem updateSols_spec (hsym : IsSymmetry eq dist adm) (hn : 1 ≤ n) : ∀ (batches : List (List α))
    (seen : List α) (sols : List (Sol α D)) (ext : Finset α) (last : Sol α D),
    Inv eq dist adm n seen sols → ExtInv eq adm sols ext → n ≤ sols.length →
    sols.getLast? = some last →
    ∃ sols' ext' last', updateSols eq adm n dist batches (sols, ext, last.d)
        = .ok (sols', ext', last'.d) ∧
      Inv eq dist adm n (seen ++ batches.flatten) sols' ∧ ExtInv eq adm sols' ext' ∧
      n ≤ sols'.length ∧ sols'.getLast? = some last' ∧ last'.d ≤ last.d := by
  intro batches
  induction batches with
  | nil =>
    intro seen sols ext last h he hl hlast
    exact ⟨sols, ext, last, rfl, by simpa using h, he, hl, hlast, le_rfl⟩
  | cons b bs ih =>
    intro seen sols ext last h he hl hlast
    obtain ⟨s1, e1, l1, h1, h2, h3, h4, h5, h6⟩ := updateSol_spec hsym hn b h he hl hlast
    obtain ⟨s2, e2, l2, g1, g2, g3, g4, g5, g6⟩ := ih _ s1 e1 l1 h2 h3 h4 h5
    refine ⟨s2, e2, l2, ?_, by simpa using g2, g3, g4, g5, g6.trans h6⟩
    unfold updateSols
    rw [h1]
    exact g1

end batches

/-! ### the polling loop -/

section poll
variable {τ : Type}

theorem pollInit_spec (poolsize : ℕ) : ∀ (rest queue : List τ), queue.length ≤ poolsize →
    (pollInit poolsize rest queue).merged = [] ∧
    (pollInit poolsize rest queue).queue ++ (pollInit poolsize rest queue).rest = queue ++ rest ∧
    (pollInit poolsize rest queue).queue.length ≤ poolsize ∧
    ((pollInit poolsize rest queue).rest ≠ [] →
      (pollInit poolsize rest queue).queue.length = poolsize) := by
  intro rest
  induction rest with
  | nil => intro queue h; simp [pollInit, h]
  | cons t rest ih =>
    intro queue h
    unfold pollInit
    split_ifs with h1
    · obtain ⟨h2, h3, h4, h5⟩ := ih (queue ++ [t]) (by simp; omega)
      exact ⟨h2, by simpa using h3, h4, h5⟩
    · refine ⟨rfl, rfl, h, fun _ => ?_⟩
      simp only
      omega

/-- loop invariant -/
structure PollInv (poolsize : ℕ) (tasks : List τ) (st : PollState τ) : Prop where
  perm : (st.merged ++ st.queue ++ st.rest).Perm tasks
  bound : st.queue.length ≤ poolsize
  full : st.rest ≠ [] → st.queue.length = poolsize

theorem pollStep_inv {poolsize : ℕ} {tasks : List τ} (ready : τ → ℕ → Bool) (k : ℕ)
    {st : PollState τ} (h : PollInv poolsize tasks st) :
    PollInv poolsize tasks (pollStep ready k st) := by
  obtain ⟨rest, queue, merged⟩ := st
  obtain ⟨h1, h2, h3⟩ := h
  simp only at h1 h2 h3
  unfold pollStep
  cases queue with
  | nil => exact ⟨h1, h2, h3⟩
  | cons t queue =>
    simp only
    split_ifs with hr
    · cases rest with
      | nil =>
        refine ⟨?_, by simp at h2 ⊢; omega, by simp⟩
        simp only [List.append_nil] at h1 ⊢
        simpa using h1
      | cons u rest =>
        refine ⟨?_, by simp at h2 ⊢; omega, fun _ => ?_⟩
        · simp only
          refine List.Perm.trans ?_ h1
          simp
        · have := h3 (by simp)
          simpa using this
    · refine ⟨?_, by simp at h2 ⊢; omega, fun hne => ?_⟩
      · simp only
        refine List.Perm.trans ?_ h1
        apply List.Perm.append_right
        apply List.Perm.append_left
        exact List.perm_append_singleton t queue
      · have := h3 hne
        simpa using this

theorem pollRun_succ (poolsize : ℕ) (ready : τ → ℕ → Bool) (tasks : List τ) (k : ℕ) :
    pollRun poolsize ready tasks (k + 1) = pollStep ready k (pollRun poolsize ready tasks k) := rfl

theorem pollRun_inv {poolsize : ℕ} (ready : τ → ℕ → Bool) (tasks : List τ) (k : ℕ) :
    PollInv poolsize tasks (pollRun poolsize ready tasks k) := by
  induction k with
  | zero =>
    obtain ⟨h1, h2, h3, h4⟩ := pollInit_spec poolsize tasks [] (by simp)
    refine ⟨?_, h3, h4⟩
    unfold pollRun
    rw [h1, List.nil_append, h2, List.nil_append]
  | succ k ih => exact pollStep_inv ready k ih

/-- with every task ready, each poll merges one -/
theorem pollStep_ready {ready : τ → ℕ → Bool} {k : ℕ} {st : PollState τ}
    (hr : ∀ t ∈ st.queue, ready t k = true) :
    (pollStep ready k st).queue.length + (pollStep ready k st).rest.length
      ≤ st.queue.length + st.rest.length - 1 ∨ st.queue = [] := by
  obtain ⟨rest, queue, merged⟩ := st
  cases queue with
  | nil => right; rfl
  | cons t queue =>
    left
    have := hr t (by simp)
    unfold pollStep
    simp only [this, if_true]
    cases rest with
    | nil => simp
    | cons u rest => simp

theorem pollStep_nil {ready : τ → ℕ → Bool} {k : ℕ} {st : PollState τ} (h : st.queue = []) :
    pollStep ready k st = st := by
  unfold pollStep
  rw [h]

theorem pollRun_terminates {poolsize : ℕ} (ready : τ → ℕ → Bool)
    (tasks : List τ) (hr : ∀ t ∈ tasks, ∃ T, ∀ k, T ≤ k → ready t k = true) :
    ∃ K, ∀ k, K ≤ k → (pollRun poolsize ready tasks k).queue = [] := by
  have hT : ∃ T, ∀ t ∈ tasks, ∀ k, T ≤ k → ready t k = true := by
    induction tasks with
    | nil => exact ⟨0, by simp⟩
    | cons t tasks ih =>
      obtain ⟨T1, h1⟩ := hr t (by simp)
      obtain ⟨T2, h2⟩ := ih (fun u hu => hr u (by simp [hu]))
      refine ⟨max T1 T2, ?_⟩
      intro u hu k hk
      rcases List.mem_cons.mp hu with rfl | hu
      · exact h1 k (le_trans (le_max_left _ _) hk)
      · exact h2 u hu k (le_trans (le_max_right _ _) hk)
  obtain ⟨T, hT⟩ := hT
  have key : ∀ j, (pollRun poolsize ready tasks (T + j)).queue = [] ∨
      (pollRun poolsize ready tasks (T + j)).queue.length +
        (pollRun poolsize ready tasks (T + j)).rest.length + j ≤ tasks.length := by
    intro j
    have hlen : ∀ k, (pollRun poolsize ready tasks k).queue.length +
        (pollRun poolsize ready tasks k).rest.length ≤ tasks.length := by
      intro k
      have := (pollRun_inv (poolsize := poolsize) ready tasks k).perm.length_eq
      simp at this
      omega
    induction j with
    | zero => right; exact hlen T
    | succ j ih =>
      rcases ih with ih | ih
      · left
        rw [← Nat.add_assoc, pollRun_succ]
        rw [pollStep_nil ih]
        exact ih
      · by_cases hq : (pollRun poolsize ready tasks (T + j)).queue = []
        · left
          rw [← Nat.add_assoc, pollRun_succ]
          rw [pollStep_nil hq]
          exact hq
        · right
          have hmem : ∀ t ∈ (pollRun poolsize ready tasks (T + j)).queue, ready t (T + j) = true := by
            intro t ht
            apply hT t _ _ (by omega)
            apply (pollRun_inv (poolsize := poolsize) ready tasks (T + j)).perm.mem_iff.mp
            simp [ht]
          rcases pollStep_ready hmem with h | h
          · rw [← Nat.add_assoc T, pollRun_succ]
            have : 0 < (pollRun poolsize ready tasks (T + j)).queue.length :=
              List.length_pos_iff.mpr hq
            omega
          · exact absurd h hq
  refine ⟨T + (tasks.length + 1), fun k hk => ?_⟩
  obtain ⟨j, rfl⟩ : ∃ j, k = T + j := ⟨k - T, by omega⟩
  rcases key j with h | h
  · exact h
  · omega

theorem pollRun_done {poolsize : ℕ} (hp : 1 ≤ poolsize) (ready : τ → ℕ → Bool)
    (tasks : List τ) (k : ℕ) (h : (pollRun poolsize ready tasks k).queue = []) :
    (pollRun poolsize ready tasks k).merged.Perm tasks := by
  have hi := pollRun_inv (poolsize := poolsize) ready tasks k
  have hr : (pollRun poolsize ready tasks k).rest = [] := by
    by_contra hne
    have := hi.full hne
    rw [h] at this
    simp at this
    omega
  have := hi.perm
  rw [h, hr] at this
  simpa using this

end poll

end Verif.Lemmas
