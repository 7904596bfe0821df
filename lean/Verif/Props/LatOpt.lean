import Verif.Lemmas.LatOpt
import Verif.Lemmas.Finite
import Verif.Lemmas.OptLists
import Verif.Props.Search
import Verif.Props.Dist
import Verif.Props.LLL
import Verif.Props.LatticeGroups

/-!
# C43, C44, C45: descents, their cache, and the search in one sublattice
-/

namespace Verif.Props

open Verif.Model Verif.Spec Verif.Lemmas Matrix

variable {K : Type} [CommRing K] [LinearOrder K] [IsStrictOrderedRing K]

/-! ## C43 -/

/-- A cache as `lat_opt` creates it: `{'counter': 0}`. -/
def freshMem : Mem := ⟨1, some 0, fun _ => none, fun _ => 0⟩

/-- The default cache of `dfs`: `{}`. -/
def defaultMem : Mem := ⟨1, none, fun _ => none, fun _ => 0⟩

omit [IsStrictOrderedRing K] in
theorem cacheOK_fresh (dist : Z3 → K) : CacheOK dist freshMem := by
  intro k n h; simp [freshMem] at h

omit [IsStrictOrderedRing K] in
theorem cacheOK_default (dist : Z3 → K) : CacheOK dist defaultMem := by
  intro k n h; simp [defaultMem] at h

theorem localMin_iff (dist : Z3 → K) (L : Z3) : LocalMin dist L ↔ steepestDes dist L = none := by
  rw [steepestDes_none_iff]
  constructor
  · intro h k
    exact h _ (transv_isTransvection k)
  · intro h M hM
    obtain ⟨k, rfl⟩ := (isTransvection_iff M).mp hM
    exact h k

/-- C43: `steepest_des()` returns nothing exactly where `is_min()` is true, and that is exactly at local
minima; otherwise its result is a best neighbour. -/
theorem C43_steepest (dist : Z3 → K) (L : Z3) :
    (steepestDes dist L = none ↔ LocalMin dist L) ∧ (isMin dist L = true ↔ LocalMin dist L) ∧
      ∀ L', steepestDes dist L = some L' → (∃ M, IsTransvection M ∧ L' = L * M) ∧ dist L' < dist L ∧
        ∀ M, IsTransvection M → dist L' ≤ dist (L * M) := by
  refine ⟨(localMin_iff dist L).symm, ?_, ?_⟩
  · rw [localMin_iff, steepestDes_none_iff]
    simp [isMin, neighbours]
  · intro L' h
    obtain ⟨⟨k, rfl⟩, h2, h3⟩ := steepestDes_some h
    refine ⟨⟨_, transv_isTransvection k, rfl⟩, h2, fun M hM => ?_⟩
    obtain ⟨k', rfl⟩ := (isTransvection_iff M).mp hM
    exact h3 k'

/-- C43: if only finitely many matrices lie below each level of the distance, `dfs` ends from every
start (with a cache that has no entry for it, be it the default or a fresh one); the result is a local
minimum, not farther away than the start, and differs from it by a factor in `SL(3, ℤ)`. -/
theorem C43_descent (dist : Z3 → K) (hfin : ∀ c, {L | dist L < c}.Finite) (start : SLNode) (m : Mem)
    (hm : m = freshMem ∨ m = defaultMem) :
    ∃ n m' N, (∀ F, N ≤ F → dfs dist F m start = .ok (n, m')) ∧
      LocalMin dist n.elem ∧ dist n.elem ≤ dist start.elem ∧ SameOrbit start.elem n.elem := by
  have hc : CacheOK dist m := by
    rcases hm with rfl | rfl
    · exact cacheOK_fresh dist
    · exact cacheOK_default dist
  have hok : ∃ r N, ∀ F, N ≤ F → dfs dist F m start = .ok r := by
    rcases hm with rfl | rfl
    · exact dfs_ok hfin rfl start
    · obtain ⟨r, -, h⟩ := descend_ok hfin _ start le_rfl _ (Nat.lt_succ_self _) 1 [start.elem]
      exact ⟨_, {L | dist L < dist start.elem}.ncard + 1, fun F hF => by
        simp only [dfs, defaultMem, h F hF, Run.bind]; rfl⟩
  obtain ⟨⟨n, m'⟩, N, h⟩ := hok
  obtain ⟨h1, -⟩ := dfs_spec hc (h N le_rfl)
  exact ⟨n, m', N, h, (localMin_iff _ _).mpr h1.2, steps_le h1.1, steps_orbit h1.1⟩

/-- C43 for the default distance and every pair of lattices. -/
theorem C43_cauchy {E1 E2 : Matrix (Fin 3) (Fin 3) ℝ} (h1 : E1.det ≠ 0) (h2 : E2.det ≠ 0)
    (start : SLNode) :
    ∃ n m' N, (∀ F, N ≤ F → dfs (fun L => cauchyDist L E1 E2⁻¹) F freshMem start = .ok (n, m')) ∧
      LocalMin (fun L => cauchyDist L E1 E2⁻¹) n.elem ∧
      cauchyDist n.elem E1 E2⁻¹ ≤ cauchyDist start.elem E1 E2⁻¹ ∧ SameOrbit start.elem n.elem :=
  C43_descent _ (cauchy_finite h1 (det_inv_ne h2)) start _ (Or.inl rfl)
where
  /-- the inverse is non-singular -/
  det_inv_ne {E2 : Matrix (Fin 3) (Fin 3) ℝ} (h2 : E2.det ≠ 0) : (E2⁻¹).det ≠ 0 := by
    rw [Matrix.det_nonsing_inv, Ring.inverse_eq_inv']
    exact inv_ne_zero h2

/-- C43 for the Ericksen distance. -/
theorem C43_ericksen {E1 E2 : Matrix (Fin 3) (Fin 3) ℝ} (h1 : E1.det ≠ 0) (h2 : E2.det ≠ 0)
    (start : SLNode) :
    ∃ n m' N, (∀ F, N ≤ F → dfs (fun L => ericDist L E1 E2) F freshMem start = .ok (n, m')) ∧
      LocalMin (fun L => ericDist L E1 E2) n.elem ∧
      ericDist n.elem E1 E2 ≤ ericDist start.elem E1 E2 ∧ SameOrbit start.elem n.elem :=
  C43_descent _ (eric_finite h1 h2) start _ (Or.inl rfl)

/-- C43 for the strain distance. -/
theorem C43_strain {E1 E2 : Matrix (Fin 3) (Fin 3) ℝ} (h1 : E1.det ≠ 0) (h2 : E2.det ≠ 0)
    (eig : Matrix (Fin 3) (Fin 3) ℝ → Fin 3 → ℝ)
    (heig : ∀ A : Matrix (Fin 3) (Fin 3) ℝ, Aᵀ = A → IsEigenvalues A (eig A)) (start : SLNode) :
    ∃ n m' N, (∀ F, N ≤ F → dfs (fun L => strainDist eig L E1 E2⁻¹) F freshMem start = .ok (n, m')) ∧
      LocalMin (fun L => strainDist eig L E1 E2⁻¹) n.elem ∧
      strainDist eig n.elem E1 E2⁻¹ ≤ strainDist eig start.elem E1 E2⁻¹ ∧
      SameOrbit start.elem n.elem :=
  C43_descent _ (strain_finite h1 (C43_cauchy.det_inv_ne h2) eig heig) start _ (Or.inl rfl)

/-- The Cauchy distance to the cubic lattice (an integer). -/
def cubicDist (L : Z3) : ℤ := cauchyDist L (1 : Matrix (Fin 3) (Fin 3) ℤ) 1

/-- a descent in two steps from a sheared base of the cubic lattice -/
example : (match dfs cubicDist 3 freshMem ⟨0, !![1, 1, 0; 0, 1, 1; 0, 0, 1], none, none⟩ with
    | .ok r => some (r.1.elem, cubicDist r.1.elem)
    | _ => none) = some (1, 0) ∧ cubicDist !![1, 1, 0; 0, 1, 1; 0, 0, 1] = 6 := by
  decide +kernel

/-! ## C44 -/

/-- Any sequence of `dfs` calls sharing a cache. -/
def dfsRuns (dist : Z3 → K) (F : ℕ) : Mem → List SLNode → Run (List SLNode × Mem)
  | m, [] => .ok ([], m)
  | m, s :: ss =>
    (dfs dist F m s).bind fun r =>
      (dfsRuns dist F r.2 ss).bind fun q => .ok (r.1 :: q.1, q.2)

theorem dfsRuns_spec {dist : Z3 → K} {F : ℕ} : ∀ (ss : List SLNode) (m m' : Mem) (rs : List SLNode),
    CacheOK dist m → m.counter.isSome → dfsRuns dist F m ss = .ok (rs, m') →
    CacheOK dist m' ∧ m'.counter.isSome ∧
      List.Forall₂ (fun s r : SLNode => EndsAt dist s.elem r.elem) ss rs := by
  intro ss
  induction ss with
  | nil =>
    intro m m' rs hm hc h
    simp only [dfsRuns, Run.ok.injEq, Prod.mk.injEq] at h
    obtain ⟨rfl, rfl⟩ := h
    exact ⟨hm, hc, .nil⟩
  | cons s ss ih =>
    intro m m' rs hm hc h
    simp only [dfsRuns] at h
    obtain ⟨⟨n, m1⟩, h1, h⟩ := bind_ok h
    obtain ⟨⟨rs', m2⟩, h2, h⟩ := bind_ok h
    simp only [Run.ok.injEq, Prod.mk.injEq] at h
    obtain ⟨rfl, rfl⟩ := h
    obtain ⟨a1, a2, a3, -⟩ := dfs_spec hm h1
    obtain ⟨b1, b2, b3⟩ := ih m1 _ _ a2 (a3 hc) h2
    exact ⟨b1, b2, .cons a1 b3⟩

theorem dfsRuns_ok {dist : Z3 → K} (hfin : ∀ c, {L | dist L < c}.Finite) : ∀ (ss : List SLNode)
    (m : Mem), m.counter.isSome → ∃ r N, ∀ F, N ≤ F → dfsRuns dist F m ss = .ok r := by
  intro ss
  induction ss with
  | nil => intro m _; exact ⟨_, 0, fun F _ => rfl⟩
  | cons s ss ih =>
    intro m hc
    obtain ⟨⟨n, m1⟩, N1, h1⟩ := dfs_ok hfin hc s
    obtain ⟨r, N2, h2⟩ := ih m1 (dfs_counter (h1 N1 le_rfl) hc)
    refine ⟨(n :: r.1, r.2), max N1 N2, fun F hF => ?_⟩
    simp only [dfsRuns]
    rw [h1 F (by omega)]
    simp only [Run.bind]
    rw [h2 F (by omega)]

/-- C44 (partial): for every sequence of `dfs` calls sharing a cache with a counter, every call ends, and
the matrix it returns (hence the distance) is the one an uncached call returns.  Missing: the other
attributes of the returned node (`C44_node_fails`) and the default cache (`C44_default_fails`). -/
theorem C44_transparent_partial (dist : Z3 → K) (hfin : ∀ c, {L | dist L < c}.Finite)
    (calls : List SLNode) :
    ∃ rs us m' N, (∀ F, N ≤ F → dfsRuns dist F freshMem calls = .ok (rs, m')) ∧
      List.Forall₂ (fun s u => ∃ m, ∀ F, N ≤ F → dfs dist F freshMem s = .ok (u, m)) calls us ∧
      rs.map SLNode.elem = us.map SLNode.elem := by
  obtain ⟨⟨rs, m'⟩, N, h⟩ := dfsRuns_ok hfin calls freshMem rfl
  obtain ⟨-, -, h3⟩ := dfsRuns_spec calls _ _ _ (cacheOK_fresh dist) rfl (h N le_rfl)
  have hu : ∃ us N', List.Forall₂ (fun s u => ∃ m, ∀ F, N' ≤ F → dfs dist F freshMem s = .ok (u, m))
      calls us ∧ rs.map SLNode.elem = us.map SLNode.elem := by
    clear h
    induction h3 with
    | nil => exact ⟨[], 0, .nil, rfl⟩
    | cons hab hl ih =>
      rename_i s r ss rs
      obtain ⟨us, N1, h1, h2⟩ := ih
      obtain ⟨⟨u, m⟩, N2, h3⟩ := dfs_ok hfin (m := freshMem) rfl s
      refine ⟨u :: us, max N1 N2, .cons ⟨m, fun F hF => h3 F (by omega)⟩ (h1.imp ?_), ?_⟩
      · rintro s u ⟨m, hm⟩
        exact ⟨m, fun F hF => hm F (by omega)⟩
      · have := (dfs_spec (cacheOK_fresh dist) (h3 N2 le_rfl)).1
        simp only [List.map_cons]
        rw [h2, hab.unique this]
  obtain ⟨us, N', h4, h5⟩ := hu
  refine ⟨rs, us, m', max N N', fun F hF => h F (by omega), h4.imp ?_, h5⟩
  rintro s u ⟨m, hm⟩
  exact ⟨m, fun F hF => hm F (by omega)⟩

/-- three calls, the last one answered from the cache -/
example : (match dfsRuns cubicDist 4 freshMem [⟨0, !![1, 1, 0; 0, 1, 1; 0, 0, 1], none, none⟩,
      ⟨0, !![1, 1, 1; 0, 1, 0; 0, 0, 1], none, none⟩, ⟨0, 1, none, none⟩] with
    | .ok r => some (r.1.map SLNode.elem, r.2.counter)
    | _ => none) = some ([1, 1, 1], some 1) := by
  decide +kernel

/-- C44 fails for the node object: after a call with a node that has a parent, a call with a root node
holding the same matrix returns the first node, whose children are only part of those of the node an
uncached call returns. -/
theorem C44_node_fails : ∃ (s t n n' : SLNode) (m m' m'' : Mem),
    dfs cubicDist 1 freshMem s = .ok (n, m) ∧ dfs cubicDist 1 m t = .ok (n, m') ∧
      dfs cubicDist 1 freshMem t = .ok (n', m'') ∧ n.childList.length < n'.childList.length := by
  have h : steepestDes cubicDist 1 = none := by decide +kernel
  have hs : descend cubicDist 1 1 ⟨0, 1, some 0, none⟩ [1] = .ok (1, ⟨0, 1, some 0, none⟩, [1]) := by
    simp only [descend, h]
  have ht : descend cubicDist 1 1 ⟨0, 1, none, none⟩ [1] = .ok (1, ⟨0, 1, none, none⟩, [1]) := by
    simp only [descend, h]
  have e1 : dfs cubicDist 1 freshMem ⟨0, 1, some 0, none⟩ = .ok (⟨0, 1, some 0, none⟩,
      { freshMem with cache := fun k => if k ∈ [(1 : Z3)] then some ⟨0, 1, some 0, none⟩ else none }) := by
    simp only [dfs, freshMem, hs, Run.bind]
  have e2 : dfs cubicDist 1 { freshMem with
      cache := fun k => if k ∈ [(1 : Z3)] then some ⟨0, 1, some 0, none⟩ else none } ⟨0, 1, none, none⟩ =
      .ok (⟨0, 1, some 0, none⟩, { freshMem with
        counter := some 1
        cache := fun k => if k ∈ [(1 : Z3)] then some ⟨0, 1, some 0, none⟩ else none }) := by
    simp [dfs, freshMem]
  have e3 : dfs cubicDist 1 freshMem ⟨0, 1, none, none⟩ = .ok (⟨0, 1, none, none⟩,
      { freshMem with cache := fun k => if k ∈ [(1 : Z3)] then some ⟨0, 1, none, none⟩ else none }) := by
    simp only [dfs, freshMem, ht, Run.bind]
  exact ⟨_, _, _, _, _, _, _, e1, e2, e3, by decide +kernel⟩

/-- C44 fails for the default cache: the second call with the same start raises `KeyError`. -/
theorem C44_default_fails (dist : Z3 → K) (hfin : ∀ c, {L | dist L < c}.Finite) (start : SLNode) :
    ∃ n m' N, ∀ F, N ≤ F → dfs dist F defaultMem start = .ok (n, m') ∧
      dfs dist F m' start = .err .keyError := by
  obtain ⟨⟨n', n, seen⟩, -, h⟩ := descend_ok hfin _ start le_rfl _ (Nat.lt_succ_self _) 1 [start.elem]
  refine ⟨n, { defaultMem with
    next := n', cache := fun k => if k ∈ seen then some n else defaultMem.cache k },
    {L | dist L < dist start.elem}.ncard + 1, fun F hF => ⟨?_, ?_⟩⟩
  · simp only [dfs, defaultMem, h F hF, Run.bind]
  · have := descend_seen dist _ _ _ _ _ _ _ (h F hF) (by simp)
    have hm : start.elem ∈ seen := this.1 (by simp)
    simp only [dfs, if_pos hm, defaultMem]

/-! ## C45 -/

/-- The head of the right answer is a best candidate. -/
theorem head_le {GA GM : List Z3} {D : Type} [LinearOrder D] {dist : Z3 → D} {nsol : ℕ} {cs : List Z3}
    {sols : List (Z3 × D)} (hd : ∀ L X, Equivalent GA GM L X → dist X = dist L) (hn : 1 ≤ nsol)
    (hdet : ∀ L ∈ cs, L.det ≠ 0) (h : BestClasses GA GM dist nsol cs sols) {L : Z3} (hL : L ∈ cs) :
    ∃ s, sols.head? = some s ∧ s.2 ≤ dist L := by
  obtain ⟨m, hm, hmin⟩ : ∃ m ∈ cs, ∀ x ∈ cs, dist m ≤ dist x := by
    obtain ⟨m, hm, hle⟩ := Finset.exists_min_image cs.toFinset dist ⟨L, by simpa using hL⟩
    exact ⟨m, by simpa using hm, fun x hx => hle x (by simpa using hx)⟩
  have hb : betterClasses GA GM dist cs (dist m) = ∅ := by
    ext S
    simp only [betterClasses, Set.mem_ofPred_eq, Set.mem_empty_iff_false, iff_false]
    rintro ⟨c, hc, -, hlt, -⟩
    exact absurd hlt (not_lt.mpr (hmin c hc))
  obtain ⟨s, hs, he⟩ := (h.complete m hm).mpr ⟨hdet m hm, by rw [hb, Set.ncard_empty]; exact hn⟩
  have hsd : s.2 = dist m := by rw [h.distances s hs, hd _ _ he]
  cases sols with
  | nil => simp at hs
  | cons a l =>
    refine ⟨a, rfl, ?_⟩
    have : a.2 ≤ s.2 := by
      rcases List.mem_cons.mp hs with rfl | hs'
      · exact le_rfl
      · exact (List.pairwise_cons.mp h.sorted).1 s hs'
    exact this.trans (hsd.le.trans (hmin L hL))

/-- What C45 asks of the two lists `lopt`, `dopt` found from the starting point `lo`. -/
structure GoodLists {D : Type} [LinearOrder D] (GA GM : List Z3) (dist : Z3 → D) (lo : Z3) (lopt : List Z3)
    (dopt : List D) : Prop where
  nonempty : lopt ≠ []
  distances : dopt = lopt.map dist
  sorted : dopt.Pairwise (· ≤ ·)
  inequivalent : lopt.Pairwise fun L L' => ¬ Equivalent GA GM L L'
  orbit : ∀ L ∈ lopt, SameOrbit lo L
  start : ∀ d, dopt.head? = some d → d ≤ dist lo

/-- C45 for the core procedure: for every distance with finite sublevels, all groups, bounds and every
starting point, the search ends and the lists are as they should be. -/
theorem C45_core {P : OptParams K} {GA GM : List Z3} (hP : P.eq = eqlatcor GA GM) (hA : IsMatGroup GA)
    (hM : IsMatGroup GM) (hfin : ∀ c, {L | P.dist L < c}.Finite) (lo : Z3) :
    ∃ opt mem N, (∀ F, N ≤ F → optCore P F lo = .ok (opt, mem)) ∧
      GoodLists GA GM P.dist lo opt.lopt opt.dopt := by
  obtain ⟨⟨opt, mem⟩, N, h⟩ := optCore_ok hfin lo
  obtain ⟨visited, hinv, ⟨s, hs, hle⟩, -⟩ := optCore_spec (h N le_rfl)
  have e : opt = visited.foldl (fun st L => (updateSolutions (eqlatcor GA GM) P.nsol P.dist st L).2)
      ⟨[], [], ∅⟩ := by rw [hinv.fold, optOf, hP]
  have hl := listsOK_fold (dist := P.dist) (nsol := P.nsol) hA hM visited
  rw [← e] at hl
  refine ⟨opt, mem, N, h, hl.nonempty ?_, hl.distances, hl.sorted, hl.inequivalent, ?_, ?_⟩
  · rintro rfl; simp at hs
  · intro L hL
    exact hinv.orbit L (hl.from_visited L hL)
  · intro d hd
    exact (hl.first s hs d hd).trans hle

/-- C45 for the core procedure and distances constant on classes: the best solution is as good as the
result of every descent made (these are the entries of the cache), and the lists hold the best classes of
a list of visited elements that contains the last local minimum. -/
theorem C45_core_best {P : OptParams K} {GA GM : List Z3} (hP : P.eq = eqlatcor GA GM)
    (hA : IsMatGroup GA) (hM : IsMatGroup GM)
    (hd : ∀ L X, Equivalent GA GM L X → P.dist X = P.dist L) (hn : 1 ≤ P.nsol)
    (lo : Z3) (hlo : lo.det ≠ 0) {F : ℕ} {opt : OptState Z3 K}
    {mem : Mem} (h : optCore P F lo = .ok (opt, mem)) :
    (∀ k n, mem.cache k = some n → ∀ d, opt.dopt.head? = some d → d ≤ P.dist n.elem) ∧
      ∃ visited : List Z3, BestClasses GA GM P.dist P.nsol visited (opt.lopt.zip opt.dopt) ∧
        ∃ s ∈ visited, LocalMin P.dist s ∧ P.dist s ≤ P.dist lo := by
  obtain ⟨visited, hinv, -, s, hs, h1, h2, h3⟩ := optCore_spec h
  have hdet : ∀ L ∈ visited, L.det ≠ 0 := by
    intro L hL
    obtain ⟨S, hS, rfl⟩ := hinv.orbit L hL
    rw [det_mul, hS, mul_one]; exact hlo
  obtain ⟨b1, b2⟩ := C46_best_visited _ _ _ _ hA hM hd hn visited hdet
  have e : opt = visited.foldl (fun st L => (updateSolutions (eqlatcor GA GM) P.nsol P.dist st L).2)
      ⟨[], [], ∅⟩ := by rw [hinv.fold, optOf, hP]
  rw [← e] at b1 b2
  have z2 : (opt.lopt.zip opt.dopt).map Prod.snd = opt.dopt := List.map_snd_zip b1.ge
  obtain ⟨a, ha, hle⟩ := head_le hd hn hdet b2 hs
  refine ⟨?_, visited, b2, s, hs, (localMin_iff _ _).mpr h1, h2⟩
  intro k n hk d hd'
  rw [← z2, List.head?_map, ha] at hd'
  simp only [Option.map_some, Option.some.injEq] at hd'
  rw [← hd']
  exact hle.trans (h3 k n hk)

/-- The special lattice group used by `lat_opt` is a group of symmetries. -/
theorem special_group {t : Tol} {E : Matrix (Fin 3) (Fin 3) ℝ} (hE : E.det ≠ 0)
    (hr : Reliable t E candidates3) :
    ∃ ms, Lat.getspeciallatticegroup t ⟨3, E⟩ = .ok ms ∧ IsMatGroup ms ∧ ∀ M ∈ ms, IsLatticeSym E M := by
  obtain ⟨g, ms, hg, hms, hf, -, -, hgrp⟩ := C17_special_lattice_group_3d t E hE hr
  obtain ⟨g', hg', hs, -⟩ := C15_laue_group_3d t E hE hr
  have : g = g' := by rw [hg] at hg'; exact Except.ok.inj hg'
  subst this
  refine ⟨ms, hms, hgrp, fun M hM => ?_⟩
  obtain ⟨Q, hQ, he⟩ : ∃ Q ∈ g, E * toR M = Q * E := by
    clear hg hg' hs hms hgrp
    induction hf with
    | nil => simp at hM
    | cons hab _ ih =>
      rename_i a b l1 l2 _
      rcases List.mem_cons.mp hM with rfl | hM
      · exact ⟨a, by simp, hab⟩
      · obtain ⟨Q, hQ, h⟩ := ih hM
        exact ⟨Q, by simp [hQ], h⟩
  exact ⟨Q, mul_eq_one_comm.mp (hs.sym Q hQ).1, he.symm⟩

/-- The distances `lat_opt` offers. -/
noncomputable def namedDist (eig : Matrix (Fin 3) (Fin 3) ℝ → Fin 3 → ℝ)
    (E1 E2 : Matrix (Fin 3) (Fin 3) ℝ) (name : String) : Z3 → ℝ :=
  if name = "strain" then fun L => strainDist eig L E1 E2⁻¹
  else if name = "Ericksen" then fun L => ericDist L E1 E2 else fun L => cauchyDist L E1 E2⁻¹

/-- **C45** (partial).  For all non-singular bases whose groups are found reliably, all `nsol`,
iteration bounds and the three distances, `lat_opt` ends whenever the `LLL` routine returns a base (it
then is `E1 lo` with `det lo = 1`), and its lists are non-empty, sorted, with true distances, free of
equivalent pairs, of determinant 1, and start with a solution at least as good as the starting point.
For the Cauchy and the strain distance the first solution is also at least as good as every descent made
(`C45_core_best`).  Missing: bases for which `LLL` returns a pair (`C48_pair_fails`), and dimension 2. -/
theorem C45_lat_opt_partial (t : Tol) (eig : Matrix (Fin 3) (Fin 3) ℝ → Fin 3 → ℝ)
    (heig : ∀ A : Matrix (Fin 3) (Fin 3) ℝ, Aᵀ = A → IsEigenvalues A (eig A))
    {E1 E2 Er1 : Matrix (Fin 3) (Fin 3) ℝ} (h1 : E1.det ≠ 0) (h2 : E2.det ≠ 0)
    (r1 : Reliable t E1 candidates3) (r2 : Reliable t E2 candidates3) (hlll : lll E1 = .base Er1)
    (kw : OptKw)
    (hg : ∀ g, kw.solg2 = some g → Lat.getspeciallatticegroup t ⟨3, E2⟩ = .ok g)
    (hk : kw.dist = none ∨ kw.dist = some "Cauchy" ∨ kw.dist = some "strain" ∨
      kw.dist = some "Ericksen") :
    ∃ GA GM : List Z3, Lat.getspeciallatticegroup t ⟨3, E1⟩ = .ok GA ∧
      Lat.getspeciallatticegroup t ⟨3, E2⟩ = .ok GM ∧
      ∃ lo : Z3, lo.det = 1 ∧ Er1 = E1 * lo.map (Int.cast : ℤ → ℝ) ∧
      ∃ lopt dopt N, (∀ F, N ≤ F → latOpt t eig F E1 E2 kw = .ok (lopt, dopt)) ∧
        GoodLists GA GM (namedDist eig E1 E2 (kw.dist.getD "Cauchy")) lo lopt dopt ∧
        ∀ L ∈ lopt, L.det = 1 := by
  obtain ⟨GA, hGA, gA, -⟩ := special_group h1 r1
  obtain ⟨GM, hGM, gM, -⟩ := special_group h2 r2
  obtain ⟨lo, hdet, hlo⟩ := C48_lattice_partial h1 hlll
  have hrint : rintMat (E1⁻¹ * Er1) = lo := by
    have : E1⁻¹ * Er1 = lo.map (Int.cast : ℤ → ℝ) := by
      rw [hlo, ← Matrix.mul_assoc, Matrix.nonsing_inv_mul _ (isUnit_iff_ne_zero.mpr h1), Matrix.one_mul]
    rw [this]
    exact rintMat_toR lo
  set dist := namedDist eig E1 E2 (kw.dist.getD "Cauchy") with hdist
  have hfin : ∀ c, {L | dist L < c}.Finite := by
    intro c
    rw [hdist]
    unfold namedDist
    split_ifs
    · exact strain_finite h1 (C43_cauchy.det_inv_ne h2) eig heig c
    · exact eric_finite h1 h2 c
    · exact cauchy_finite h1 (C43_cauchy.det_inv_ne h2) c
  have hopt : optDist eig E1 E2 (kw.dist.getD "Cauchy") = .ok (some dist) := by
    rw [hdist]
    rcases hk with h | h | h | h <;> simp [h, optDist, namedDist, h2]
  obtain ⟨opt, mem, N, hN, hgood⟩ := C45_core
    (P := ⟨dist, eqlatcor GA GM, kw.nsol.getD 1, kw.miniter.getD 3,
      kw.maxiter.getD (maxiterByNsol (kw.nsol.getD 1))⟩) rfl gA gM hfin lo
  refine ⟨GA, GM, hGA, hGM, lo, hdet, hlo, opt.lopt, opt.dopt, N, fun F hF => ?_, hgood, ?_⟩
  · simp only [latOpt, if_neg h1, hlll, hrint, hopt, hGA]
    cases h : kw.solg2 with
    | none =>
      simp only [if_neg h2, hGM]
      rw [hN F hF]
      rfl
    | some g =>
      have hgg : g = GM := by
        have := hg g h
        rw [hGM] at this
        exact (Except.ok.inj this).symm
      subst hgg
      simp only
      rw [hN F hF]
      rfl
  · intro L hL
    obtain ⟨S, hS, rfl⟩ := hgood.orbit L hL
    rw [det_mul, hdet, hS, mul_one]

/-- the hypotheses are met: a base on which `LLL` returns an array, and the cubic lattice -/
example : ∃ E1 E2 Er1 : Matrix (Fin 3) (Fin 3) ℝ, E1.det ≠ 0 ∧ E2.det ≠ 0 ∧
    Reliable .exact E1 candidates3 ∧ Reliable .exact E2 candidates3 ∧ lll E1 = .base Er1 := by
  obtain ⟨E, B, hE, hB, -⟩ := C49_size_fails
  exact ⟨E, 1, B, hE, by simp, Or.inl rfl, Or.inl rfl, hB⟩

/-- a run with one sweep from a sheared base of the cubic lattice: the perfect match and one of the next
best correspondences (all at distance 3) -/
example : (match optCore ⟨cubicDist, eqlatcor [1] [1], 2, 1, 1⟩ 5 !![1, 1, 0; 0, 1, 1; 0, 0, 1] with
    | .ok r => some (r.1.lopt.length, r.1.dopt.take 3, r.1.lopt.head?)
    | _ => none) = some (13, [0, 3, 3], some 1) := by
  decide +kernel

end Verif.Props
