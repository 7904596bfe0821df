import Mathlib.Logic.Relation
import Mathlib.Data.Set.Card
import Mathlib.Algebra.Order.Ring.Defs
import Mathlib.LinearAlgebra.Matrix.SpecialLinearGroup
import Mathlib.Tactic.Linarith
import Verif.Model.LatOpt
import Verif.Spec.LatOpt

/-!
# Lemmas about descents, their cache and the breadth-first search
-/

namespace Verif.Lemmas

open Verif.Model Verif.Spec Matrix

variable {K : Type} [CommRing K] [LinearOrder K] [IsStrictOrderedRing K]

/-! ### transvections -/

theorem transv_isTransvection : ∀ k : Fin 12, IsTransvection (transv k) := by
  have h : ∀ k : Fin 12, ∃ i j : Fin 3, i ≠ j ∧
      (transv k = 1 + Matrix.single i j 1 ∨ transv k = 1 - Matrix.single i j 1) := by decide +kernel
  exact h

theorem isTransvection_iff (M : Z3) : IsTransvection M ↔ ∃ k, M = transv k := by
  constructor
  · rintro ⟨i, j, hij, h⟩
    have key : ∀ i j : Fin 3, i ≠ j → (∃ k, (1 : Z3) + Matrix.single i j 1 = transv k) ∧
        ∃ k, (1 : Z3) - Matrix.single i j 1 = transv k := by decide +kernel
    rcases h with rfl | rfl
    · exact (key i j hij).1
    · exact (key i j hij).2
  · rintro ⟨k, rfl⟩
    exact transv_isTransvection k

theorem transv_det : ∀ k : Fin 12, (transv k).det = 1 := by
  intro k
  have h : ∀ k : Fin 12, transv k 0 0 * transv k 1 1 * transv k 2 2 - transv k 0 0 * transv k 1 2 * transv k 2 1
      - transv k 0 1 * transv k 1 0 * transv k 2 2 + transv k 0 1 * transv k 1 2 * transv k 2 0
      + transv k 0 2 * transv k 1 0 * transv k 2 1 - transv k 0 2 * transv k 1 1 * transv k 2 0 = 1 := by
    decide +kernel
  rw [Matrix.det_fin_three]
  exact h k

/-! ### steepest descent -/

theorem steepestLoop_spec (d0 : K) : ∀ (l : List (Fin 12 × K)) (acc : Option (Fin 12) × K),
    (steepestLoop d0 l acc).2 ≤ acc.2 ∧ (∀ p ∈ l, (steepestLoop d0 l acc).2 ≤ p.2 - d0) ∧
      (steepestLoop d0 l acc = acc ∨ ∃ p ∈ l, steepestLoop d0 l acc = (some p.1, p.2 - d0)) := by
  intro l
  induction l with
  | nil => intro acc; simp [steepestLoop]
  | cons q l ih =>
    intro acc
    obtain ⟨i, d⟩ := q
    simp only [steepestLoop]
    obtain ⟨h1, h2, h3⟩ := ih (if d - d0 < acc.2 then (some i, d - d0) else acc)
    have hb : (if d - d0 < acc.2 then (some i, d - d0) else acc).2 ≤ acc.2 ∧
        (if d - d0 < acc.2 then (some i, d - d0) else acc).2 ≤ d - d0 := by
      split_ifs with h
      · exact ⟨h.le, le_rfl⟩
      · exact ⟨le_rfl, not_lt.mp h⟩
    refine ⟨h1.trans hb.1, ?_, ?_⟩
    · intro p hp
      rcases List.mem_cons.mp hp with rfl | hp
      · exact h1.trans hb.2
      · exact h2 p hp
    · rcases h3 with h3 | ⟨p, hp, h3⟩
      · rw [h3]
        split_ifs with h
        · exact Or.inr ⟨(i, d), by simp, rfl⟩
        · exact Or.inl rfl
      · exact Or.inr ⟨p, by simp [hp], h3⟩

/-- `steepest_des` finds nothing exactly at local minima. -/
theorem steepestDes_none_iff (dist : Z3 → K) (L : Z3) :
    steepestDes dist L = none ↔ ∀ k, dist L ≤ dist (L * transv k) := by
  obtain ⟨h1, h2, h3⟩ := steepestLoop_spec (dist L) (neighbours dist L) (none, 10 ^ 10)
  unfold steepestDes
  simp only
  set r := steepestLoop (dist L) (neighbours dist L) (none, 10 ^ 10) with hr
  have hmem : ∀ k, (k, dist (L * transv k)) ∈ neighbours dist L := fun k => by
    simp [neighbours]
  constructor
  · intro h k
    split_ifs at h with hlt
    · rcases h3 with h3 | ⟨p, -, h3⟩
      · rw [h3] at hlt
        have h10 : (0 : K) ≤ 10 ^ 10 := pow_nonneg (by norm_num) _
        exact absurd hlt (not_lt.mpr h10)
      · rw [h3] at h; simp at h
    · have := h2 _ (hmem k)
      simp only at this
      have hr0 := not_lt.mp hlt
      linarith
  · intro h
    rw [if_neg]
    rcases h3 with h3 | ⟨p, hp, h3⟩
    · rw [h3]
      exact not_lt.mpr (pow_nonneg (by norm_num) _)
    · rw [h3]
      simp only [neighbours, List.mem_map, List.mem_finRange, true_and] at hp
      obtain ⟨k, rfl⟩ := hp
      have := h k
      simp only [not_lt]
      linarith

/-- Otherwise it finds a best neighbour, and that one is better. -/
theorem steepestDes_some {dist : Z3 → K} {L M : Z3} (h : steepestDes dist L = some M) :
    (∃ k, M = L * transv k) ∧ dist M < dist L ∧ ∀ k, dist M ≤ dist (L * transv k) := by
  obtain ⟨h1, h2, h3⟩ := steepestLoop_spec (dist L) (neighbours dist L) (none, 10 ^ 10)
  unfold steepestDes at h
  simp only at h
  set r := steepestLoop (dist L) (neighbours dist L) (none, 10 ^ 10) with hr
  have hmem : ∀ k, (k, dist (L * transv k)) ∈ neighbours dist L := fun k => by
    simp [neighbours]
  split_ifs at h with hlt
  rcases h3 with h3 | ⟨p, hp, h3⟩
  · rw [h3] at h; simp at h
  · simp only [neighbours, List.mem_map, List.mem_finRange, true_and] at hp
    obtain ⟨k, rfl⟩ := hp
    rw [h3] at h hlt
    simp only [Option.map_some, Option.some.injEq] at h
    subst h
    refine ⟨⟨k, rfl⟩, ?_, ?_⟩
    · simp only at hlt; linarith
    · intro k'
      have := h2 _ (hmem k')
      rw [h3] at this
      simp only at this
      linarith

/-- One step of steepest descent. -/
def Steps (dist : Z3 → K) (L M : Z3) : Prop := steepestDes dist L = some M

/-- `M` is where steepest descent from `L` ends. -/
def EndsAt (dist : Z3 → K) (L M : Z3) : Prop :=
  Relation.ReflTransGen (Steps dist) L M ∧ steepestDes dist M = none

omit [IsStrictOrderedRing K] in
theorem EndsAt.unique {dist : Z3 → K} {L M M' : Z3} (h : EndsAt dist L M) (h' : EndsAt dist L M') :
    M = M' := by
  obtain ⟨h1, h2⟩ := h
  obtain ⟨h1', h2'⟩ := h'
  induction h1 using Relation.ReflTransGen.head_induction_on with
  | refl =>
    rcases Relation.ReflTransGen.cases_head h1' with h | ⟨c, hc, -⟩
    · exact h
    · rw [Steps, h2] at hc; simp at hc
  | head hab hbc ih =>
    rename_i a b
    rcases Relation.ReflTransGen.cases_head h1' with h | ⟨c, hc, hc'⟩
    · rw [← h, hab] at h2'; simp at h2'
    · have : b = c := Option.some.inj (hab.symm.trans hc)
      exact ih (this ▸ hc')

theorem steps_le {dist : Z3 → K} {L M : Z3} (h : Relation.ReflTransGen (Steps dist) L M) :
    dist M ≤ dist L := by
  induction h with
  | refl => exact le_rfl
  | tail _ hbc ih => exact ((steepestDes_some hbc).2.1.le).trans ih

theorem sameOrbit_refl (L : Z3) : SameOrbit L L := ⟨1, by simp, by simp⟩

theorem orbit_trans {A B C : Z3} (h : SameOrbit A B) (h' : SameOrbit B C) : SameOrbit A C := by
  obtain ⟨S, hS, rfl⟩ := h
  obtain ⟨S', hS', rfl⟩ := h'
  exact ⟨S * S', by rw [det_mul, hS, hS', mul_one], by rw [Matrix.mul_assoc]⟩

theorem sameOrbit_transv (L : Z3) (k : Fin 12) : SameOrbit L (L * transv k) :=
  ⟨transv k, transv_det k, rfl⟩

theorem steps_orbit {dist : Z3 → K} {L M : Z3} (h : Relation.ReflTransGen (Steps dist) L M) :
    SameOrbit L M := by
  induction h with
  | refl => exact sameOrbit_refl _
  | tail _ hbc ih =>
    obtain ⟨⟨k, rfl⟩, -⟩ := steepestDes_some hbc
    exact orbit_trans ih (sameOrbit_transv _ k)

/-- The result of `descend`. -/
theorem descend_spec (dist : Z3 → K) : ∀ (f next : ℕ) (node : SLNode) (seen : List Z3)
    (n' : ℕ) (r : SLNode) (seen' : List Z3), descend dist f next node seen = .ok (n', r, seen') →
    EndsAt dist node.elem r.elem ∧
      ∀ k ∈ seen', k ∈ seen ∨ Relation.ReflTransGen (Steps dist) k r.elem ∧ dist k ≤ dist node.elem := by
  intro f
  induction f with
  | zero => intro next node seen n' r seen' h; simp [descend] at h
  | succ f ih =>
    intro next node seen n' r seen' h
    simp only [descend] at h
    split at h
    · rename_i hn
      simp only [Run.ok.injEq, Prod.mk.injEq] at h
      obtain ⟨-, rfl, rfl⟩ := h
      exact ⟨⟨.refl, hn⟩, fun k hk => Or.inl hk⟩
    · rename_i L hL
      obtain ⟨⟨h1, h2⟩, h3⟩ := ih _ _ _ _ _ _ h
      refine ⟨⟨.head hL h1, h2⟩, fun k hk => ?_⟩
      have hlt := (steepestDes_some hL).2.1
      rcases h3 k hk with h | h
      · rcases List.mem_append.mp h with h | h
        · exact Or.inl h
        · simp only [List.mem_singleton] at h
          subst h
          exact Or.inr ⟨h1, hlt.le⟩
      · exact Or.inr ⟨h.1, h.2.trans hlt.le⟩

theorem descend_seen (dist : Z3 → K) : ∀ (f next : ℕ) (node : SLNode) (seen : List Z3)
    (n' : ℕ) (r : SLNode) (seen' : List Z3), descend dist f next node seen = .ok (n', r, seen') →
    node.elem ∈ seen → seen ⊆ seen' ∧ r.elem ∈ seen' := by
  intro f
  induction f with
  | zero => intro next node seen n' r seen' h; simp [descend] at h
  | succ f ih =>
    intro next node seen n' r seen' h hm
    simp only [descend] at h
    split at h
    · simp only [Run.ok.injEq, Prod.mk.injEq] at h
      obtain ⟨-, rfl, rfl⟩ := h
      exact ⟨List.Subset.refl _, hm⟩
    · rename_i L hL
      obtain ⟨h1, h2⟩ := ih _ _ _ _ _ _ h (by simp)
      exact ⟨fun x hx => h1 (List.mem_append_left _ hx), h2⟩

/-- Descents end: the elements below any level are finitely many. -/
theorem descend_ok {dist : Z3 → K} (hfin : ∀ c, {L | dist L < c}.Finite) :
    ∀ (N : ℕ) (node : SLNode), {L | dist L < dist node.elem}.ncard ≤ N → ∀ f, N < f → ∀ next seen,
      ∃ r, descend dist f next node seen = .ok r ∧
        ∀ f', N < f' → descend dist f' next node seen = .ok r := by
  intro N
  induction N with
  | zero =>
    intro node hc f hf next seen
    have hn : steepestDes dist node.elem = none := by
      by_contra hne
      obtain ⟨M, hM⟩ := Option.ne_none_iff_exists'.mp hne
      have hlt := (steepestDes_some hM).2.1
      have := (Set.ncard_eq_zero (hfin _)).mp (Nat.le_zero.mp hc)
      have hmem : M ∈ {L | dist L < dist node.elem} := hlt
      rw [this] at hmem
      exact hmem
    have key : ∀ f', 0 < f' → descend dist f' next node seen = .ok (next, node, seen) := by
      intro f' hf'
      obtain ⟨f', rfl⟩ := Nat.exists_eq_succ_of_ne_zero hf'.ne'
      simp only [descend, hn]
    exact ⟨_, key f hf, key⟩
  | succ N ih =>
    intro node hc f hf next seen
    cases hn : steepestDes dist node.elem with
    | none =>
      have key : ∀ f', N + 1 < f' → descend dist f' next node seen = .ok (next, node, seen) := by
        intro f' hf'
        obtain ⟨f', rfl⟩ := Nat.exists_eq_succ_of_ne_zero (by omega : f' ≠ 0)
        simp only [descend, hn]
      exact ⟨_, key f hf, key⟩
    | some M =>
      have hlt := (steepestDes_some hn).2.1
      have hlt' : {L | dist L < dist M}.ncard < {L | dist L < dist node.elem}.ncard := by
        apply Set.ncard_lt_ncard _ (hfin _)
        refine ⟨fun L hL => lt_trans hL hlt, fun hss => ?_⟩
        have : M ∈ {L | dist L < dist M} := hss hlt
        exact lt_irrefl _ this
      obtain ⟨f, rfl⟩ := Nat.exists_eq_succ_of_ne_zero (by omega : f ≠ 0)
      obtain ⟨r, h1, h2⟩ := ih ⟨next, M, none, none⟩ (by simp only; omega) f (by omega) (next + 1)
        (seen ++ [M])
      refine ⟨r, by simp only [descend, hn]; exact h1, ?_⟩
      intro f' hf'
      obtain ⟨f', rfl⟩ := Nat.exists_eq_succ_of_ne_zero (by omega : f' ≠ 0)
      simp only [descend, hn]
      exact h2 f' (by omega)

/-! ### the cache -/

/-- All entries of the cache are ends of descents. -/
def CacheOK (dist : Z3 → K) (m : Mem) : Prop :=
  ∀ k n, m.cache k = some n → EndsAt dist k n.elem

theorem dfs_spec {dist : Z3 → K} {F : ℕ} {m m' : Mem} {start n : SLNode} (hm : CacheOK dist m)
    (h : dfs dist F m start = .ok (n, m')) :
    EndsAt dist start.elem n.elem ∧ CacheOK dist m' ∧ (m.counter.isSome → m'.counter.isSome) ∧
      ∀ k q, m'.cache k = some q → q = n ∨ m.cache k = some q := by
  unfold dfs at h
  split at h
  · rename_i n' hn
    split at h
    · simp at h
    · rename_i c hc
      simp only [Run.ok.injEq, Prod.mk.injEq] at h
      obtain ⟨rfl, rfl⟩ := h
      exact ⟨hm _ _ hn, hm, fun _ => rfl, fun k q hq => Or.inr hq⟩
  · cases hd : descend dist F m.next start [start.elem] with
    | err e => rw [hd] at h; simp [Run.bind] at h
    | out => rw [hd] at h; simp [Run.bind] at h
    | ok r =>
      obtain ⟨n', r, seen⟩ := r
      rw [hd] at h
      simp only [Run.bind, Run.ok.injEq, Prod.mk.injEq] at h
      obtain ⟨rfl, rfl⟩ := h
      obtain ⟨h1, h2⟩ := descend_spec dist _ _ _ _ _ _ _ hd
      refine ⟨h1, ?_, fun h => h, ?_⟩
      rotate_left
      · intro k q hq
        simp only at hq
        split_ifs at hq with hk
        · exact Or.inl (Option.some.inj hq).symm
        · exact Or.inr hq
      intro k q hq
      simp only at hq
      split_ifs at hq with hk
      · simp only [Option.some.injEq] at hq
        subst hq
        rcases h2 k hk with h | h
        · simp only [List.mem_singleton] at h
          subst h
          exact h1
        · exact ⟨h.1, h1.2⟩
      · exact hm _ _ hq

theorem dfs_ok {dist : Z3 → K} (hfin : ∀ c, {L | dist L < c}.Finite) {m : Mem}
    (hc : m.counter.isSome) (start : SLNode) :
    ∃ r N, ∀ F, N ≤ F → dfs dist F m start = .ok r := by
  unfold dfs
  cases m.cache start.elem with
  | some n =>
    obtain ⟨c, hc⟩ := Option.isSome_iff_exists.mp hc
    exact ⟨_, 0, fun F _ => by simp only [hc]; rfl⟩
  | none =>
    obtain ⟨r, -, h⟩ := descend_ok hfin _ start le_rfl _ (Nat.lt_succ_self _) m.next [start.elem]
    exact ⟨_, {L | dist L < dist start.elem}.ncard + 1, fun F hF => by
      simp only [h F hF, Run.bind]; rfl⟩

omit [IsStrictOrderedRing K] in
theorem dfs_counter {dist : Z3 → K} {F : ℕ} {m m' : Mem} {start n : SLNode}
    (h : dfs dist F m start = .ok (n, m')) (hc : m.counter.isSome) : m'.counter.isSome := by
  unfold dfs at h
  split at h
  · split at h
    · simp at h
    · simp only [Run.ok.injEq, Prod.mk.injEq] at h
      obtain ⟨-, rfl⟩ := h
      rfl
  · cases hd : descend dist F m.next start [start.elem] with
    | err e => rw [hd] at h; simp [Run.bind] at h
    | out => rw [hd] at h; simp [Run.bind] at h
    | ok r =>
      rw [hd] at h
      simp only [Run.bind, Run.ok.injEq, Prod.mk.injEq] at h
      obtain ⟨-, rfl⟩ := h
      exact hc

/-! ### the breadth-first search ends -/

omit [CommRing K] [LinearOrder K] [IsStrictOrderedRing K] in
theorem bind_ok {α β : Type} {x : Run α} {f : α → Run β} {b : β} (h : x.bind f = .ok b) :
    ∃ a, x = .ok a ∧ f a = .ok b := by
  cases x with
  | ok a => exact ⟨a, rfl, h⟩
  | err e => simp [Run.bind] at h
  | out => simp [Run.bind] at h

theorem probe_ok {P : OptParams K} (hfin : ∀ c, {L | P.dist L < c}.Finite) (source : SLNode)
    (depth : ℕ) {m : Mem} (hc : m.counter.isSome) (t : SLNode) :
    ∃ r N, (∀ F, N ≤ F → probe P F source depth m t = .ok r) ∧ r.2.counter.isSome := by
  unfold probe
  split_ifs with hd
  · obtain ⟨⟨n, m'⟩, N, h⟩ := dfs_ok hfin hc t
    refine ⟨_, N, fun F hF => by rw [h F hF]; rfl, ?_⟩
    exact dfs_counter (h N le_rfl) hc
  · exact ⟨_, 0, fun F _ => rfl, hc⟩

theorem childLoop_ok {P : OptParams K} (hfin : ∀ c, {L | P.dist L < c}.Finite) (source : SLNode)
    (depth : ℕ) (root : SLNode) : ∀ (l : List (Fin 12 × Z3)) (b : Sweep K), b.mem.counter.isSome →
    ∃ r N, (∀ F, N ≤ F → childLoop P F source depth root l b = .ok r) ∧ r.1.mem.counter.isSome := by
  intro l
  induction l with
  | nil => intro b hc; exact ⟨(b, none), 0, fun F _ => rfl, hc⟩
  | cons p l ih =>
    intro b hc
    obtain ⟨gen, elem⟩ := p
    simp only [childLoop]
    split_ifs with he
    · exact ih { b with mem := b.mem.consume root.id } hc
    · obtain ⟨⟨o, m'⟩, N1, h1, hc1⟩ := probe_ok hfin source depth
        (m := { b.mem.consume root.id with next := b.mem.next + 1 }) hc
        ⟨b.mem.next, elem, some gen, root.parent⟩
      cases o with
      | some n =>
        refine ⟨_, N1, fun F hF => by rw [h1 F hF]; rfl, hc1⟩
      | none =>
        obtain ⟨r, N2, h2, hc2⟩ := ih ⟨insert elem b.explored,
          b.newRoots ++ [⟨b.mem.next, elem, some gen, root.parent⟩],
          (updateSolutions P.eq P.nsol P.dist b.opt elem).1 || b.updated,
          (updateSolutions P.eq P.nsol P.dist b.opt elem).2, m'⟩ hc1
        refine ⟨r, max N1 N2, fun F hF => ?_, hc2⟩
        rw [h1 F (le_trans (le_max_left _ _) hF)]
        exact h2 F (le_trans (le_max_right _ _) hF)

theorem rootLoop_ok {P : OptParams K} (hfin : ∀ c, {L | P.dist L < c}.Finite) (source : SLNode)
    (depth : ℕ) : ∀ (l : List SLNode) (b : Sweep K), b.mem.counter.isSome →
    ∃ r N, (∀ F, N ≤ F → rootLoop P F source depth l b = .ok r) ∧ r.1.mem.counter.isSome := by
  intro l
  induction l with
  | nil => intro b hc; exact ⟨(b, none), 0, fun F _ => rfl, hc⟩
  | cons root l ih =>
    intro b hc
    simp only [rootLoop]
    obtain ⟨⟨b', o⟩, N1, h1, hc1⟩ := childLoop_ok hfin source depth root
      (root.childList.drop (b.mem.used root.id)) b hc
    cases o with
    | some n => exact ⟨_, N1, fun F hF => by rw [h1 F hF]; rfl, hc1⟩
    | none =>
      obtain ⟨r, N2, h2, hc2⟩ := ih b' hc1
      refine ⟨r, max N1 N2, fun F hF => ?_, hc2⟩
      rw [h1 F (le_trans (le_max_left _ _) hF)]
      exact h2 F (le_trans (le_max_right _ _) hF)

theorem depthLoop_ok {P : OptParams K} (hfin : ∀ c, {L | P.dist L < c}.Finite) (source : SLNode) :
    ∀ (g depth : ℕ) (updated : Bool) (explored : Finset Z3) (roots : List SLNode)
      (opt : OptState Z3 K) (mem : Mem), mem.counter.isSome → max P.miniter P.maxiter ≤ depth + g →
    ∃ r N, (∀ F, N ≤ F → depthLoop P F source g depth updated explored roots opt mem = .ok r) ∧
      r.2.2.counter.isSome := by
  intro g
  induction g with
  | zero =>
    intro depth updated explored roots opt mem hc hg
    have hn : ¬ (depth < P.miniter ∨ (updated = true ∧ depth < P.maxiter)) := by
      have := le_max_left P.miniter P.maxiter
      have := le_max_right P.miniter P.maxiter
      omega
    refine ⟨(none, opt, mem), 0, fun F _ => ?_, hc⟩
    rw [depthLoop, if_neg hn]
  | succ g ih =>
    intro depth updated explored roots opt mem hc hg
    by_cases hn : depth < P.miniter ∨ (updated = true ∧ depth < P.maxiter)
    · obtain ⟨⟨b', o⟩, N1, h1, hc1⟩ := rootLoop_ok hfin source (depth + 1) roots
        ⟨explored, [], false, opt, mem⟩ hc
      cases o with
      | some n =>
        refine ⟨(some n, b'.opt, b'.mem), N1, fun F hF => ?_, hc1⟩
        rw [depthLoop, if_pos hn, h1 F hF]; rfl
      | none =>
        obtain ⟨r, N2, h2, hc2⟩ := ih (depth + 1) b'.updated b'.explored b'.newRoots b'.opt b'.mem hc1
          (by omega)
        refine ⟨r, max N1 N2, fun F hF => ?_, hc2⟩
        rw [depthLoop, if_pos hn, h1 F (le_trans (le_max_left _ _) hF)]
        exact h2 F (le_trans (le_max_right _ _) hF)
    · refine ⟨(none, opt, mem), 0, fun F _ => ?_, hc⟩
      rw [depthLoop, if_neg hn]

theorem bfs_ok {P : OptParams K} (hfin : ∀ c, {L | P.dist L < c}.Finite) (source : SLNode)
    (opt : OptState Z3 K) {mem : Mem} (hc : mem.counter.isSome) :
    ∃ r N, (∀ F, N ≤ F → bfs P F source opt mem = .ok r) ∧ r.2.2.counter.isSome :=
  depthLoop_ok hfin source _ _ _ _ _ _ _ hc (by omega)

/-! ### what the breadth-first search maintains -/

/-- All descents so far ended at a distance of at least `d`. -/
def LowOK (dist : Z3 → K) (d : K) (m : Mem) : Prop := ∀ k n, m.cache k = some n → d ≤ dist n.elem

/-- The solutions after visiting the given elements. -/
def optOf (P : OptParams K) (visited : List Z3) : OptState Z3 K :=
  visited.foldl (fun st L => (updateSolutions P.eq P.nsol P.dist st L).2) ⟨[], [], ∅⟩

/-- The invariant of the search started from `lo`. -/
structure SInv (P : OptParams K) (lo : Z3) (visited : List Z3) (opt : OptState Z3 K) (mem : Mem) :
    Prop where
  fold : opt = optOf P visited
  orbit : ∀ L ∈ visited, SameOrbit lo L
  cache : CacheOK P.dist mem

/-- What a new starting point fulfils. -/
structure NewStart (P : OptParams K) (lo : Z3) (source n : SLNode) (mem : Mem) : Prop where
  lt : P.dist n.elem < P.dist source.elem
  isMin : steepestDes P.dist n.elem = none
  orbit : SameOrbit lo n.elem
  low : LowOK P.dist (P.dist n.elem) mem

theorem probe_spec {P : OptParams K} {F : ℕ} {lo : Z3} {source t : SLNode} {depth : ℕ} {m m' : Mem}
    {o : Option SLNode} (hm : CacheOK P.dist m) (hlow : LowOK P.dist (P.dist source.elem) m)
    (ht : SameOrbit lo t.elem) (h : probe P F source depth m t = .ok (o, m')) :
    CacheOK P.dist m' ∧ (o = none → LowOK P.dist (P.dist source.elem) m') ∧
      ∀ n, o = some n → NewStart P lo source n m' := by
  unfold probe at h
  split_ifs at h with hd
  · obtain ⟨⟨n, m1⟩, h1, h2⟩ := bind_ok h
    obtain ⟨e, c, -, q⟩ := dfs_spec hm h1
    simp only [Run.ok.injEq, Prod.mk.injEq] at h2
    obtain ⟨rfl, rfl⟩ := h2
    refine ⟨c, ?_, ?_⟩
    · intro ho
      split_ifs at ho with hlt
      intro k r hr
      rcases q k r hr with rfl | hr
      · exact not_lt.mp hlt
      · exact hlow k r hr
    · intro n' ho
      split_ifs at ho with hlt
      simp only [Option.some.injEq] at ho
      subst ho
      refine ⟨hlt, e.2, orbit_trans ht (steps_orbit e.1), ?_⟩
      intro k r hr
      rcases q k r hr with rfl | hr
      · exact le_rfl
      · exact hlt.le.trans (hlow k r hr)
  · simp only [Run.ok.injEq, Prod.mk.injEq] at h
    obtain ⟨rfl, rfl⟩ := h
    exact ⟨hm, fun _ => hlow, by simp⟩

omit [IsStrictOrderedRing K] in
theorem optOf_append (P : OptParams K) (vs : List Z3) (L : Z3) :
    optOf P (vs ++ [L]) = (updateSolutions P.eq P.nsol P.dist (optOf P vs) L).2 := by
  simp [optOf, List.foldl_append]

theorem childLoop_spec {P : OptParams K} {F : ℕ} {lo : Z3} {source : SLNode} {depth : ℕ}
    {root : SLNode} (hroot : SameOrbit lo root.elem) : ∀ (l : List (Fin 12 × Z3)) (b b' : Sweep K)
    (o : Option SLNode) (visited : List Z3), (∀ p ∈ l, ∃ k, p.2 = root.elem * transv k) →
    SInv P lo visited b.opt b.mem → LowOK P.dist (P.dist source.elem) b.mem →
    (∀ r ∈ b.newRoots, SameOrbit lo r.elem) → (∀ L ∈ b.explored, L ∈ visited) →
    childLoop P F source depth root l b = .ok (b', o) →
    ∃ more, SInv P lo (visited ++ more) b'.opt b'.mem ∧
      (o = none → LowOK P.dist (P.dist source.elem) b'.mem ∧
        (∀ r ∈ b'.newRoots, SameOrbit lo r.elem) ∧ (∀ L ∈ b'.explored, L ∈ visited ++ more)) ∧
      ∀ n, o = some n → NewStart P lo source n b'.mem := by
  intro l
  induction l with
  | nil =>
    intro b b' o visited _ hinv hlow hnr hex h
    simp only [childLoop, Run.ok.injEq, Prod.mk.injEq] at h
    obtain ⟨rfl, rfl⟩ := h
    exact ⟨[], by simpa using hinv, fun _ => ⟨hlow, hnr, by simpa using hex⟩, by simp⟩
  | cons p l ih =>
    intro b b' o visited hl hinv hlow hnr hex h
    obtain ⟨gen, elem⟩ := p
    have hl' : ∀ p ∈ l, ∃ k, p.2 = root.elem * transv k := fun p hp => hl p (List.mem_cons_of_mem _ hp)
    obtain ⟨k, hk⟩ := hl (gen, elem) List.mem_cons_self
    simp only at hk
    have horb : SameOrbit lo elem := by
      rw [hk]; exact orbit_trans hroot (sameOrbit_transv _ k)
    simp only [childLoop] at h
    split_ifs at h with he
    · exact ih { b with mem := b.mem.consume root.id } b' o visited hl'
        ⟨hinv.fold, hinv.orbit, hinv.cache⟩ hlow hnr hex h
    · obtain ⟨⟨o1, m1⟩, h1, h2⟩ := bind_ok h
      obtain ⟨c1, l1, n1⟩ := probe_spec (lo := lo) (m := { b.mem.consume root.id with next := b.mem.next + 1 })
        hinv.cache hlow horb h1
      cases o1 with
      | some n =>
        simp only [Run.ok.injEq, Prod.mk.injEq] at h2
        obtain ⟨rfl, rfl⟩ := h2
        refine ⟨[], ?_, by simp, ?_⟩
        · exact ⟨by simpa using hinv.fold, by simpa using hinv.orbit, c1⟩
        · intro n' hn'
          exact n1 n' hn'
      | none =>
        simp only at h2
        obtain ⟨more, q1, q2, q3⟩ := ih ⟨insert elem b.explored,
          b.newRoots ++ [⟨b.mem.next, elem, some gen, root.parent⟩],
          (updateSolutions P.eq P.nsol P.dist b.opt elem).1 || b.updated,
          (updateSolutions P.eq P.nsol P.dist b.opt elem).2, m1⟩ b' o (visited ++ [elem]) hl'
          ⟨by rw [optOf_append, ← hinv.fold], by
            intro L hL
            rcases List.mem_append.mp hL with hL | hL
            · exact hinv.orbit L hL
            · rw [List.mem_singleton.mp hL]; exact horb, c1⟩ (l1 rfl)
          (by
            intro r hr
            rcases List.mem_append.mp hr with hr | hr
            · exact hnr r hr
            · rw [List.mem_singleton.mp hr]; exact horb)
          (by
            intro L hL
            rcases Finset.mem_insert.mp hL with rfl | hL
            · simp
            · exact List.mem_append_left _ (hex L hL)) h2
        exact ⟨elem :: more, by simpa using q1, by simpa using q2, q3⟩

omit [CommRing K] [LinearOrder K] [IsStrictOrderedRing K] in
theorem mem_childList {n : SLNode} {p : Fin 12 × Z3} (h : p ∈ n.childList) :
    ∃ k, p.2 = n.elem * transv k := by
  simp only [SLNode.childList, List.mem_map] at h
  obtain ⟨j, -, rfl⟩ := h
  exact ⟨j, rfl⟩

theorem rootLoop_spec {P : OptParams K} {F : ℕ} {lo : Z3} {source : SLNode} {depth : ℕ} :
    ∀ (l : List SLNode) (b b' : Sweep K)
    (o : Option SLNode) (visited : List Z3), (∀ r ∈ l, SameOrbit lo r.elem) →
    SInv P lo visited b.opt b.mem → LowOK P.dist (P.dist source.elem) b.mem →
    (∀ r ∈ b.newRoots, SameOrbit lo r.elem) → (∀ L ∈ b.explored, L ∈ visited) →
    rootLoop P F source depth l b = .ok (b', o) →
    ∃ more, SInv P lo (visited ++ more) b'.opt b'.mem ∧
      (o = none → LowOK P.dist (P.dist source.elem) b'.mem ∧
        (∀ r ∈ b'.newRoots, SameOrbit lo r.elem) ∧ (∀ L ∈ b'.explored, L ∈ visited ++ more)) ∧
      ∀ n, o = some n → NewStart P lo source n b'.mem := by
  intro l
  induction l with
  | nil =>
    intro b b' o visited _ hinv hlow hnr hex h
    simp only [rootLoop, Run.ok.injEq, Prod.mk.injEq] at h
    obtain ⟨rfl, rfl⟩ := h
    exact ⟨[], by simpa using hinv, fun _ => ⟨hlow, hnr, by simpa using hex⟩, by simp⟩
  | cons root l ih =>
    intro b b' o visited hl hinv hlow hnr hex h
    simp only [rootLoop] at h
    obtain ⟨⟨b1, o1⟩, h1, h2⟩ := bind_ok h
    obtain ⟨more1, q1, q2, q3⟩ := childLoop_spec (hl root List.mem_cons_self) _ b b1 o1 visited
      (fun p hp => mem_childList (List.mem_of_mem_drop hp)) hinv hlow hnr hex h1
    cases o1 with
    | some n =>
      simp only [Run.ok.injEq, Prod.mk.injEq] at h2
      obtain ⟨rfl, rfl⟩ := h2
      exact ⟨more1, q1, by simp, q3⟩
    | none =>
      simp only at h2
      obtain ⟨hlow1, hnr1, hex1⟩ := q2 rfl
      obtain ⟨more2, r1, r2, r3⟩ := ih b1 b' o (visited ++ more1)
        (fun r hr => hl r (List.mem_cons_of_mem _ hr)) q1 hlow1 hnr1 hex1 h2
      refine ⟨more1 ++ more2, by simpa using r1, by simpa using r2, r3⟩

theorem depthLoop_spec {P : OptParams K} {F : ℕ} {lo : Z3} {source : SLNode} :
    ∀ (g depth : ℕ) (updated : Bool) (explored : Finset Z3) (roots : List SLNode)
      (opt opt' : OptState Z3 K) (mem mem' : Mem) (o : Option SLNode) (visited : List Z3),
    (∀ r ∈ roots, SameOrbit lo r.elem) →
    SInv P lo visited opt mem → LowOK P.dist (P.dist source.elem) mem →
    (∀ L ∈ explored, L ∈ visited) →
    depthLoop P F source g depth updated explored roots opt mem = .ok (o, opt', mem') →
    ∃ more, SInv P lo (visited ++ more) opt' mem' ∧
      (o = none → LowOK P.dist (P.dist source.elem) mem') ∧
      ∀ n, o = some n → NewStart P lo source n mem' := by
  intro g
  induction g with
  | zero =>
    intro depth updated explored roots opt opt' mem mem' o visited hr hinv hlow hex h
    rw [depthLoop] at h
    split_ifs at h with hc
    simp only [Run.ok.injEq, Prod.mk.injEq] at h
    obtain ⟨rfl, rfl, rfl⟩ := h
    exact ⟨[], by simpa using hinv, fun _ => hlow, by simp⟩
  | succ g ih =>
    intro depth updated explored roots opt opt' mem mem' o visited hr hinv hlow hex h
    rw [depthLoop] at h
    split_ifs at h with hc
    · obtain ⟨⟨b1, o1⟩, h1, h2⟩ := bind_ok h
      obtain ⟨more1, q1, q2, q3⟩ := rootLoop_spec roots ⟨explored, [], false, opt, mem⟩ b1 o1 visited
        hr hinv hlow (by simp) hex h1
      cases o1 with
      | some n =>
        simp only [Run.ok.injEq, Prod.mk.injEq] at h2
        obtain ⟨rfl, rfl, rfl⟩ := h2
        exact ⟨more1, q1, by simp, q3⟩
      | none =>
        simp only at h2
        obtain ⟨hlow1, hnr1, hex1⟩ := q2 rfl
        obtain ⟨more2, r1, r2, r3⟩ := ih _ _ _ _ _ _ _ _ o (visited ++ more1) hnr1 q1 hlow1 hex1 h2
        exact ⟨more1 ++ more2, by simpa using r1, r2, r3⟩
    · simp only [Run.ok.injEq, Prod.mk.injEq] at h
      obtain ⟨rfl, rfl, rfl⟩ := h
      exact ⟨[], by simpa using hinv, fun _ => hlow, by simp⟩

theorem bfs_spec {P : OptParams K} {F : ℕ} {lo : Z3} {source : SLNode} {opt opt' : OptState Z3 K}
    {mem mem' : Mem} {o : Option SLNode} {visited : List Z3} (hs : SameOrbit lo source.elem)
    (hinv : SInv P lo visited opt mem) (hlow : LowOK P.dist (P.dist source.elem) mem)
    (h : bfs P F source opt mem = .ok (o, opt', mem')) :
    ∃ more, SInv P lo (visited ++ source.elem :: more) opt' mem' ∧
      (o = none → LowOK P.dist (P.dist source.elem) mem') ∧
      ∀ n, o = some n → NewStart P lo source n mem' := by
  obtain ⟨more, h1, h2, h3⟩ := depthLoop_spec _ _ _ _ _ _ _ _ _ o (visited ++ [source.elem])
    (lo := lo) (by
      intro r hr
      rw [List.mem_singleton.mp hr]; exact hs)
    ⟨by rw [optOf_append, ← hinv.fold], by
      intro L hL
      rcases List.mem_append.mp hL with hL | hL
      · exact hinv.orbit L hL
      · rw [List.mem_singleton.mp hL]; exact hs, hinv.cache⟩ hlow
    (by
      intro L hL
      rw [Finset.mem_singleton.mp hL]; simp) h
  exact ⟨more, by simpa using h1, h2, h3⟩

/-! ### the loop over starting points -/

/-- A starting point of the outer loop: the first one, or one found by `bfs`. -/
def StartOK (P : OptParams K) (lo : Z3) (start : SLNode) (mem : Mem) : Prop :=
  SameOrbit lo start.elem ∧ ∀ M, EndsAt P.dist start.elem M → LowOK P.dist (P.dist M) mem

theorem startOK_of_new {P : OptParams K} {lo : Z3} {source n : SLNode} {mem : Mem}
    (h : NewStart P lo source n mem) : StartOK P lo n mem := by
  refine ⟨h.orbit, fun M hM => ?_⟩
  have : n.elem = M := EndsAt.unique ⟨.refl, h.isMin⟩ hM
  rw [← this]
  exact h.low

theorem optLoop_ok {P : OptParams K} (hfin : ∀ c, {L | P.dist L < c}.Finite) {lo : Z3} :
    ∀ (c : ℕ) (start : SLNode) (opt : OptState Z3 K) (mem : Mem) (visited : List Z3),
    {L | P.dist L < P.dist start.elem}.ncard ≤ c →
    mem.counter.isSome → SInv P lo visited opt mem → StartOK P lo start mem →
    ∃ r N, ∀ f F, N ≤ f → N ≤ F → optLoop P F f start opt mem = .ok r := by
  intro c
  induction c using Nat.strong_induction_on with
  | _ c ih =>
  intro start opt mem visited hc hcnt hinv hst
  obtain ⟨⟨n, m1⟩, N1, h1⟩ := dfs_ok hfin hcnt start
  obtain ⟨⟨o, opt', mem'⟩, N2, h2, hc2⟩ := bfs_ok hfin n opt (dfs_counter (h1 N1 le_rfl) hcnt)
  obtain ⟨e1, e2, -, e4⟩ := dfs_spec hinv.cache (h1 N1 le_rfl)
  cases o with
  | none =>
    refine ⟨(opt', mem'), max (max N1 N2) 1, fun f F hf hF => ?_⟩
    obtain ⟨f, rfl⟩ := Nat.exists_eq_succ_of_ne_zero (by omega : f ≠ 0)
    simp only [optLoop]
    rw [h1 F (by omega)]
    simp only [Run.bind]
    rw [h2 F (by omega)]
  | some n' =>
    have hlow : LowOK P.dist (P.dist n.elem) m1 := by
      intro k q hq
      rcases e4 k q hq with rfl | hq
      · exact le_rfl
      · exact hst.2 _ e1 k q hq
    obtain ⟨more, s1, s2, s3⟩ := bfs_spec (orbit_trans hst.1 (steps_orbit e1.1))
      ⟨hinv.fold, hinv.orbit, e2⟩ hlow (h2 N2 le_rfl)
    have hn := s3 n' rfl
    have hlt : P.dist n'.elem < P.dist start.elem := lt_of_lt_of_le hn.lt (steps_le e1.1)
    have hcard : {L | P.dist L < P.dist n'.elem}.ncard < {L | P.dist L < P.dist start.elem}.ncard := by
      apply Set.ncard_lt_ncard _ (hfin _)
      refine ⟨fun L hL => lt_trans hL hlt, fun hss => ?_⟩
      have : n'.elem ∈ {L | P.dist L < P.dist n'.elem} := hss hlt
      exact lt_irrefl _ this
    obtain ⟨r, N3, h3⟩ := ih _ (lt_of_lt_of_le hcard hc) n' opt' mem' _ le_rfl hc2 s1 (startOK_of_new hn)
    refine ⟨r, max (max N1 N2) N3 + 1, fun f F hf hF => ?_⟩
    obtain ⟨f, rfl⟩ := Nat.exists_eq_succ_of_ne_zero (by omega : f ≠ 0)
    simp only [optLoop]
    rw [h1 F (by omega)]
    simp only [Run.bind]
    rw [h2 F (by omega)]
    exact h3 f F (by omega) (by omega)

theorem optLoop_spec {P : OptParams K} {F : ℕ} {lo : Z3} :
    ∀ (f : ℕ) (start : SLNode) (opt opt' : OptState Z3 K) (mem mem' : Mem) (visited : List Z3),
    SInv P lo visited opt mem → StartOK P lo start mem →
    optLoop P F f start opt mem = .ok (opt', mem') →
    ∃ more, SInv P lo (visited ++ more) opt' mem' ∧
      (∃ s, more.head? = some s ∧ P.dist s ≤ P.dist start.elem) ∧
      ∃ s ∈ more, steepestDes P.dist s = none ∧ P.dist s ≤ P.dist start.elem ∧
        LowOK P.dist (P.dist s) mem' := by
  intro f
  induction f with
  | zero => intro start opt opt' mem mem' visited hinv hst h; simp [optLoop] at h
  | succ f ih =>
    intro start opt opt' mem mem' visited hinv hst h
    simp only [optLoop] at h
    obtain ⟨⟨n, m1⟩, h1, h⟩ := bind_ok h
    obtain ⟨⟨o, opt1, mem1⟩, h2, h⟩ := bind_ok h
    obtain ⟨e1, e2, -, e4⟩ := dfs_spec hinv.cache h1
    have hlow : LowOK P.dist (P.dist n.elem) m1 := by
      intro k q hq
      rcases e4 k q hq with rfl | hq
      · exact le_rfl
      · exact hst.2 _ e1 k q hq
    obtain ⟨more, s1, s2, s3⟩ := bfs_spec (orbit_trans hst.1 (steps_orbit e1.1))
      ⟨hinv.fold, hinv.orbit, e2⟩ hlow h2
    cases o with
    | none =>
      simp only [Run.ok.injEq, Prod.mk.injEq] at h
      obtain ⟨rfl, rfl⟩ := h
      exact ⟨_, s1, ⟨n.elem, rfl, steps_le e1.1⟩, n.elem, by simp, e1.2, steps_le e1.1, s2 rfl⟩
    | some n' =>
      simp only at h
      have hn := s3 n' rfl
      obtain ⟨more2, t1, -, s, ts, t2, t3, t4⟩ := ih n' opt1 opt' mem1 mem' _ s1 (startOK_of_new hn) h
      refine ⟨n.elem :: more ++ more2, by simpa using t1, ⟨n.elem, rfl, steps_le e1.1⟩, s, by simp [ts],
        t2, ?_, t4⟩
      exact t3.trans (hn.lt.le.trans (steps_le e1.1))

/-- The core procedure ends. -/
theorem optCore_ok {P : OptParams K} (hfin : ∀ c, {L | P.dist L < c}.Finite) (lo : Z3) :
    ∃ r N, ∀ F, N ≤ F → optCore P F lo = .ok r := by
  obtain ⟨r, N, h⟩ := optLoop_ok hfin (lo := lo) _ ⟨0, lo, none, none⟩ ⟨[], [], ∅⟩
    ⟨1, some 0, fun _ => none, fun _ => 0⟩ [] le_rfl rfl
    ⟨rfl, by simp, by intro k n h; simp at h⟩ ⟨sameOrbit_refl _, fun M _ k n h => by simp at h⟩
  exact ⟨r, N, fun F hF => h F F hF hF⟩

theorem optCore_spec {P : OptParams K} {F : ℕ} {lo : Z3} {opt' : OptState Z3 K} {mem' : Mem}
    (h : optCore P F lo = .ok (opt', mem')) :
    ∃ visited, SInv P lo visited opt' mem' ∧
      (∃ s, visited.head? = some s ∧ P.dist s ≤ P.dist lo) ∧
      ∃ s ∈ visited, steepestDes P.dist s = none ∧ P.dist s ≤ P.dist lo ∧
        LowOK P.dist (P.dist s) mem' := by
  obtain ⟨more, h1, h2⟩ := optLoop_spec _ _ _ _ _ _ [] (lo := lo)
    ⟨rfl, by simp, by intro k n h; simp at h⟩ ⟨sameOrbit_refl _, fun M _ k n h => by simp at h⟩ h
  exact ⟨more, by simpa using h1, h2⟩

end Verif.Lemmas
