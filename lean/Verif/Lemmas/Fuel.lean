import Verif.Model.LatCorHnf
import Verif.Lemmas.LatCor

/-!
# More fuel does not change a finished run
-/

namespace Verif.Lemmas

open Matrix Verif.Model

/-- `b` continues the run `a`: it is the same, unless `a` was not finished. -/
def Extends {α : Type} (a b : Run α) : Prop := a = .out ∨ a = b

theorem Extends.refl {α : Type} (a : Run α) : Extends a a := .inr rfl

theorem Extends.ok {α : Type} {a b : Run α} (h : Extends a b) {x : α} (hx : a = .ok x) : b = .ok x := by
  rcases h with h | h
  · rw [h] at hx; cases hx
  · rw [← h, hx]

theorem Extends.err {α : Type} {a b : Run α} (h : Extends a b) {e : Err} (he : a = .err e) : b = .err e := by
  rcases h with h | h
  · rw [h] at he; cases he
  · rw [← h, he]

theorem Extends.bind {α β : Type} {a a' : Run α} {f f' : α → Run β} (h : Extends a a')
    (hf : ∀ x, Extends (f x) (f' x)) : Extends (a.bind f) (a'.bind f') := by
  rcases h with h | h
  · left; rw [h]; rfl
  · subst h
    cases a with
    | ok x => exact hf x
    | err e => exact .refl _
    | out => exact .refl _

variable {K : Type} [CommRing K] [LinearOrder K]

theorem descend_extends (dist : Z3 → K) {F F' : ℕ} (h : F ≤ F') (next : ℕ) (node : SLNode) (seen : List Z3) :
    Extends (descend dist F next node seen) (descend dist F' next node seen) := by
  induction F generalizing F' next node seen with
  | zero => exact .inl rfl
  | succ F ih =>
    obtain ⟨F', rfl⟩ : ∃ G, F' = G + 1 := ⟨F' - 1, by omega⟩
    unfold descend
    cases steepestDes dist node.elem with
    | none => exact .refl _
    | some L => exact ih (by omega) _ _ _

theorem dfs_extends (dist : Z3 → K) {F F' : ℕ} (h : F ≤ F') (m : Mem) (start : SLNode) :
    Extends (dfs dist F m start) (dfs dist F' m start) := by
  unfold dfs
  cases m.cache start.elem with
  | some n => exact .refl _
  | none => exact (descend_extends dist h _ _ _).bind fun _ => .refl _

theorem probe_extends (P : OptParams K) {F F' : ℕ} (h : F ≤ F') (source : SLNode) (depth : ℕ) (m : Mem)
    (t : SLNode) : Extends (probe P F source depth m t) (probe P F' source depth m t) := by
  unfold probe
  split
  · exact (dfs_extends P.dist h _ _).bind fun _ => .refl _
  · exact .refl _

theorem childLoop_extends (P : OptParams K) {F F' : ℕ} (h : F ≤ F') (source : SLNode) (depth : ℕ)
    (root : SLNode) (cs : List (Fin 12 × Z3)) (b : Sweep K) :
    Extends (childLoop P F source depth root cs b) (childLoop P F' source depth root cs b) := by
  induction cs generalizing b with
  | nil => exact .refl _
  | cons c cs ih =>
    obtain ⟨gen, elem⟩ := c
    unfold childLoop
    split
    · exact ih _
    · refine (probe_extends P h _ _ _ _).bind fun r => ?_
      cases r.1 with
      | some n => exact .refl _
      | none => exact ih _

theorem rootLoop_extends (P : OptParams K) {F F' : ℕ} (h : F ≤ F') (source : SLNode) (depth : ℕ)
    (roots : List SLNode) (b : Sweep K) :
    Extends (rootLoop P F source depth roots b) (rootLoop P F' source depth roots b) := by
  induction roots generalizing b with
  | nil => exact .refl _
  | cons root roots ih =>
    unfold rootLoop
    refine (childLoop_extends P h _ _ _ _ _).bind fun r => ?_
    cases r.2 with
    | some n => exact .refl _
    | none => exact ih _

theorem depthLoop_extends (P : OptParams K) {F F' : ℕ} (h : F ≤ F') (source : SLNode) (g depth : ℕ)
    (updated : Bool) (explored : Finset Z3) (roots : List SLNode) (opt : OptState Z3 K) (mem : Mem) :
    Extends (depthLoop P F source g depth updated explored roots opt mem)
      (depthLoop P F' source g depth updated explored roots opt mem) := by
  induction g generalizing depth updated explored roots opt mem with
  | zero => unfold depthLoop; exact .refl _
  | succ g ih =>
    unfold depthLoop
    split
    · refine (rootLoop_extends P h _ _ _ _).bind fun r => ?_
      cases r.2 with
      | some n => exact .refl _
      | none => exact ih _ _ _ _ _ _
    · exact .refl _

theorem optLoop_extends (P : OptParams K) {F F' f f' : ℕ} (h : F ≤ F') (hf : f ≤ f') (start : SLNode)
    (opt : OptState Z3 K) (mem : Mem) :
    Extends (optLoop P F f start opt mem) (optLoop P F' f' start opt mem) := by
  induction f generalizing f' start opt mem with
  | zero => exact .inl rfl
  | succ f ih =>
    obtain ⟨f', rfl⟩ : ∃ G, f' = G + 1 := ⟨f' - 1, by omega⟩
    unfold optLoop
    refine (dfs_extends P.dist h _ _).bind fun r => ?_
    refine (depthLoop_extends P h _ _ _ _ _ _ _ _).bind fun q => ?_
    cases q.1 with
    | none => exact .refl _
    | some n => exact ih (by omega) _ _ _

theorem latOpt_extends (t : Tol) (eig : Matrix (Fin 3) (Fin 3) ℝ → Fin 3 → ℝ) {F F' : ℕ} (h : F ≤ F')
    (E1 E2r : Matrix (Fin 3) (Fin 3) ℝ) (kw : OptKw) :
    Extends (latOpt t eig F E1 E2r kw) (latOpt t eig F' E1 E2r kw) := by
  unfold latOpt
  repeat' (first | exact .refl _ | split | (dsimp only; split))
  all_goals exact (optLoop_extends _ h h _ _ _).bind fun _ => .refl _

theorem searchAll_extends (t : Tol) (o : HnfOutside) {F F' : ℕ} (h : F ≤ F')
    (EA EM : Matrix (Fin 3) (Fin 3) ℝ) (opts : OptKw) (LGA LGM : List Z3) (nsol : ℕ) (hs : List Z3)
    (st : List (Sol Z3 ℝ) × Finset Z3) :
    Extends (searchAll t o F EA EM opts LGA LGM nsol hs st) (searchAll t o F' EA EM opts LGA LGM nsol hs st) := by
  induction hs generalizing st with
  | nil => exact .refl _
  | cons a hs ih =>
    unfold searchAll
    refine Extends.bind ?_ fun new => ih _
    exact (latOpt_extends t o.eig h _ _ _).bind fun _ => .refl _

theorem pollRun_kept {τ : Type} {size : ℕ} {ready : τ → ℕ → Bool} {tasks : List τ} {k k' : ℕ} (h : k ≤ k')
    (hq : (pollRun size ready tasks k).queue = []) :
    pollRun size ready tasks k' = pollRun size ready tasks k := by
  induction k', h using Nat.le_induction with
  | base => rfl
  | succ k' _ ih =>
    rw [pollRun_succ, ih, pollStep_nil hq]

theorem mergeOrder_kept {F F' : ℕ} (h : F ≤ F') {hnfs order : List Z3} {pool : HnfPool}
    (ho : mergeOrder F hnfs pool = some order) : mergeOrder F' hnfs pool = some order := by
  cases pool with
  | serial => exact ho
  | pool size ready =>
    have hq : (pollRun size ready hnfs F).queue = [] := by
      simp only [mergeOrder] at ho
      by_contra hc
      rw [if_neg (by simpa using hc)] at ho
      cases ho
    simpa only [mergeOrder, pollRun_kept h hq] using ho

theorem latCorHnf_extends (t : Tol) (py : Py) (o : HnfOutside) (kw : HnfKw) (pool : HnfPool) {F F' : ℕ}
    (h : F ≤ F') (brava : ℤ) (pa : PArg) (bravm : ℤ) (pm : PArg) :
    Extends (latCorHnf t py o kw pool F brava pa bravm pm) (latCorHnf t py o kw pool F' brava pa bravm pm) := by
  unfold latCorHnf
  refine (Extends.refl _).bind fun LA => (Extends.refl _).bind fun LM => ?_
  repeat' (first | exact .refl _ | split)
  unfold latCorHnfCore
  refine (Extends.refl _).bind fun LGA => (Extends.refl _).bind fun LGM => (Extends.refl _).bind fun all =>
    (Extends.refl _).bind fun hnfs => ?_
  cases ho : mergeOrder F hnfs pool with
  | none => exact .inl rfl
  | some order =>
    rw [mergeOrder_kept h ho]
    exact (searchAll_extends t o h _ _ _ _ _ _ _ _).bind fun _ => .refl _

end Verif.Lemmas
