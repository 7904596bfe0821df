import Mathlib.Data.Finset.Card
import Mathlib.Order.Lattice
import Mathlib.Data.Finset.Image

/-!
# Specification: the best `n` classes, ties included

Nothing in this file refers to the model of the code.
-/

namespace Verif.Spec

/-- Among the scored items `S` (item, score), keep those with fewer than `n` strictly better items. -/
def topN {β D : Type} [DecidableEq β] [LinearOrder D] (n : ℕ) (S : Finset (β × D)) :
    Finset (β × D) :=
  S.filter (fun x => (S.filter (fun y => y.2 < x.2)).card < n)

/-- A symmetry on candidates: every candidate `c` has a finite class `cls c` of equivalent candidates,
classes partition the candidates, and distance and admissibility are class functions. -/
structure IsSymmetry {α D : Type} (cls : α → Finset α) (dist : α → D) (adm : α → Prop) : Prop where
  self_mem : ∀ c, c ∈ cls c
  eq_of_mem : ∀ {c x}, x ∈ cls c → cls x = cls c
  dist_eq : ∀ {c x}, x ∈ cls c → dist x = dist c
  adm_iff : ∀ {c x}, x ∈ cls c → (adm x ↔ adm c)

/-- The scored classes of the admissible candidates in a list. -/
def seenClasses {α D : Type} [DecidableEq α] [LinearOrder D] (cls : α → Finset α) (dist : α → D)
    (adm : α → Prop) [DecidablePred adm] (cs : List α) : Finset (Finset α × D) :=
  ((cs.filter (fun c => decide (adm c))).map (fun c => (cls c, dist c))).toFinset

end Verif.Spec
