import Verif.Lemmas.Fuel
import Verif.Props.LatCorHnf

/-!
# Properties C41, C45 and C85: a run that ends has one result

The theorems on `lat_opt` and `lat_cor_hnf` say what a call returns after enough steps.  Here: a call does not
return anything else after fewer steps, for all arguments and all pools.
-/

namespace Verif.Props

open Matrix Verif.Model Verif.Spec Verif.Lemmas

/-- **C45**, addition: a call of `lat_opt` that ends has one outcome, a result or an exception. -/
theorem C45_any_run (t : Tol) (eig : Matrix (Fin 3) (Fin 3) ℝ → Fin 3 → ℝ) (E1 E2r : Matrix (Fin 3) (Fin 3) ℝ)
    (kw : OptKw) (F F' : ℕ) (h : latOpt t eig F E1 E2r kw ≠ .out) (h' : latOpt t eig F' E1 E2r kw ≠ .out) :
    latOpt t eig F E1 E2r kw = latOpt t eig F' E1 E2r kw := by
  rcases le_total F F' with hF | hF
  · exact (latOpt_extends t eig hF E1 E2r kw).resolve_left h
  · exact ((latOpt_extends t eig hF E1 E2r kw).resolve_left h').symm

/-- **C41**, addition: whenever the polling of a pool with a worker ends, the result of every sublattice has
been merged, and once. -/
theorem C41_merge_order (F : ℕ) (hnfs order : List Z3) (size : ℕ) (hs : 1 ≤ size) (ready : Z3 → ℕ → Bool)
    (h : mergeOrder F hnfs (.pool size ready) = some order) : order.Perm hnfs := by
  simp only [mergeOrder] at h
  split at h
  · rename_i hq
    cases h
    exact pollRun_done hs ready hnfs F (List.length_eq_zero_iff.mp hq)
  · cases h

/-- Two sublattices, one worker that needs a second poll for each of them: the run of five polls has ended. -/
example : ∃ order, mergeOrder 5 [1, Matrix.diagonal ![1, 1, 2]] (.pool 1 fun _ k => k % 2 == 1) = some order :=
  ⟨_, rfl⟩

/-- **C85**, addition: a call of `lat_cor_hnf` that ends has one outcome, a list of solutions or an exception,
for any arguments and any pool of processes. -/
theorem C85_any_run (t : Tol) (py : Py) (o : HnfOutside) (kw : HnfKw) (pool : HnfPool) (brava : ℤ) (pa : PArg)
    (bravm : ℤ) (pm : PArg) (F F' : ℕ) (h : latCorHnf t py o kw pool F brava pa bravm pm ≠ .out)
    (h' : latCorHnf t py o kw pool F' brava pa bravm pm ≠ .out) :
    latCorHnf t py o kw pool F brava pa bravm pm = latCorHnf t py o kw pool F' brava pa bravm pm := by
  rcases le_total F F' with hF | hF
  · exact (latCorHnf_extends t py o kw pool hF brava pa bravm pm).resolve_left h
  · exact ((latCorHnf_extends t py o kw pool hF brava pa bravm pm).resolve_left h').symm

end Verif.Props
