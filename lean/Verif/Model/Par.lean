import Mathlib.Data.List.Basic
import Verif.Model.SolList

/-!
# Model of the polling loop of `structrans/marttrans/lat_cor/main_hnf.py` lines 234-262

Tasks (HNF numbers) are submitted asynchronously; which futures are ready at which poll is decided by
the environment (`ready task time`).
-/

namespace Verif.Model

/-- The variables of the loop: `rest` are the arguments not yet taken from the generator `args` (including
`nextarg`), `queue` is `async_results`, `merged` the tasks merged so far, in order.  `main_hnf.py` lines
240-247. -/
structure PollState (τ : Type) where
  rest : List τ
  queue : List τ
  merged : List τ
  deriving DecidableEq, Repr

/-- `main_hnf.py` lines 243-247: submit tasks until the pool is full or the arguments are used up. -/
def pollInit {τ : Type} (poolsize : ℕ) : List τ → List τ → PollState τ
  | [], queue => ⟨[], queue, []⟩
  | t :: rest, queue =>
    if queue.length < poolsize then pollInit poolsize rest (queue ++ [t])
    else ⟨t :: rest, queue, []⟩

/-- `main_hnf.py` lines 250-262: one iteration of the `while` loop, at poll number `k`. -/
def pollStep {τ : Type} (ready : τ → ℕ → Bool) (k : ℕ) (st : PollState τ) : PollState τ :=
  match st.queue with
  | [] => st
  | t :: queue =>
    if ready t k then
      match st.rest with
      | [] => ⟨[], queue, st.merged ++ [t]⟩
      | u :: rest => ⟨rest, queue ++ [u], st.merged ++ [t]⟩
    else ⟨st.rest, queue ++ [t], st.merged⟩

/-- The first `k` polls.  `main_hnf.py` lines 250-262. -/
def pollRun {τ : Type} (poolsize : ℕ) (ready : τ → ℕ → Bool) (tasks : List τ) : ℕ → PollState τ
  | 0 => pollInit poolsize tasks []
  | k + 1 => pollStep ready k (pollRun poolsize ready tasks k)

end Verif.Model
