/-
What C65 and C71 talk about: which calls are accessors, which of them promise a copy, which
histories only overwrite arrays that such accessors returned, and what an accessor shows.
-/
import Verif.Model.Heap

namespace Verif.Heap

variable {V : Type}

/-- The accessors of C65: `base()`, `matrices()`, `getU()`, `Ulist()`, `Ui()`, `Uj()`. -/
def CopyAccessor : Call V → Prop
  | .base _ | .matrices _ | .getU _ | .Ulist _ | .Ui _ | .Uj _ => True
  | _ => False

instance : DecidablePred (CopyAccessor (V := V)) := fun a => by
  cases a <;> simp only [CopyAccessor] <;> infer_instance

/-- The object an accessor is asked of; `none` for calls that are not accessors. -/
def accessorOf : Call V → Option ℕ
  | .base o | .matrices o | .getU o | .Ulist o | .Ui o | .Uj o => some o
  | .laueGroup o | .getvariants o | .getvariant o _ | .latParam o | .convTrans o => some o
  | _ => none

/-- The addresses of the arrays a copying accessor has just returned. -/
def handed (a : Call V) (res : Res) : List ℕ :=
  if CopyAccessor a then
    match res with
    | .arr r => [r.addr]
    | _ => []
  else []

/-- Every in-place assignment of the history is to an array that a copying accessor returned earlier
in the same history (`H` : the ones returned so far). All other calls are free. -/
def OnlyCopiesWritten (c : Comp V) : State V → List ℕ → List (Call V) → Prop
  | _, _, [] => True
  | s, H, a :: l =>
    (match a with
     | .write r _ => r.addr ∈ H
     | _ => True) ∧
    OnlyCopiesWritten c (step c s a).1 (H ++ handed a (step c s a).2) l

/-- What the client sees when it makes the call now: the contents of the returned array, the matrices
of the returned group, or the exception. -/
def shown (c : Comp V) (s : State V) (a : Call V) : Except Err (List V) :=
  match step c s a with
  | (s', .arr r) => .ok (read s'.mem r)
  | (s', .obj g) =>
    match s'.objs[g]? with
    | some (.group m) => .ok (read s'.mem m)
    | _ => .error .typeError
  | (_, .none) => .error .typeError
  | (_, .raise e) => .error e

end Verif.Heap
