import Verif.Model.Bravais

/-!
# Model of `structrans/marttrans/orientation_relationship.py`

The list of indices is a vector or a list of vectors (`MIdx`); arrays of other ranks are outside the
model (`Err.notImplemented`).  `la.inv` raises for a singular matrix.
-/

namespace Verif.Model

open Matrix

/-- The two-dimensional array of lines 12-15 and 31-33, together with the check of `dot` that the
length of the vectors fits. -/
def asRows (d : ℕ) : MIdx → Except Err (Σ m : ℕ, Matrix (Fin m) (Fin d) ℝ)
  | .other => .error .notImplemented
  | @MIdx.vec w v =>
    if h : w = d then .ok ⟨1, fun _ j => v (Fin.cast h.symm j)⟩ else .error .valueError
  | @MIdx.mat m w M =>
    if h : w = d then .ok ⟨m, fun i j => M i (Fin.cast h.symm j)⟩ else .error .valueError

open Classical in
/-- `orientation_relationship.py` lines 3-21, `direc_trans`. -/
noncomputable def direcTrans {d : ℕ} (L : Matrix (Fin d) (Fin d) ℝ) (n : MIdx) : Except Err MIdx :=
  if L.det = 0 then .error .linAlgError
  else match asRows d n with
    | .error e => .error e
    | .ok ⟨m, I⟩ => .ok (unpackIdx m (L⁻¹ * Iᵀ)ᵀ)

/-- `orientation_relationship.py` lines 23-37, `plane_trans`. -/
noncomputable def planeTrans {d : ℕ} (L : Matrix (Fin d) (Fin d) ℝ) (n : MIdx) : Except Err MIdx :=
  match asRows d n with
  | .error e => .error e
  | .ok ⟨m, I⟩ => .ok (unpackIdx m (Lᵀ * Iᵀ)ᵀ)

end Verif.Model
