import Verif.Model.LatOpt

/-!
# Model of `lat_opt` for plane lattices, `structrans/marttrans/lat_cor/lat_opt.py` and `slnode.py`

The documentation of `lat_cor` offers `dim=2`.  The transvections `SLNode._T` are 3 x 3 arrays whatever
`SLNode.dim` is.
-/

namespace Verif.Model

open Matrix

/-- `A.dot(B)` for integer arrays of two dimensions: numpy compares the number of columns of `A` with the
number of rows of `B`.  `slnode.py` line 92. -/
def npDot {p q r s : ℕ} (A : Matrix (Fin p) (Fin q) ℤ) (B : Matrix (Fin r) (Fin s) ℤ) :
    Except Err (Matrix (Fin p) (Fin s) ℤ) :=
  if h : q = r then .ok (A * (h ▸ B)) else .error .valueError

/-- `slnode.py` lines 90-93, `calc_neighbor_dist`: the distances of the neighbours, computed one after the
other; the first exception ends the computation. -/
def neighborDists {n : ℕ} {K : Type} (dist : Matrix (Fin n) (Fin 3) ℤ → K) (elem : Matrix (Fin n) (Fin n) ℤ) :
    List (Fin 12) → Except Err (List K)
  | [] => .ok []
  | k :: ks =>
    match npDot elem (transv k) with
    | .error e => .error e
    | .ok c =>
      match neighborDists dist elem ks with
      | .error e => .error e
      | .ok ds => .ok (dist c :: ds)

/-- The keyword arguments for plane lattices.  `lat_opt.py` lines 53-58, 86 and 102. -/
structure OptKw2 where
  nsol : Option ℕ
  dist : Option String
  solg2 : Option (List (Matrix (Fin 2) (Fin 2) ℤ))

/-- `lat_opt.py` lines 20-265 for 2 x 2 arrays, up to the distances of the neighbours in the first descent
(line 232, `dfs.py` line 30, `slnode.py` line 99).  `rest` stands for what would follow. -/
noncomputable def latOpt2 {α : Type} (t : Tol) (rest : List ℝ → Run α)
    (E1 E2r : Matrix (Fin 2) (Fin 2) ℝ) (kw : OptKw2) : Run α :=
  open Classical in
  if E1.det = 0 then .err .linAlgError
  else
    match lll E1 with
    | .pair _ _ => .err .valueError
    | .base Er1 =>
      let lo := rintMat (E1⁻¹ * Er1)
      let name := kw.dist.getD "Cauchy"
      if (name = "strain" ∨ name = "Cauchy") ∧ E2r.det = 0 then .err .linAlgError
      else
        match Lat.getspeciallatticegroup t ⟨2, E1⟩ with
        | .error e => .err e
        | .ok _ =>
          let g2 : Except Err (List (Matrix (Fin 2) (Fin 2) ℤ)) :=
            match kw.solg2 with
            | some g => .ok g
            | none => if E2r.det = 0 then .error .valueError
                else Lat.getspeciallatticegroup t ⟨2, E2r⟩
          match g2 with
          | .error e => .err e
          | .ok _ =>
            if name = "Ericksen" ∨ name = "strain" ∨ name = "Cauchy" then
              match neighborDists (fun _ => (0 : ℝ)) lo (List.finRange 12) with
              | .error e => .err e
              | .ok ds => rest ds
            else .err .unboundLocalError

end Verif.Model
