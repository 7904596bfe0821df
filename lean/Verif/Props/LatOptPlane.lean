import Verif.Model.LatOptPlane
import Verif.Props.LatOpt

/-!
# Property C45 for plane lattices
-/

namespace Verif.Props

open Matrix Verif.Model Verif.Spec Verif.Lemmas

/-- **C45** fails for plane lattices: for all bases and all keywords `lat_opt` raises, whatever comes after the
first descent. -/
theorem C45_plane_fails {α : Type} (t : Tol) (rest : List ℝ → Run α) (E1 E2 : Matrix (Fin 2) (Fin 2) ℝ)
    (kw : OptKw2) : ∃ e, latOpt2 t rest E1 E2 kw = .err e := by
  have hd : ∀ lo : Matrix (Fin 2) (Fin 2) ℤ,
      neighborDists (fun _ => (0 : ℝ)) lo (List.finRange 12) = .error .valueError := by
    intro lo
    rfl
  unfold latOpt2
  simp only [hd]
  repeat' first | exact ⟨_, rfl⟩ | split

/-- In three dimensions the same products exist. -/
example (lo : Z3) : ∃ ds, neighborDists (fun _ => (0 : ℝ)) lo (List.finRange 12) = .ok ds := ⟨_, rfl⟩

end Verif.Props
