import Verif.Model.Rotation

/-!
# Model of `stereo_proj` (`structrans/crystallography/stereogram.py`)

`rnd x` is Python's `round(x, 6)`: some nearest multiple of `1e-6` (the interpreters differ in how ties
are broken, `IsRound`).  `none` is an array of NaNs.
-/

namespace Verif.Model

open Matrix

/-- What `round(x, 6)` guarantees under both interpreters.  `stereogram.py` line 35. -/
def IsRound (rnd : ℝ → ℝ) : Prop :=
  ∀ x, ∃ k : ℤ, rnd x = k * (1 / 1000000) ∧ |x - k * (1 / 1000000)| ≤ 5 / 10000000

/-- `stereogram.py` lines 16-23: the two directions of the plane of projection. -/
noncomputable def stereoFrame (z : Fin 3 → ℝ) : (Fin 3 → ℝ) × (Fin 3 → ℝ) :=
  if 1 / 1000000 < z 0 ^ 2 + z 1 ^ 2 then
    let z1 : Fin 3 → ℝ := ![z 1, -z 0, 0]
    let z1 := (vnorm z1)⁻¹ • z1
    let z2 := z ⨯₃ z1
    (z1, (vnorm z2)⁻¹ • z2)
  else (![1, 0, 0], ![0, 1, 0])

/-- `stereogram.py` lines 5-45, `stereo_proj`.  `math.sqrt` of a negative number raises. -/
noncomputable def stereoProj (rnd : ℝ → ℝ) (p z : Fin 3 → ℝ) : Except Err (Option (Fin 2 → ℝ)) :=
  let R := vnorm z
  let zhat := R⁻¹ • z
  let Q : Matrix (Fin 3) (Fin 3) ℝ := -1 + (2 : ℝ) • outer zhat zhat
  let f := stereoFrame z
  if 1 / 1000000 < vnorm p then
    if R = 0 then .ok none
    else
      let phat := if 1 / 1000000 < p ⬝ᵥ z then (vnorm p)⁻¹ • p else (vnorm p)⁻¹ • (-(Q *ᵥ p))
      let c := phat ⬝ᵥ z / R
      let t := rnd (1 - c ^ 2)
      if t < 0 then .error .valueError
      else
        let s := Real.sqrt t
        if s < 1 / 1000000 then .ok (some ![0, 0])
        else .ok (some ![R * Real.sqrt ((1 - c) / (1 + c)) * (phat ⬝ᵥ f.1) / s,
          R * Real.sqrt ((1 - c) / (1 + c)) * (phat ⬝ᵥ f.2) / s])
  else .ok (some ![0, 0])

end Verif.Model
