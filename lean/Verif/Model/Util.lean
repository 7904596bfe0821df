import Verif.Model.Basic

/-!
# Model of `structrans/util/utils.py` (integer part)
-/

namespace Verif.Model

/-- `utils.py` lines 31-44, `divisors`: the list comprehension over
`xrange(int(np.floor(n / 2)))` (empty for `n < 2`) followed by `append(n)`. -/
def divisors (n : Int) : List Int :=
  ((List.range (n / 2).toNat).map (fun (i : Nat) => (i : Int) + 1)).filter (fun k => n % k == 0) ++ [n]

end Verif.Model
