import Mathlib.Algebra.Order.Field.Rat

/-!
# The search for a minimum of a function of one number (`sampo/utilities/base_opt.py`)

Numbers are rational here, floats in the code: rounding is not modelled.
-/

namespace Sampo.Search

/-- The loop of `dichotomy_float` (base_opt.py:13-23).  `none`: it does not end within the fuel. -/
def dichotomyFloat (f : ℚ → ℚ) (eps : ℚ) : Nat → ℚ → ℚ → Option ℚ
  | 0, _, _ => none
  | n + 1, down, up =>
    if up - down > eps then
      let delta := eps / 5
      let x1 := (down + up - delta) / 2
      let x2 := (down + up + delta) / 2
      if f x1 < f x2 then dichotomyFloat f eps n down x2 else dichotomyFloat f eps n x1 up
    else some down

end Sampo.Search
