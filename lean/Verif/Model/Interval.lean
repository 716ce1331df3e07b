import Verif.Model.Synthetic
import Mathlib.Order.WithBot
import Mathlib.Data.Rat.Floor

/-!
# Random values from intervals (`sampo/schemas/interval.py`)

Floating point numbers are rationals or infinite.  Random numbers are parameters: `u` of `random()`, with `0 ≤ u < 1`, and `z` of the
standard normal distribution, so that `gauss(mean, sigma)` is `mean + z * sigma`.  The uniform interval is `Synthetic.uniform`
(interval.py:57-66) and `Synthetic.uniformInt` (interval.py:68-80).
-/

namespace Sampo.Intervals

/-- A `float` other than NaN. -/
abbrev Float := WithBot (WithTop ℚ)

/-- A finite number. -/
def fin (q : ℚ) : Float := ((q : WithTop ℚ) : WithBot (WithTop ℚ))

/-- `IntervalGaussian` (interval.py:83-99); the borders are infinite unless given. -/
structure Gaussian where
  mean : ℚ
  sigma : ℚ
  lo : Float := ⊥
  hi : Float := ((⊤ : WithTop ℚ) : WithBot (WithTop ℚ))

/-- `IntervalGaussian.rand_float` (interval.py:101-112). -/
def Gaussian.float (i : Gaussian) (z : ℚ) : Float := min (max (fin (i.mean + z * i.sigma)) i.lo) i.hi

/-- `int(x)`; `none`: `OverflowError` for an infinite number. -/
def toInt : Float → Option Int
  | none => none
  | some none => none
  | some (some q) => some (Pipeline.toInt q)

/-- `x + d` for a finite `d`. -/
def shift (x : Float) (d : ℚ) : Float := x.map fun y => y.map fun q => q + d

/-- `IntervalGaussian.rand_int` (interval.py:115-127); `EPS` is 100000. -/
def Gaussian.int (i : Gaussian) (z : ℚ) : Option Int :=
  (toInt (shift i.lo (-100000))).bind fun lo => (toInt (shift i.hi 100000)).map fun hi =>
    min (max (Pipeline.roundHalfEven (i.mean + z * i.sigma)) lo) hi

end Sampo.Intervals
