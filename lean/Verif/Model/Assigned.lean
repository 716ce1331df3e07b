import Verif.Model.Time

/-!
# Distribution of an assigned duration over an inseparable chain (`sampo/scheduler/timeline/utils.py`)

The chain is represented by the list of volumes of its works; the result is the list of durations in the same order
(the Python dict is keyed by the nodes of the chain, which are different objects; the lags it stores are all 0).
Volumes are floats in Python.  They are integers here: multiplying all volumes by a common denominator changes nothing
in the exact computation.  The one float expression, `int(remaining_time.value * volume_proportion)`, is the parameter
`share` (remaining time, volume, remaining volume); `exactShare` is its value without rounding errors.
-/

namespace Sampo.Assigned

/-- Exact value of lines 43-49 (timeline/utils.py): `int(remaining * (volume / total))`, where `int` rounds towards
zero; 0 if the remaining volume is not positive. -/
def exactShare (remaining volume total : Int) : Int :=
  if total > 0 then Int.tdiv (remaining * volume) total else 0

/-- The loop of lines 36-59 (timeline/utils.py) from the point where `total` volume and `remaining` time are left. -/
def loop (share : Int → Int → Int → Int) : List Int → Int → Int → List Int
  | [], _, _ => []
  | [_], _, remaining => [remaining]
  | v :: w :: vs, total, remaining =>
    let d := share remaining v total
    d :: loop share (w :: vs) (total - v) (remaining - d)

/-- `get_exec_times_from_assigned_time_for_chain` (timeline/utils.py:5-59).  Simplification: `Time` values are plain
integers, i.e. saturation at ±2·10⁹ is left out (no intermediate value is outside the range of the assigned time when
volumes and the assigned time are non-negative, see C13). -/
def execTimes (share : Int → Int → Int → Int) (volumes : List Int) (assigned : Int) : List Int :=
  let total := volumes.sum
  if total ≤ 0 then
    let nodeTime := Int.fdiv assigned volumes.length
    List.replicate (volumes.length - 1) nodeTime ++ [assigned - nodeTime * (volumes.length - 1 : Nat)]
  else loop share volumes total assigned

end Sampo.Assigned
