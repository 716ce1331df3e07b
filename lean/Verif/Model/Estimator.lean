import Verif.Model.Time
import Verif.Model.Worker
import Mathlib.Data.Rat.Floor

/-!
# The default work time estimator (`sampo/schemas/time_estimator.py`), static productivity

Floating point numbers are rationals here, so that rounding errors of the float arithmetic before `math.ceil` are not modelled.
-/

namespace Sampo.Estimator

/-- `WorkerReq` (requirements.py:31-46). -/
structure Req where
  kind : Nat
  volume : Int
  minCount : Int
  maxCount : Int
deriving DecidableEq, Repr

/-- `self._productivity[name]` (time_estimator.py:66-67): the mean for all contractors and those for single ones; `none`: no such
name (`KeyError`). -/
abbrev Means := Nat → Option (ℚ × (Nat → Option ℚ))

/-- `communication_coefficient` (time_estimator.py:138-141).  `none`: `ZeroDivisionError`. -/
def coefficient (n m : Int) : Option ℚ :=
  if m = 0 then none
  else some (1 / (6 * (m : ℚ) ^ 2) * (-2 * (n : ℚ) ^ 3 + 3 * (n : ℚ) ^ 2 + (6 * (m : ℚ) ^ 2 - 1) * n))

/-- The mean productivity of a worker (time_estimator.py:121-123). -/
def meanOf (P : Means) (w : Worker) : Option ℚ := (P w.name).map fun p => (p.2 w.contractor).getD p.1

/-- `_get_productivity` (time_estimator.py:113-126), static mode. -/
def productivity (P : Means) (w : Worker) (maxCount : Int) : Option ℚ :=
  (meanOf P w).bind fun p => (coefficient w.count maxCount).map fun c => p * w.count * c

/-- `build_index(worker_list, attrgetter('name'))` and `get` (time_estimator.py:97, 103): the last worker of a name. -/
def workerOf (team : List Worker) (name : Nat) : Option Worker := team.reverse.find? fun w => w.name = name

/-- The loop over the requirements (time_estimator.py:95-111), with the largest of `times`.  `none`: an exception. -/
def reqLoop (P : Means) (team : List Worker) : List Req → Int → Option Int
  | [], t => some (max t (mkTime 0))
  | r :: rs, t =>
    if r.minCount = 0 then reqLoop P team rs t
    else
      match workerOf team r.kind with
      | none => if 0 < r.minCount then some timeInf else none
      | some w =>
        if w.count < r.minCount then some timeInf
        else (productivity P w r.maxCount).bind fun p =>
          if p = 0 then some timeInf else reqLoop P team rs (max t (mkTime ⌈(r.volume : ℚ) / p⌉))

/-- `DefaultWorkEstimator.estimate_time` (time_estimator.py:92-111). -/
def estimate (P : Means) (reqs : List Req) (team : List Worker) : Option Int :=
  if team = [] then some (mkTime 0) else reqLoop P team reqs (mkTime 0)

/-- The productivities of a new estimator (time_estimator.py:66-67): 1 for the six names it knows. -/
def initialMeans (known : List Nat) : Means := fun name => if name ∈ known then some (1, fun _ => none) else none

/-- `set_worker_productivity` (time_estimator.py:128-132).  `none`: `KeyError`. -/
def setMean (P : Means) (mean : ℚ) (name : Nat) (contractor : Option Nat) : Option Means :=
  (P name).map fun p => Function.update P name (some (match contractor with
    | none => (mean, p.2)
    | some c => (p.1, Function.update p.2 c (some mean))))

end Sampo.Estimator
