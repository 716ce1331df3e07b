import Verif.Model.Estimator
import Verif.Model.Synthetic

/-!
# The default work time estimator with random productivity (`sampo/schemas/time_estimator.py`)

As `Verif.Model.Estimator`, but productivities are intervals.  Random numbers are parameters, one pair for each draw: `u` from 0 to 1 for
uniform intervals, `z` of the standard normal distribution for Gaussian ones.
-/

namespace Sampo.StochasticEstimator

open Estimator

/-- `IntervalUniform`, `IntervalGaussian` (interval.py:45-99).  Simplified: borders are finite, or absent on their own side. -/
inductive Productivity
  | uniform (lo hi : ℚ)
  | gaussian (mean sigma : ℚ) (lo hi : Option ℚ)
deriving DecidableEq, Repr

/-- The random numbers of one draw. -/
structure Draw where
  u : ℚ
  z : ℚ

/-- The attribute `mean`.  `none`: `AttributeError`, uniform intervals have none (interval.py:45-56). -/
def Productivity.mean : Productivity → Option ℚ
  | .uniform _ _ => none
  | .gaussian m _ _ _ => some m

/-- `max(value, min_val)`. -/
def atLeast : Option ℚ → ℚ → ℚ
  | none, v => v
  | some lo, v => max v lo

/-- `min(value, max_val)`. -/
def atMost : Option ℚ → ℚ → ℚ
  | none, v => v
  | some hi, v => min v hi

/-- `rand_float` (interval.py:57-66, 101-112). -/
def Productivity.rand (d : Draw) : Productivity → ℚ
  | .uniform lo hi => Synthetic.uniform lo hi d.u
  | .gaussian m s lo hi => atMost hi (atLeast lo (m + d.z * s))

/-- `self._productivity` (time_estimator.py:66-67); `none`: no such name (`KeyError`). -/
abbrev Table := Nat → Option (Productivity × (Nat → Option Productivity))

/-- A new estimator (time_estimator.py:66-67). -/
def initial (known : List Nat) : Table := fun name =>
  if name ∈ known then some (.gaussian 1 (1 / 5) (some 1) (some 0), fun _ => none) else none

/-- The interval for a worker (time_estimator.py:121-122). -/
def intervalOf (T : Table) (w : Worker) : Option Productivity := (T w.name).map fun p => (p.2 w.contractor).getD p.1

/-- `WorkerProductivityMode` (resources.py:12-14). -/
inductive Mode
  | static | stochastic
deriving DecidableEq, Repr

/-- `_get_productivity` (time_estimator.py:113-126). -/
def productivityOf (mode : Mode) (T : Table) (d : Draw) (w : Worker) (maxCount : Int) : Option ℚ :=
  (intervalOf T w).bind fun i => (match mode with
    | .static => i.mean
    | .stochastic => some (i.rand d)).bind fun p => (coefficient w.count maxCount).map fun c => p * w.count * c

/-- The loop over the requirements (time_estimator.py:95-111); `n` draws were made before. -/
def loop (mode : Mode) (T : Table) (draw : Nat → Draw) (team : List Worker) : List Req → Nat → Int → Option Int
  | [], _, t => some (max t (mkTime 0))
  | r :: rs, n, t =>
    if r.minCount = 0 then loop mode T draw team rs n t
    else
      match workerOf team r.kind with
      | none => if 0 < r.minCount then some timeInf else none
      | some w =>
        if w.count < r.minCount then some timeInf
        else (productivityOf mode T (draw n) w r.maxCount).bind fun p =>
          if p = 0 then some timeInf else loop mode T draw team rs (n + 1) (max t (mkTime ⌈(r.volume : ℚ) / p⌉))

/-- `estimate_time` (time_estimator.py:92-111). -/
def estimateWith (mode : Mode) (T : Table) (draw : Nat → Draw) (reqs : List Req) (team : List Worker) : Option Int :=
  if team = [] then some (mkTime 0) else loop mode T draw team reqs 0 (mkTime 0)

/-- `set_worker_productivity` (time_estimator.py:128-132).  `none`: `KeyError`. -/
def setProductivity (T : Table) (i : Productivity) (name : Nat) (contractor : Option Nat) : Option Table :=
  (T name).map fun p => Function.update T name (some (match contractor with
    | none => (i, p.2)
    | some c => (p.1, Function.update p.2 c (some i))))

end Sampo.StochasticEstimator
