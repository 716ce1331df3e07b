import Mathlib.Algebra.Order.Field.Rat
import Mathlib.Data.Rat.Cast.Order
import Verif.Model.Usage

/-!
# Fitness functions of the genetic scheduler (`sampo/scheduler/genetic/operators.py`)

A schedule is the list of its rows in the order of the data frame.  `none` in place of a schedule is the answer of the evaluator for a
chromosome that is not correct (operators.py:241-246).  Values are rationals (floats in the code); the genetic algorithm looks for
small values (`fitness_weights` is -1 by default).
-/

namespace Sampo.Fitness
open Usage

/-- `schedule.execution_time` (schedule.py:76-83): the end of the last row.  A schedule has rows, as a work graph has works. -/
def done (jobs : List Job) : Int := (jobs.getLast?.map fun j => max j.start j.finish).getD 0

/-- `Time.inf().value`, given to chromosomes that are not correct. -/
def failed : ℚ := TIME_INF

/-- `TimeFitness` (operators.py:29-39). -/
def time : Option (List Job) → ℚ
  | none => failed
  | some jobs => done jobs

/-- `SumOfResourcesPeaksFitness` (operators.py:42-54). -/
def peaks (names : Option (List Nat)) : Option (List Job) → ℚ
  | none => failed
  | some jobs => peaksSum (done jobs) jobs names

/-- `SumOfResourcesFitness` (operators.py:57-69); `none`: `AttributeError`. -/
def total (names : Option (List Nat)) : Option (List Job) → Option ℚ
  | none => some failed
  | some jobs => (resourcesSum jobs names).map fun n : Int => (n : ℚ)

/-- `TimeWithResourcesFitness` (operators.py:72-84). -/
def timeWithPeaks (names : Option (List Nat)) : Option (List Job) → ℚ
  | none => failed
  | some jobs => done jobs + peaksSum (done jobs) jobs names

/-- `max(1.0, schedule.execution_time.value / self._deadline.value)` (operators.py:104, 125); `none`: `ZeroDivisionError`. -/
def late (deadline : Int) (jobs : List Job) : Option ℚ :=
  if deadline = 0 then none else some (max 1 ((done jobs : ℚ) / deadline))

/-- `DeadlineResourcesFitness` (operators.py:87-104). -/
def deadlinePeaks (deadline : Int) (names : Option (List Nat)) : Option (List Job) → Option ℚ
  | none => some failed
  | some jobs => (late deadline jobs).map fun f => peaksSum (done jobs) jobs names * f

/-- `DeadlineCostFitness` (operators.py:107-124). -/
def deadlineCost (deadline : Int) (names : Option (List Nat)) : Option (List Job) → Option ℚ
  | none => some failed
  | some jobs => (late deadline jobs).map fun f => costsSum jobs names * f

/-- `TimeAndResourcesFitness` (operators.py:127-140). -/
def timeAndPeaks (names : Option (List Nat)) : Option (List Job) → ℚ × ℚ
  | none => (failed, failed)
  | some jobs => (done jobs, peaksSum (done jobs) jobs names)

end Sampo.Fitness
