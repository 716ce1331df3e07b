import Verif.Model.Time

/-!
# Reports of resource usage (`sampo/utilities/resource_usage.py`) and fitness functions based on them

The `Time` values of start and finish are plain integers; in the data frame they are the values of the same times, the smaller one
first (schedule.py:148-156), so for works that do not finish before they start the columns are `start_time` and `finish_time`.
Costs are integers (floats in the code).  Python sets and dictionaries are lists without repetition.
-/

namespace Sampo.Usage

/-- `Worker`: name, count and `cost_one_unit` (resources.py:47-68). -/
structure Crew where
  name : Nat
  count : Int
  price : Int
deriving DecidableEq, Repr

/-- `ScheduledWork`: start, finish and workers (scheduled_work.py:31-57). -/
structure Job where
  start : Int
  finish : Int
  workers : List Crew
deriving DecidableEq, Repr

/-- `SortedList.add` for an element that is not yet in the list; with `set(...)` before: no repetition. -/
def insertPoint (x : Int) : List Int → List Int
  | [] => [x]
  | y :: ys => if x < y then x :: y :: ys else if x = y then y :: ys else y :: insertPoint x ys

/-- `SortedList(set(points.flatten()))` (resource_usage.py:11-13). -/
def points (jobs : List Job) : List Int := (jobs.flatMap fun j => [j.start, j.finish]).foldr insertPoint []

/-- `SortedList.bisect_left`. -/
def bisectLeft : List Int → Int → Nat
  | [], _ => 0
  | y :: ys, x => if y < x then bisectLeft ys x + 1 else 0

/-- `row[start: finish] += count`. -/
def addSlice : List Int → Nat → Nat → Int → List Int
  | [], _, _, _ => []
  | v :: vs, 0, 0, _ => v :: vs
  | v :: vs, 0, f + 1, c => (v + c) :: addSlice vs 0 f c
  | v :: vs, s + 1, f, c => v :: addSlice vs s (f - 1) c

/-- `usage[name][start: finish] += count` on a `defaultdict` of arrays of zeros (resource_usage.py:14, 24). -/
def charge (n : Nat) (s f : Nat) (c : Int) (name : Nat) : List (Nat × List Int) → List (Nat × List Int)
  | [] => [(name, addSlice (List.replicate n 0) s f c)]
  | row :: rows => if row.1 = name then (name, addSlice row.2 s f c) :: rows else row :: charge n s f c name rows

/-- `is_none or worker.name in resources_names` (resource_usage.py:16-17, 23). -/
def wanted (names : Option (List Nat)) (name : Nat) : Bool :=
  match names with
  | none => true
  | some ns => ns.contains name

/-- The inner loop over the workers of a work (resource_usage.py:19-24). -/
def chargeJob (ps : List Int) (names : Option (List Nat)) (rows : List (Nat × List Int)) (j : Job) : List (Nat × List Int) :=
  j.workers.foldl (fun rows w =>
    if wanted names w.name then charge ps.length (bisectLeft ps j.start) (bisectLeft ps j.finish) w.count w.name rows else rows) rows

/-- `get_total_resources_usage` (resource_usage.py:10-26): one row per resource, one column per point. -/
def totalUsage (jobs : List Job) (names : Option (List Nat)) : List (Nat × List Int) :=
  jobs.foldl (chargeJob (points jobs) names) []

/-- `max` of a non-empty sequence (`ValueError` for an empty one cannot happen: a row has a column per point, and a work has two
points). -/
def maximum : List Int → Int
  | [] => 0
  | [v] => v
  | v :: vs => max v (maximum vs)

/-- `get_resources_peak_usage` (resource_usage.py:29-30). -/
def peaks (jobs : List Job) (names : Option (List Nat)) : List (Nat × Int) :=
  (totalUsage jobs names).map fun row => (row.1, maximum row.2)

/-- `resources_peaks_sum` (resource_usage.py:33-39); `done` is `schedule.execution_time`. -/
def peaksSum (done : Int) (jobs : List Job) (names : Option (List Nat)) : Int :=
  if done = TIME_INF then TIME_INF else ((peaks jobs names).map (·.2)).sum

/-- `resources_sum` (resource_usage.py:42-53): the condition reads `worker.model_name` first, an attribute workers do not have.
`none`: `AttributeError`. -/
def resourcesSum (jobs : List Job) (_names : Option (List Nat)) : Option Int :=
  if jobs.any fun j => !j.workers.isEmpty then none else some 0

/-- `resources_costs_sum` (resource_usage.py:56-67) with `get_cost` (resources.py:96-98). -/
def costsSum (jobs : List Job) (names : Option (List Nat)) : Int :=
  (jobs.map fun j => ((j.workers.filter fun w => wanted names w.name).map fun w => w.price * w.count * (j.finish - j.start)).sum).sum

end Sampo.Usage
