import Verif.Model.Toposort
import Verif.Model.Merge
import Mathlib.Data.List.Sort
import Mathlib.Data.Rat.Defs

/-!
# Tables of schedules (`Schedule` in `sampo/schemas/schedule.py`)

Simplified: values of `model_name` are strings; identifiers are numbers, as in `RowOrder`; a table is the names of the columns of
`model_name` and a list of rows.
-/

namespace Sampo.ScheduleTable

/-- `ScheduledWork` (scheduled_work.py:29-60): the fields shown in tables.  `team` are the names and numbers of its workers. -/
structure Work where
  id : Nat
  name : String
  contractor : String
  cost : ℚ
  volume : ℚ
  times : Int × Int
  team : List (String × Int)
  service : Bool
  model : List (String × String)
deriving DecidableEq

/-- A row (schedule.py:166-177); `cells` are the values in the columns of `model_name`. -/
structure Row where
  idx : Nat
  id : Nat
  name : String
  contractor : String
  cost : ℚ
  volume : ℚ
  start : Int
  finish : Int
  duration : Int
  workers : List (String × Int)
  work : Work
  cells : List (Option String)
deriving DecidableEq

/-- The table: the columns of `model_name` and the rows. -/
structure Table where
  columns : List String
  rows : List Row
deriving DecidableEq

/-- `sorted(model_name.keys())` (schedule.py:21). -/
def keys (m : List (String × String)) : List String := (m.insertionSort fun a b => a.1 ≤ b.1).map (·.1)

/-- `make_model_name_columns` (schedule.py:163-164). -/
def values (m : List (String × String)) : List String := (m.insertionSort fun a b => a.1 ≤ b.1).map (·.2)

/-- `d[k] = v`. -/
def put (d : List (String × Int)) (p : String × Int) : List (String × Int) :=
  if p.1 ∈ d.map (·.1) then d.map fun q => if q.1 = p.1 then p else q else d ++ [p]

/-- `dict((i.name, i.count) for i in w.workers)` (schedule.py:174); its text is shown. -/
def teamDict (team : List (String × Int)) : List (String × Int) := team.foldl put []

/-- The row of a work (schedule.py:166-177), padded with `None` by pandas up to `n` columns; `sed` sorts the times (schedule.py:151-159). -/
def rowOf (n : Nat) (i : Nat) (w : Work) : Row :=
  ⟨i, w.id, w.name, w.contractor, w.cost, w.volume, min w.times.1 w.times.2, max w.times.1 w.times.2,
    max w.times.1 w.times.2 - min w.times.1 w.times.2, teamDict w.team, w,
    (values w.model).map some ++ List.replicate (n - w.model.length) none⟩

/-- `from_scheduled_works` without a graph (schedule.py:137-191).  `none`: an exception: there is no first work (schedule.py:21), or a
record has more fields than there are columns (`DataFrame.from_records`). -/
def ofWorks : List Work → Option Table
  | [] => none
  | w :: ws =>
    if (w :: ws).any fun v => decide (w.model.length < v.model.length) then none
    else some ⟨keys w.model, (w :: ws).mapIdx fun i v => rowOf w.model.length i v⟩

/-- `from_scheduled_works` with a graph (schedule.py:147-191): rows sorted by the place of their work in the order of
`order_nodes_by_start_time`.  `none`: an exception; identifiers that are twice in the order are no categories. -/
def ofWorksOrdered (parents : Nat → List Nat) (iter : List Nat → List Nat) (fuel : Nat) (works : List Work) : Option Table :=
  (RowOrder.order parents iter fuel (works.map fun w => (w.times.1, w.id))).bind fun order =>
    (ofWorks works).bind fun t =>
      if order.Nodup then some { t with rows := t.rows.insertionSort fun a b => order.idxOf a.id ≤ order.idxOf b.id } else none

/-- `pure_schedule_df` (schedule.py:47-56). -/
def withoutService (t : Table) : Table := { t with rows := t.rows.filter fun r => !r.work.service }

/-- `works` (schedule.py:59-65). -/
def works (t : Table) : List Work := t.rows.map (·.work)

/-- `to_schedule_work_dict[id]` (schedule.py:68-74): the last of the rows with that identifier.  `none`: `KeyError`. -/
def find (t : Table) (id : Nat) : Option Work := (t.rows.reverse.find? fun r => r.id = id).map (·.work)

/-- `execution_time` (schedule.py:76-83), before it is made a `Time`.  `none`: an exception. -/
def executionTime (t : Table) : Option Int := t.rows.getLast?.map (·.finish)

/-- `add_time_delta` for days (utilities/datetime_util.py:23-37); dates are day numbers, 3652059 is the last day a `datetime` can have.
`none`: `OverflowError`. -/
def addDays (offset t : Int) : Option Int := if 1 ≤ offset + t ∧ offset + t ≤ 3652059 then some (offset + t) else none

/-- `offset_schedule` (utilities/schedule.py:12-25). -/
def offsetRows (offset : Int) (rows : List Merge.Row) : Option (List Merge.Row) :=
  rows.mapM fun r => (addDays offset r.start).bind fun s => (addDays offset r.finish).map fun f => { r with start := s, finish := f }

/-- `merged_stages_datetime_df` (schedule.py:107-115), with the rows of `Merge`. -/
def mergedDates (num : Merge.Str → Option Int) (sort : List (Int × Merge.Row) → List (Int × Merge.Row))
    (listing : List Merge.Str → List Merge.Str) (offset : Int) (rows : List Merge.Row) : Option (List Merge.Row) :=
  (offsetRows offset rows).bind (Merge.fixSplit num sort listing)

end Sampo.ScheduleTable
