import Verif.Model.Time
import Mathlib.Data.List.Dedup
import Mathlib.Data.Rat.Defs

/-!
# Merging the stages of split works (`sampo/utilities/schedule.py`, `Schedule.unite_stages` in `sampo/schemas/schedule.py`)

Strings are lists of characters.  A data frame is a list of rows.  Times of rows are integers; the variant with dates
(`merged_stages_datetime_df`) first moves all times by an offset of whole days, which is not modelled.
-/

namespace Sampo.Merge

abbrev Str := List Char

/-- `STAGE_SEP` (api/const.py:1). -/
def sep : Str := ['_', 's', 't', 'a', 'g', 'e', '_']

/-- `str.split(separator)`, given the current piece (reversed) and the number of characters of a separator still to be skipped. -/
def splitAux (sep : Str) : Str → Str → Nat → List Str
  | [], cur, _ => [cur.reverse]
  | _ :: cs, cur, k + 1 => splitAux sep cs cur k
  | c :: cs, cur, 0 => if sep <+: (c :: cs) then cur.reverse :: splitAux sep cs [] (sep.length - 1) else splitAux sep cs (c :: cur) 0

/-- `x.split(STAGE_SEP)`. -/
def split (x : Str) : List Str := splitAux sep x [] 0

/-- `x.split(STAGE_SEP)[0]` (utilities/schedule.py:39, 75). -/
def head (x : Str) : Str := (split x).headD []

/-- `ScheduledWork` (scheduled_work.py:29-60), with the fields merging uses.  `team` stands for the workers. -/
structure Work where
  id : Str
  /-- `display_name` -/
  name : Str
  /-- `model_name['granular_name']` -/
  granular : Str
  volume : ℚ
  cost : Int
  start : Int
  finish : Int
  team : List (Nat × Int)
deriving DecidableEq

/-- A row of the schedule data frame (schedule.py:158-178); the columns used here. -/
structure Row where
  taskId : Str
  taskName : Str
  granular : Str
  volume : ℚ
  cost : Int
  start : Int
  finish : Int
  duration : Int
  team : List (Nat × Int)
  /-- `scheduled_work_object` -/
  work : Work
deriving DecidableEq

/-- The row of a work in `from_scheduled_works` without a graph (schedule.py:158-178); `sed` sorts the two times. -/
def rowOf (w : Work) : Row :=
  ⟨w.id, w.name, w.granular, w.volume, w.cost, min w.start w.finish, max w.start w.finish,
    max w.start w.finish - min w.start w.finish, w.team, w⟩

/-- `get_stage_num` (utilities/schedule.py:63-65); `num` is `int(...)` of a string.  `none`: `ValueError`. -/
def stageNum (num : Str → Option Int) (name : Str) : Option Int :=
  if 1 < (split name).length then num ((split name).getLast?.getD []) else some (-1)

/-- `merge_split_stages` (utilities/schedule.py:55-91).  `sort` is `sort_values(by='stage_num')`, which may put rows with equal
stage numbers in any order.  `none`: an exception. -/
def mergeStages (num : Str → Option Int) (sort : List (Int × Row) → List (Int × Row)) : List Row → Option Row
  | [] => none
  | [r] => some r
  | first :: second :: rest =>
    let rows := first :: second :: rest
    (rows.mapM fun r => (stageNum num r.granular).map fun n => (n, r)).bind fun numbered =>
      (sort numbered).getLast?.map fun last =>
        let finish := ((rows.getLast?).getD first).finish
        { last.2 with
          taskId := head last.2.taskId
          taskName := head last.2.taskName
          granular := head last.2.granular
          volume := (rows.map (·.volume)).sum
          team := first.team
          start := first.start
          finish := finish
          duration := finish - first.start + 1 }

/-- The rows of a task (utilities/schedule.py:42-45). -/
def stagesOf (rows : List Row) (id : Str) : List Row := rows.filter fun r => id ++ sep <+: r.taskId ∨ r.taskId = id

/-- The order of `sort_values(by=['start', 'task_name'])` (utilities/schedule.py:49). -/
def rowLe (a b : Row) : Bool := decide (a.start < b.start ∨ (a.start = b.start ∧ a.taskName ≤ b.taskName))

/-- `fix_split_tasks` (utilities/schedule.py:28-52).  `listing` is the order in which the set of task ids is iterated over. -/
def fixSplit (num : Str → Option Int) (sort : List (Int × Row) → List (Int × Row)) (listing : List Str → List Str)
    (rows : List Row) : Option (List Row) :=
  ((listing (rows.map fun r => head r.taskId).dedup).mapM fun id => mergeStages num sort (stagesOf rows id)).map
    fun merged => merged.mergeSort rowLe

/-- The work of a merged row (schedule.py:124-131). -/
def uniteRow (r : Row) : Work :=
  { r.work with granular := r.granular, name := r.taskName, volume := r.volume, start := mkTime r.start, finish := mkTime r.finish }

/-- `Schedule.unite_stages` (schedule.py:117-135), from the works of a schedule in the order of its rows to those of the united one.
`none`: an exception, also for the schedule without works (schedule.py:21, `first` of nothing). -/
def unite (num : Str → Option Int) (sort : List (Int × Row) → List (Int × Row)) (listing : List Str → List Str)
    (works : List Work) : Option (List Work) :=
  if works = [] then none
  else (fixSplit num sort listing (works.map rowOf)).map fun rows => rows.map uniteRow

end Sampo.Merge
