import Verif.Model.ScheduleTable
import Verif.Model.Collections
import Verif.Model.Sched
import Verif.Model.Pipeline
import Verif.Model.Graph

/-!
# The tables of a finished pipeline: from placed works to the projects returned by `finish`

Without local optimizers of schedules (for these see `Model/LocalSchedule.lean`).
-/

namespace Sampo.Finished
open ScheduleTable

/-- What a `ScheduledWork` has besides times, team and contractor: data of the work unit, cost, names of contractors and worker types. -/
structure Details where
  name : Nat → String
  model : Nat → List (String × String)
  volume : Nat → ℚ
  service : Nat → Bool
  cost : Nat → SWork → ℚ
  contractor : Nat → String
  kind : Nat → String

/-- The `ScheduledWork` of a placed work (scheduled_work.py:29-60). -/
def workOf (I : Details) (e : Nat × SWork) : Work :=
  ⟨e.1, I.name e.1, I.contractor e.2.contractor, I.cost e.1 e.2, I.volume e.1, (e.2.start, e.2.finish),
    e.2.team.map fun w => (I.kind w.name, w.count), I.service e.1, I.model e.1⟩

/-- `node2swork.values()`: the work placed last is the first entry of a `Sched`.  Simplified: no work is placed twice. -/
def values (I : Details) (s : Sched) : List Work := s.reverse.map (workOf I)

/-- `list(schedule.to_schedule_work_dict.values())` (schedule.py:68-74). -/
def entries (t : Table) : List Work := (Collections.buildIndex (·.id) (·.work) t.rows).map (·.2)

/-- The schedule made by a scheduler (generic.py:123-126, lft/base.py:134-137, genetic/base.py:308), taken apart by
`DefaultSchedulePipeline.__init__` (pipeline/default.py:305-314) and put together again by `finish` (pipeline/default.py:323-329). -/
def project (I : Details) (iter : List Nat → List Nat) (fuel : Nat) (g : Graph) (s : Sched) : Option Table :=
  (ofWorksOrdered g.parents iter fuel (values I s)).bind fun t => ofWorksOrdered g.parents iter fuel (entries t)

/-- `finish` without optimizers (pipeline/default.py:323-329) for everything that was scheduled. -/
def projects {ω : Type} (I : Details) (iter : List Nat → List Nat) (fuel : Nat) (c : Pipeline.Chosen Graph Sched ω) :
    Option (List Table) :=
  (c.schedules.zip c.orders).mapM fun p => project I iter fuel c.graph p.1

end Sampo.Finished
