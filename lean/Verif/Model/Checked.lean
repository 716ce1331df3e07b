import Verif.Model.Validate
import Verif.Model.Scheduler
import Verif.Model.LFTPlan

/-!
# Validation at the end of `schedule_with_cache`
-/

namespace Sampo.Validate

/-- A row of the schedule made of a scheduled work (schemas/schedule.py:116-163, scheduled_work.py:33-64). -/
def row (service : Nat → Bool) (e : Nat × Sampo.SWork) : SWork :=
  ⟨e.1, e.2.start, e.2.finish, e.2.team, e.2.contractor, service e.1⟩

/-- What the validator reads of the graph and the specification (validation.py:41-68, 174-179). -/
def inputOf (g : Graph) (nodes : List Nat) (reqs : Nat → List WorkerReq) (spec : Nat → WorkSpec) : Input where
  nodes := nodes
  parents := g.parents
  reqs v := (reqs v).map fun r => ⟨r.kind, r.minCount, r.maxCount⟩
  enabled v := (spec v).contractors

/-- Contractors as the validator reads them (validation.py:97-105). -/
def crews (cs : List Contractor) : List (Nat × List (Nat × Int)) := cs.map fun c => (c.id, c.workers)

/-- `validate_schedule(schedule, wg, contractors, spec)` for the works placed by a scheduler (generic.py:123-129,
lft/base.py:133-140, genetic/base.py:311-313).  `sort` is the order of the rows of the schedule. -/
def passes (sort : Sched → Sched) (g : Graph) (nodes : List Nat) (service : Nat → Bool) (cs : List Contractor) (spec : Nat → WorkSpec)
    (reqs : Nat → List WorkerReq) (sw : Sched) : Bool :=
  validate (inputOf g nodes reqs spec) (crews cs) ((sort sw).map (row service))

/-- The end of `schedule_with_cache` with `validate=True`: what the scheduler made, or an exception. -/
def checked {S : Type} (ok : S → Bool) (r : Option (Option S)) : Option (Option S) :=
  r.map fun o => o.bind fun st => if ok st then some st else none

end Sampo.Validate
