import Verif.Model.Time
import Verif.Model.Worker
import Mathlib.Data.List.Sort

/-!
# The schedule validator (`sampo/utilities/validation.py`)

Ids of works, contractors and kinds of workers are numbers.  A check returns `true` if it raises nothing; failed assertions
and `KeyError`s are `false`.
-/

namespace Sampo.Validate

/-- What the validator reads of a `ScheduledWork` (schemas/scheduled_work.py:33-64). -/
structure SWork where
  id : Nat
  start : Int
  finish : Int
  workers : List Worker
  contractor : Nat
  service : Bool
deriving DecidableEq, Repr

/-- `WorkerReq`: kind, minimum and maximum count (schemas/requirements.py). -/
structure Req where
  kind : Nat
  min : Int
  max : Int
deriving DecidableEq, Repr

/-- What the validator reads of a work graph and of the specification: works, `parents`, `worker_reqs`, contractors enabled
by the specification (empty: all). -/
structure Input where
  nodes : List Nat
  parents : Nat → List Nat
  reqs : Nat → List Req
  enabled : Nat → List Nat

/-- `{work.id: work for work in schedule.works}[id]`: the last work with the id. -/
def byId (works : List SWork) (id : Nat) : Option SWork := works.reverse.find? fun w => w.id = id

/-- `schedule.execution_time` (schemas/schedule.py:76-83): `finish` of the last row, the later of the two times of the work
(schedule.py:151-160).  `none` is an `IndexError`. -/
def executionTime (works : List SWork) : Option Int := works.getLast?.map fun w => max w.start w.finish

/-- `_check_all_tasks_scheduled` (validation.py:41-48). -/
def allScheduled (inp : Input) (works : List SWork) : Bool := inp.nodes.all fun v => (byId works v).isSome

/-- `_check_parent_dependencies` (validation.py:51-58). -/
def parentsDone (inp : Input) (works : List SWork) : Bool :=
  inp.nodes.all fun v =>
    match byId works v with
    | none => false
    | some w => (inp.parents v).all fun p =>
      match byId works p with
      | none => false
      | some q => decide (q.start ≤ q.finish ∧ q.finish ≤ w.start ∧ w.start ≤ w.finish)

/-- `_check_all_tasks_corresponds_to_spec` (validation.py:61-68). -/
def contractorsEnabled (inp : Input) (works : List SWork) : Bool :=
  inp.nodes.all fun v =>
    (inp.enabled v).isEmpty ||
      match byId works v with
      | none => false
      | some w => (inp.enabled v).contains w.contractor

/-- `_check_all_tasks_have_valid_duration` (validation.py:73-82). -/
def serviceInstant (works : List SWork) : Bool := works.all fun w => !w.service || tSub w.finish w.start = 0

/-- `_check_all_workers_correspond_to_worker_reqs` (validation.py:174-179); in `build_index` the last requirement of a kind
wins; `wg[swork.id]` raises for a work that is not in the graph. -/
def teamsFit (inp : Input) (works : List SWork) : Bool :=
  works.all fun w => inp.nodes.contains w.id && w.workers.all fun x =>
    match (inp.reqs w.id).reverse.find? fun r => r.kind = x.name with
    | none => false
    | some r => decide (r.min ≤ x.count ∧ x.count ≤ r.max)

/-- The pool of workers (validation.py:97-105): contractors with their workers (name, count); a later contractor with the same
id replaces an earlier one, counts of workers with the same name are added.  `none`: no such key. -/
def pool (contractors : List (Nat × List (Nat × Int))) : AgentId → Option Int := fun a =>
  match contractors.reverse.find? fun c => c.1 = a.1 with
  | none => none
  | some c =>
    let counts := (c.2.filter fun w => w.1 = a.2).map (·.2)
    if counts.isEmpty then none else some counts.sum

/-- An event: start or end of a work (validation.py:119-123). -/
structure Event where
  isStart : Bool
  time : Int
  work : SWork
deriving DecidableEq, Repr

/-- `ordered_start_end_events`. -/
def events (works : List SWork) : List Event :=
  (works.flatMap fun w => [⟨true, w.start, w⟩, ⟨false, w.finish, w⟩]).insertionSort fun a b => a.time ≤ b.time

/-- `cpool[name] = cpool.get(name, 0) + d`.  The two-level dictionary `moment_pool` is one list keyed by contractor and
name. -/
def charge (mp : List (AgentId × Int)) (k : AgentId) (d : Int) : List (AgentId × Int) :=
  match mp with
  | [] => [(k, d)]
  | (k', x) :: rest => if k' = k then (k', x + d) :: rest else (k', x) :: charge rest k d

/-- The event is added to the current class (validation.py:158-164); all workers are charged to the contractor of the first
one. -/
def grab (mp : List (AgentId × Int)) (e : Event) : List (AgentId × Int) :=
  match e.work.workers with
  | [] => mp
  | w :: ws => (w :: ws).foldl (fun mp x => charge mp (w.contractor, x.name) (if e.isStart then - x.count else x.count)) mp

/-- The check and update at the end of a class (validation.py:135-152).  `none` is an exception. -/
def flush (init : AgentId → Option Int) : List (AgentId × Int) → (AgentId → Option Int) → Option (AgentId → Option Int)
  | [], cur => some cur
  | (k, d) :: rest, cur =>
    match cur k, init k with
    | some a, some i =>
      if 0 ≤ a + d ∧ a + d ≤ i then flush init rest fun x => if x = k then some (a + d) else cur x else none
    | _, _ => none

/-- The loop (validation.py:125-166): remaining events, `moment`, `moment_pool`, `cur_worker_pool`. -/
def sweep (init : AgentId → Option Int) : List Event → Int → List (AgentId × Int) → (AgentId → Option Int) → Bool
  | [], _, _, _ => true
  | e :: es, moment, mp, cur =>
    if e.work.workers.isEmpty then sweep init es moment mp cur
    else if e.time ≠ moment then
      match flush init mp cur with
      | none => false
      | some cur' => sweep init es e.time (grab [] e) cur'
    else sweep init es moment (grab mp e) cur

/-- `_check_all_allocated_workers_do_not_exceed_capacity_of_contractors` (validation.py:95-110). -/
def withinCapacity (contractors : List (Nat × List (Nat × Int))) (works : List SWork) : Bool :=
  sweep (pool contractors) (events works) 0 [] (pool contractors)

/-- `validate_schedule` (validation.py:12-38): `true` if nothing is raised. -/
def validate (inp : Input) (contractors : List (Nat × List (Nat × Int))) (works : List SWork) : Bool :=
  match executionTime works with
  | none => false
  | some t =>
    if t = timeInf then true
    else allScheduled inp works && parentsDone inp works && contractorsEnabled inp works && serviceInstant works &&
      teamsFit inp works && withinCapacity contractors works

end Sampo.Validate
