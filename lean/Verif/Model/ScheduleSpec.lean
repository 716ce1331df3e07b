import Verif.Model.Assigned
import Verif.Model.LFTPlan
import Verif.Model.Scheduler

/-!
# The terms a user gives for a schedule (`sampo/schemas/schedule_spec.py`) and how the list schedulers read them

Contractors, worker types and works are natural numbers.  Dictionaries are lists of pairs with different keys.
-/

namespace Sampo

/-- `WorkSpec` (schedule_spec.py:12-33): the terms for one work.  The contractors are a set of ids (order and repetition do not
matter: only emptiness and membership are used, lines 29-30). -/
structure WorkTerms where
  contractors : List Nat
  workers : List (Nat × Int)
  time : Option Int
  independent : Bool
deriving DecidableEq, Repr

/-- `WorkSpec()` (schedule_spec.py:24-27). -/
def WorkTerms.none : WorkTerms := ⟨[], [], Option.none, false⟩

/-- The two fields that choose contractor and team. -/
def WorkTerms.spec (t : WorkTerms) : WorkSpec := ⟨t.contractors, t.workers⟩

/-- `ScheduleSpec._work2spec` (schedule_spec.py:36-43): a default dictionary; a later entry is in front of an earlier one with the
same key. -/
abbrev ScheduleSpec := List (Nat × WorkTerms)

namespace ScheduleSpec

/-- `get_work_spec` and `__getitem__` (schedule_spec.py:69-73).  That reading inserts a default entry cannot be observed, as a
missing entry reads the same. -/
def get (s : ScheduleSpec) (work : Nat) : WorkTerms := (s.lookup work).getD WorkTerms.none

/-- `self._work2spec[work].field = value`. -/
def change (s : ScheduleSpec) (work : Nat) (f : WorkTerms → WorkTerms) : ScheduleSpec := (work, f (s.get work)) :: s

/-- `d[key] = value` on a dictionary. -/
def dictSet : List (Nat × Int) → Nat → Int → List (Nat × Int)
  | [], key, value => [(key, value)]
  | e :: d, key, value => if e.1 = key then (key, value) :: d else e :: dictSet d key value

/-- `{worker.name: worker.count for worker in workers}` (schedule_spec.py:60). -/
def countsOf (team : List Worker) : List (Nat × Int) := team.foldl (fun d w => dictSet d w.name w.count) []

/-- What a user can do with a specification: the four setters (schedule_spec.py:45-67), and assigning to the attribute of the object
that `get_work_spec` returns, which is the only way to set `is_independent`.  Simplification: the set given to
`assign_contractors` is stored without a copy, so a user who changes it later changes the specification; here it is a value. -/
inductive Call where
  | setExecTime (work : Nat) (time : Int)
  | assignWorkersDict (work : Nat) (workers : List (Nat × Int))
  | assignWorkers (work : Nat) (team : List Worker)
  | assignContractors (work : Nat) (contractors : List Nat)
  | setIndependent (work : Nat) (value : Bool)

/-- One call (schedule_spec.py:45-67). -/
def apply (s : ScheduleSpec) : Call → ScheduleSpec
  | .setExecTime work time => s.change work fun t => { t with time := some time }
  | .assignWorkersDict work workers => s.change work fun t => { t with workers := workers }
  | .assignWorkers work team => s.change work fun t => { t with workers := countsOf team }
  | .assignContractors work contractors => s.change work fun t => { t with contractors := contractors }
  | .setIndependent work value => s.change work fun t => { t with independent := value }

/-- `ScheduleSpec()` followed by calls. -/
def ofCalls (calls : List Call) : ScheduleSpec := calls.foldl apply []

end ScheduleSpec

/-- `get_exec_times_from_assigned_time_for_chain(inseparable_chain, assigned_time)` as a dictionary (timeline/utils.py:5-59, called
in just_in_time_timeline.py:252-253 and momentum_timeline.py:405-406): work to (lag 0, duration). -/
def Assigned.timesFor (share : Int → Int → Int → Int) (volume : Nat → Int) (chain : List Nat) (time : Int) : ExecTimes :=
  fun u => ((chain.zip (Assigned.execTimes share (chain.map volume) time)).lookup u).map fun d => (0, d)

/-- What the schedulers pass on as assigned durations: those of the chain of a head, from the terms of the head only
(`work_spec.assigned_time`: generic.py:165, 184-185, lft/base.py:162, 183-184). -/
def Assigned.ofSpec (share : Int → Int → Int → Int) (volume : Nat → Int) (chain : Nat → List Nat) (s : ScheduleSpec) (v : Nat) :
    Option ExecTimes :=
  (s.get v).time.map (Assigned.timesFor share volume (chain v))

/-- The inputs of `build_scheduler` in the LFT scheduler (lft/base.py:144-195) with a specification. -/
def LFT.planWith (S : Type) (contractors : List Contractor) (s : ScheduleSpec) (reqs : Nat → List WorkerReq)
    (index : Nat → Nat → Nat) (parentTime : Int) (share : Int → Int → Int → Int) (volume : Nat → Int)
    (chain : Nat → List Nat) : Plan S :=
  { LFT.plan S contractors (fun v => (s.get v).spec) reqs index (fun v => (s.get v).independent) parentTime with
    assignedTimes := Assigned.ofSpec share volume chain s }

/-- The setup of the generic scheduler with a specification (generic.py:165-171); the assigned duration is not used in the search for
a team (just_in_time_timeline.py:74-87 and momentum_timeline.py:113-123 estimate). -/
def Generic.setupWith {S : Type} (G : Setup S) (s : ScheduleSpec) : Setup S :=
  { G with spec := fun v => (s.get v).spec, independent := fun v => (s.get v).independent }

/-- The inputs of `build_scheduler` in the generic scheduler (generic.py:133-190) on a just-in-time timeline, with a specification. -/
def Generic.planJITWith {σ : Type} (E : Env σ) (G : Setup (JIT.State σ)) (s : ScheduleSpec) (fuel : Nat)
    (share : Int → Int → Int → Int) (volume : Nat → Int) : Plan (JIT.State σ) :=
  { Generic.planJIT E (Generic.setupWith G s) fuel with assignedTimes := Assigned.ofSpec share volume E.chain s }

/-- The same on a momentum timeline. -/
def Generic.planMomentumWith {σ : Type} (E : Env σ) (G : Setup (Momentum.State σ)) (s : ScheduleSpec) (inf : Int) (fuelIn fuel : Nat)
    (share : Int → Int → Int → Int) (volume : Nat → Int) : Plan (Momentum.State σ) :=
  { Generic.planMomentum E (Generic.setupWith G s) inf fuelIn fuel with assignedTimes := Assigned.ofSpec share volume E.chain s }

end Sampo
