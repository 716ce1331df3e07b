import Verif.Model.Sched
import Verif.Model.SwapOrder

/-!
# Local optimization of a finished schedule (`ParallelizeScheduleLocalOptimizer` in `sampo/scheduler/utils/local_optimization.py`)
-/

namespace Sampo.LocalSchedule

/-- `timeline.schedule(node, node2swork_new, workers, contractor, ...)` of some type of timeline, given the timeline, the works placed so
far, the work and its `ScheduledWork`.  `none` is an exception. -/
abbrev Placer (τ : Type) := τ → Sched → Nat → SWork → Option (τ × Sched)

/-- The call for the just-in-time timeline (just_in_time_timeline.py:233-258).  The model also gives `none` if it runs out of fuel. -/
def jit {σ : Type} (E : Env σ) (independent : Nat → Bool) (assigned : Nat → Option ExecTimes) (parentTime : Int) (fuel : Nat) :
    Placer (JIT.Timeline × σ) := fun t sw v old =>
  match JIT.find E ⟨t.1, t.2, sw⟩ v old.team (independent v) parentTime fuel with
  | some (some f) => (JIT.scheduleAt E ⟨t.1, t.2, sw⟩ v old.team old.contractor (independent v) f.1 ((assigned v).getD fun _ => none)).map
      fun st => ((st.tl, st.env), st.sched)
  | _ => none

/-- The call for the interval timeline (momentum_timeline.py:391-410). -/
def momentum {σ : Type} (E : Env σ) (independent : Nat → Bool) (assigned : Nat → Option ExecTimes) (parentTime inf : Int) (fuelIn fuel : Nat) :
    Placer (Momentum.Timeline × σ) := fun t sw v old =>
  match Momentum.schedule E ⟨t.1, t.2, sw⟩ v old.team old.contractor (independent v) none (assigned v) parentTime inf fuelIn fuel with
  | some (some st) => some ((st.tl, st.env), st.sched)
  | _ => none

/-- `recalc_schedule` (local_optimization.py:155-201): the work is placed on the new timeline, then its old `ScheduledWork` is stored
instead of the new one.  Simplified: contractors are found by name (`KeyError` if a contractor has no name). -/
def recalc {τ : Type} (place : Placer τ) (old : Sched) : List Nat → τ → Sched → Option Sched
  | [], _, new => some new
  | v :: vs, t, new =>
    match Sched.get old v with
    | none => none
    | some x => match place t new v x with
      | none => none
      | some r => recalc place old vs r.1 ((v, x) :: r.2)

/-- The body of the loop of `optimize` (local_optimization.py:232-289): no exception.  `processed` stays empty.  A worker has no attribute
`model_name`, so the first worker of the first accepted candidate is an `AttributeError`; if there is none, the first worker of the work
itself is; if there is none either, the candidate is taken and nothing changes. -/
def tryRow (par chi : Nat → List Nat) (old : Sched) (order : List Nat) (start stop i : Nat) : Bool :=
  match order[i]? with
  | none => false
  | some node => match Sched.get old node with
    | none => false
    | some mine =>
      match ((order.take i).drop start).find? (SwapOrder.accepted par chi (SwapOrder.indexOf order start stop) [] node i) with
      | none => true
      | some cand => match Sched.get old cand with
        | none => false
        | some theirs => theirs.team.isEmpty && mine.team.isEmpty

/-- `ParallelizeScheduleLocalOptimizer.optimize` (local_optimization.py:203-294) for the area `range(start, stop)`. -/
def optimize {τ : Type} (place : Placer τ) (fresh : τ) (par chi : Nat → List Nat) (start stop : Nat) (old : Sched) (order : List Nat) :
    Option Sched :=
  if (List.range' start (stop - start)).reverse.all (tryRow par chi old order start stop) then recalc place old order.reverse fresh []
  else none

end Sampo.LocalSchedule
