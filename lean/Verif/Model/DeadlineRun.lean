import Verif.Model.Deadline
import Verif.Model.Scheduler
import Verif.Model.AutoPipeline

/-!
# The deadline-driven search with the list schedulers as base (`sampo/scheduler/resources_in_time/average_binary_search.py`)
-/

namespace Sampo.DeadlineRun

open Scheduler

/-- What does not change between the calls of the base scheduler. -/
structure Job where
  graph : Graph
  nodes : List Nat
  contractors : List Contractor
  reqs : Nat → List WorkerReq
  parentTime : Int

/-- The input of a generic base scheduler in `call_scheduler(k, inner_spec)` (average_binary_search.py:21-24, 34-41, 50-52): its
optimizer has been replaced by the average requirement with level `k`, and the specification only marks the works `indep`. -/
def setup {S : Type} (J : Job) (k : Rat) (indep : List Nat) : Generic.Setup S :=
  ⟨J.contractors, fun _ => ⟨[], []⟩, J.reqs, fun _ _ _ => Optimize.averageReq k.num k.den, fun v => decide (v ∈ indep), J.parentTime⟩

/-- `call_scheduler` (average_binary_search.py:34-43) for HEFT and the topological scheduler on a just-in-time timeline: the schedule, or
`none` for an exception (or a search that does not end within the fuel). -/
def callJIT {σ : Type} (J : Job) (site : Env σ) (rule : Rule) (env : σ) (fuel : Nat) (k : Rat) (indep : List Nat) : Option Sched :=
  match scheduleJIT site rule J.graph J.nodes (Generic.planJIT (onGraph site J.graph J.nodes) (setup J k indep) fuel)
      (LFT.agents J.contractors) env fuel with
  | some (some st) => some st.sched
  | _ => none

/-- The same on a momentum timeline. -/
def callMomentum {σ : Type} (J : Job) (site : Env σ) (rule : Rule) (env : σ) (inf : Int) (fuelIn fuel : Nat) (k : Rat)
    (indep : List Nat) : Option Sched :=
  match scheduleMomentum site rule J.graph J.nodes
      (Generic.planMomentum (onGraph site J.graph J.nodes) (setup J k indep) inf fuelIn fuel) (LFT.agents J.contractors) env inf fuelIn
      fuel with
  | some (some st) => some st.sched
  | _ => none

/-- The same for an LFT scheduler, which does not look at its optimizer (lft/base.py:145-201). -/
def callLFT {σ : Type} (J : Job) (site : Env σ) (rule : Rule) (env : σ) (index : Nat → Nat → Nat) (fuel : Nat) (_k : Rat)
    (indep : List Nat) : Option Sched :=
  match scheduleJIT site rule J.graph J.nodes
      (LFT.plan _ J.contractors (fun _ => ⟨[], []⟩) J.reqs index (fun v => decide (v ∈ indep)) J.parentTime) (LFT.agents J.contractors)
      env fuel with
  | some (some st) => some st.sched
  | _ => none

/-- `fitness` (average_binary_search.py:45-49).  Simplified: `execution_time` is the latest finish, see C52. -/
def fitness (call : Rat → List Nat → Option Sched) (k : Rat) (indep : List Nat) : Option Int :=
  (call k indep).map AutoPipeline.executionTime

/-- `schedule_with_cache` (average_binary_search.py:26-105): the schedule of the last call and the works which the returned specification
marks as independent.  Outer `none`: the search does not end; inner `none`: an exception. -/
def schedule (call : Rat → List Nat → Option Sched) (nodes : List Nat) (deadline : Int) : Option (Option (Sched × List Nat)) :=
  (Deadline.search (fitness call) nodes deadline).map fun o => o.bind fun o => (call o.k o.indep).map fun s => (s, o.indep)

end Sampo.DeadlineRun
