import Verif.Model.Pipeline
import Verif.Model.Priority
import Verif.Model.OrderPipeline
import Verif.Model.LFTAssign

/-!
# The default pipeline with lag optimization switched on or off, from a project to its schedule

`Model/AutoPipeline.lean` has the pipeline with automatic lag optimization; here the scheduler gets the graph itself.
-/

namespace Sampo.PlainPipeline
open Pipeline Sampo.Scheduler

/-- A project: the work graph with its works in the order of `wg.nodes`, the requirements and priorities of the works. -/
structure Project where
  graph : Graph
  works : List Nat
  reqs : Nat → List WorkerReq
  prio : Nat → Int

/-- The settings of a scheduler: data of the site, independent works and the start time. -/
structure Settings (σ : Type) where
  site : Env σ
  env : σ
  independent : Nat → Bool
  parentTime : Int

/-- `LFTScheduler.schedule_with_cache` with its default timeline (lft/base.py:96, 102-142), with its own choice of contractors
(`Model/LFTAssign.lean`), without a specification. -/
def lft {σ : Type} (S : Settings σ) (nobody : Nat) (inf : Int) (fuelIn fuel : Nat) (p : Project) (prio : Nat → Int)
    (cs : List Contractor) : Option Sched :=
  (LFT.scheduleMomentum S.site nobody p.graph p.works cs (fun _ => ⟨[], []⟩) p.reqs prio S.independent S.parentTime S.env inf fuelIn
    fuel).join.map (·.sched)

/-- `HEFTScheduler` with its default timeline (heft/base.py:20-32, generic.py:106-131) behind the `LocalOptimizedScheduler` of the
pipeline (pipeline/default.py:223-243). -/
def heft {σ : Type} (S : Settings σ) (cost : Nat → ℚ) (opt : JIT.State σ → Nat → Contractor → Optimizer)
    (optimizers : List (List Nat → Option (List Nat))) (fuel : Nat) (p : Project) (prio : Nat → Int) (cs : List Contractor) :
    Option Sched :=
  (scheduleJIT S.site (optimizedRule optimizers (heftRule cost prio)) p.graph p.works
    (Generic.planJIT (onGraph S.site p.graph p.works) ⟨cs, fun _ => ⟨[], []⟩, p.reqs, opt, S.independent, S.parentTime⟩ fuel)
    (LFT.agents cs) S.env fuel).join.map (·.sched)

/-- `DefaultInputPipeline.schedule` (pipeline/default.py:192-300) for a ready work graph: correction of priorities, contractors, their
check, the choice of the graph and the scheduler.  Simplified: the execution time is the latest finish (C52), it and the node orders are
read only by the automatic choice and by `finish`. -/
def run (restructure : Graph → Bool → Option Graph) (p : Project) (given : Given) (lag : Lag)
    (scheduler : (Nat → Int) → List Contractor → Option Sched) : Outcome Graph Sched Unit :=
  match Priority.correct p.graph.parents p.works.length p.works p.prio with
  | none => .error
  | some prio => Pipeline.schedule (fun _ => p.works.map p.reqs) restructure
      (fun cs _ => (scheduler prio cs).map fun s => [(s, (s.map (·.2.finish)).foldl max 0, ())]) p.graph given lag

end Sampo.PlainPipeline
