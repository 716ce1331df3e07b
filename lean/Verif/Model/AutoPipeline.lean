import Verif.Model.Pipeline
import Verif.Model.Priority
import Verif.Model.Restructure
import Verif.Model.Scheduler
import Verif.Model.LFTPlan

/-!
# The default pipeline with automatic lag optimization, from a project to its schedule

`Model/Pipeline.lean` has the steps of `DefaultInputPipeline.schedule` with restructuring and scheduler as parameters.  Here both
are those of the program.
-/

namespace Sampo.AutoPipeline
open Restructure Pipeline

/-- A project: the work graph with its works in the order of `wg.nodes`, its start, and the requirements and priorities of the
works. -/
structure Project where
  graph : OGraph
  works : List Nat
  start : Nat
  reqs : Nat → List WorkerReq
  prio : Nat → Int

/-- `GraphNode.parents` (schemas/graph.py:184-190). -/
def parentsOf (G : OGraph) (v : Nat) : List Nat := ((G.edgesTo v).filter (·.type.isDependency)).map (·.start)

/-- The number of a new node: nodes of a `Graph` are numbers, those of a restructured graph are numbered in the order in which
they are made. -/
def number (ids : List NewId) (x : NewId) : Nat := ids.idxOf x

/-- An edge between new nodes; all lags are whole numbers (base.py:60-100, `ceil`). -/
def numbered (ids : List NewId) (e : NewEdge) : Edge := ⟨number ids e.start, number ids e.finish, ⌈e.lag⌉, e.type⟩

/-- The linked new nodes. -/
def graphOf (N : New) : Graph := (N.edges.map (numbered N.ids)).foldl Graph.addEdge Graph.empty

/-- A restructured graph. -/
structure Prepared where
  ids : List NewId
  graph : Graph
  nodes : List Nat
  prio : Nat → Int

/-- The work a new node is made from. -/
def Prepared.workOf (P : Prepared) (i : Nat) : Option Nat := (P.ids[i]?).map NewId.work

/-- `graph_restructuring` to its end (structurator/base.py:332-379): the new nodes, `WorkGraph(start, finish)`, which lists the
nodes found from the start (graph.py:476), and the correction of priorities; stages have the priority of their work
(base.py:186-192).  The recursion depth and the number of rounds that are enough are those of C21 and C33. -/
def prepare (p : Project) (prio : Nat → Int) (opt : Bool) : Option Prepared :=
  (restructure p.graph opt p.works).bind fun N =>
    ((graphOf N).traverse ((1 + ((List.range N.ids.length).map fun i => ((graphOf N).edgesFrom i).length).sum) ^ 2)
        (number N.ids (.last p.start))).bind fun nodes =>
      (Priority.correct (graphOf N).parents nodes.length nodes fun i =>
          (((N.ids[i]?).map NewId.work).map prio).getD 0).map fun prio => ⟨N.ids, graphOf N, nodes, prio⟩

/-- Requirements of new nodes: stages have the worker types and counts of their work (base.py:167-185). -/
def reqsOf (p : Project) (P : Prepared) (i : Nat) : List WorkerReq := ((P.workOf i).map p.reqs).getD []

/-- `spec[node.id]` (generic.py:165, lft/base.py:162): the last stage has the id of the work, the other stages have new ids, for
which the specification has nothing. -/
def specOf (spec : Nat → WorkSpec) (P : Prepared) (i : Nat) : WorkSpec :=
  match P.ids[i]? with
  | some (.last v) => spec v
  | _ => ⟨[], []⟩

/-- `schedule.execution_time`.  Simplified: the latest finish, which it is for schedules of a work graph (C52). -/
def executionTime (s : Sched) : Int := (s.map (·.2.finish)).foldl max 0

/-- The settings of a scheduler: data of the site for a restructured graph, and the start time. -/
structure Settings (σ : Type) where
  site : Prepared → Env σ
  env : σ
  spec : Nat → WorkSpec
  independent : Nat → Bool
  parentTime : Int

/-- `LFTScheduler.schedule_with_cache` with its default timeline (lft/base.py:96, 102-142): the schedule and the node order.  `dur`
are the estimated durations, `index` the chosen contractors, as in `Scheduler.lftRule` and `LFT.plan`. -/
def lft {σ : Type} (S : Settings σ) (dur : Prepared → Nat → Int) (index : Nat → Nat → Nat) (inf : Int) (fuel : Nat) (p : Project)
    (cs : List Contractor) (P : Prepared) : Option (Sched × List Nat) :=
  (Scheduler.orderWorks (Scheduler.lftRule (dur P) P.prio) P.graph P.nodes).bind fun order =>
    (Scheduler.scheduleMomentum (S.site P) (Scheduler.lftRule (dur P) P.prio) P.graph P.nodes
      (LFT.plan _ cs (specOf S.spec P) (reqsOf p P) index S.independent S.parentTime) (LFT.agents cs) S.env inf fuel fuel).join.map
      fun st => (st.sched, order)

/-- `HEFTScheduler` with its default timeline (heft/base.py:20-32, generic.py:106-131). -/
def heft {σ : Type} (S : Settings σ) (cost : Prepared → Nat → ℚ) (opt : JIT.State σ → Nat → Contractor → Optimizer) (fuel : Nat)
    (p : Project) (cs : List Contractor) (P : Prepared) : Option (Sched × List Nat) :=
  (Scheduler.orderWorks (Scheduler.heftRule (cost P) P.prio) P.graph P.nodes).bind fun order =>
    (Scheduler.scheduleJIT (S.site P) (Scheduler.heftRule (cost P) P.prio) P.graph P.nodes
      (Generic.planJIT (Scheduler.onGraph (S.site P) P.graph P.nodes)
        ⟨cs, specOf S.spec P, reqsOf p P, opt, S.independent, S.parentTime⟩ fuel)
      (LFT.agents cs) S.env fuel).join.map fun st => (st.sched, order)

/-- `DefaultInputPipeline.schedule` (pipeline/default.py:192-300) with `LagOptimizationStrategy.AUTO` for a ready work graph:
correction of priorities, contractors, their check, and the better of the two restructured graphs.  `none` stands for the given
graph, which this strategy does not schedule. -/
def run (p : Project) (given : Given) (scheduler : List Contractor → Prepared → Option (Sched × List Nat)) :
    Outcome (Option Prepared) Sched (List Nat) :=
  match Priority.correct (parentsOf p.graph) p.works.length p.works p.prio with
  | none => .error
  | some prio => Pipeline.schedule (fun _ => p.works.map p.reqs) (fun _ opt => (prepare p prio opt).map some)
      (fun cs P => (P.bind (scheduler cs)).map fun r => [(r.1, executionTime r.1, r.2)]) none given .auto

end Sampo.AutoPipeline
