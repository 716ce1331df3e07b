import Verif.Model.Scheduler
import Verif.Model.Decode
import Verif.Model.GeneticOffspring
import Verif.Model.GeneticLoop

/-!
# The genetic scheduler from the work graph on
(`sampo/scheduler/genetic`: `utils.py`, `converter.py`, `schedule_builder.py`)

Kinds of workers and contractors are numbered as in `Model/Decode.lean`: kinds in the order of the worker pool, contractors in
the order of the list, so the dictionaries `worker_name2index` and `contractor2index` are identities; a `KeyError` in them is a
number that is too large.
-/

namespace Sampo.GeneticRun

open Genetic (Ind Problem MateDraw MutDraw)
open GeneticRes (Chrom contractorBorders)

/-- What the genetic scheduler gets: work graph, contractors, work units (requirements, priorities) and specification. -/
structure Project where
  graph : Graph
  nodes : List Nat
  contractors : List Contractor
  reqs : Nat → List WorkerReq
  prio : Nat → Int
  spec : Nat → WorkSpec

/-- `len(worker_name2index)` (utils.py:45-46). -/
def Project.kinds (J : Project) : Nat := (GeneticRes.kinds (J.contractors.map (·.workers))).length

/-- `contractor_borders` (utils.py:51-54). -/
def Project.borders (J : Project) : Nat → Nat → Int := contractorBorders (J.contractors.map (·.workers))

/-- `index2node` (utils.py:59). -/
def node (heads : List Nat) (i : Nat) : Nat := heads.getD i 0

/-- `work_id2index[...]` (utils.py:60); `none` is a `KeyError`. -/
def index (heads : List Nat) (v : Nat) : Option Nat := if v ∈ heads then some (heads.idxOf v) else none

/-- `children` and `parents` (utils.py:61-64): the dictionaries of `get_head_nodes_with_connections_mappings` with indices. -/
def relation (heads : List Nat) (d : List (Nat × List Nat)) : Option (List (Nat × List Nat)) :=
  d.mapM fun e => (index heads e.1).bind fun i => (e.2.mapM (index heads)).map fun l => (i, l)

/-- A cell of `resources_border` (utils.py:68, 71-74): the last requirement of the kind, zero without one. -/
def limit (f : WorkerReq → Int) (reqs : List WorkerReq) (k : Nat) : Int :=
  reqs.foldl (fun x r => if r.kind = k then f r else x) 0

/-- `prepare_optimized_data_structures` (utils.py:35-83): heads in the order of `index2node` and the data of the operators.
`none`: an exception.  Zones are left out. -/
def prepare (J : Project) : Option (List Nat × Problem) :=
  (Heads.collapse J.graph J.nodes).bind fun c =>
    (relation c.1 c.2.1).bind fun parents => (relation c.1 c.2.2).bind fun children =>
      if c.1.all fun v => ((J.reqs v).all fun r => decide (r.kind < J.kinds)) &&
          (J.spec v).contractors.all fun x => decide (x < J.contractors.length) then
        some (c.1, {
          n := c.1.length
          m := J.kinds
          nc := J.contractors.length
          parents := fun i => (parents.lookup i).getD []
          children := fun i => (children.lookup i).getD []
          prio := fun i => J.prio (node c.1 i)
          lo := fun i => limit (·.minCount) (J.reqs (node c.1 i))
          hi := fun i => limit (·.maxCount) (J.reqs (node c.1 i))
          cap := J.borders
          enabled := fun i => (J.spec (node c.1 i)).enabled })
      else none

/-! ### First chromosomes -/

/-- The loop over the workers of a team (converter.py:66-72). -/
def writeTeam (J : Project) (i : Nat) : List Worker → Chrom → Option Chrom
  | [], ch => some ch
  | w :: ws, ch =>
    if w.name < J.kinds ∧ w.contractor < J.contractors.length then
      writeTeam J i ws { ch with
        amount := fun j k => if j = i ∧ k = w.name then w.count else ch.amount j k
        contractor := fun j => if j = i then w.contractor else ch.contractor j }
    else none

/-- Body of the loop over the works (converter.py:61-78).  `first` is the first element of a set, whatever its order. -/
def writeWork (J : Project) (heads : List Nat) (first : List Nat → Nat) (sw : Sched) (rows : Nat) (v : Nat) (ch : Chrom) :
    Option Chrom :=
  (index heads v).bind fun i => (sw.get v).bind fun x =>
    if i < rows then
      if x.team.isEmpty then
        let c := if (J.spec v).contractors.isEmpty then 0 else first (J.spec v).contractors
        if c < J.contractors.length then some { ch with contractor := fun j => if j = i then c else ch.contractor j } else none
      else writeTeam J i x.team ch
    else none

/-- The loop over the works (converter.py:61-78). -/
def writeWorks (J : Project) (heads : List Nat) (first : List Nat → Nat) (sw : Sched) (rows : Nat) :
    List Nat → Chrom → Option Chrom
  | [], ch => some ch
  | v :: vs, ch => (writeWork J heads first sw rows v ch).bind (writeWorks J heads first sw rows vs)

/-- `convert_schedule_to_chromosome` (converter.py:27-83): `sw` is the schedule, `order` the list of nodes that came with it.
`none`: an exception.  The copy of the specification and the zone changes (all zero) are left out. -/
def convert (J : Project) (heads : List Nat) (first : List Nat → Nat) (sw : Sched) (order : List Nat) : Option Ind :=
  (order.mapM (index heads)).bind fun o =>
    (writeWorks J heads first sw order.length order ⟨fun _ _ => 0, fun _ => 0, J.borders⟩).map fun ch => ⟨o, ch⟩

/-! ### Generations -/

/-- Mating of neighbours, `zip(pop[::2], pop[1::2])` (schedule_builder.py:360-364). -/
def mateAll (P : Problem) (optimize : Bool) (d : Nat → MateDraw) : Nat → List Ind → Option (List Ind)
  | j, a :: b :: rest =>
    (Genetic.mateInd P optimize (d j) a b).bind fun c => (mateAll P optimize d (j + 1) rest).map fun l => c.1 :: c.2 :: l
  | _, _ => some []

/-- Mutation of all children (schedule_builder.py:366-371). -/
def mutateAll (P : Problem) (optimize : Bool) (d : Nat → MutDraw) : Nat → List Ind → Option (List Ind)
  | _, [] => some []
  | j, a :: rest => (Genetic.mutateInd P optimize (d j) a).bind fun c => (mutateAll P optimize d (j + 1) rest).map (c :: ·)

/-- `make_offspring` (schedule_builder.py:358-373). -/
def makeOffspring (P : Problem) (optimize : Bool) (dm : Nat → MateDraw) (du : Nat → MutDraw) (pop : List Ind) : Option (List Ind) :=
  (mateAll P optimize dm 0 pop).bind (mutateAll P optimize du 0)

/-- Everything random in a stage, for every generation. -/
structure Randomness where
  shuffle : Nat → List Ind → List Ind
  mate : Nat → Nat → MateDraw
  mutation : Nat → Nat → MutDraw
  inTime : Nat → Bool

/-- The environment of a stage of the loop (schedule_builder.py:222-246, 306-333).  An exception in `make_offspring` is taken as
no offspring; it does not occur (`GeneticRun.makeOffspring_valid`). -/
def stage (P : Problem) (optimize : Bool) (R : Randomness) : GeneticLoop.Env Ind where
  shuffle := R.shuffle
  offspring g pop := (makeOffspring P optimize (R.mate g) (R.mutation g) pop).getD []
  inTime := R.inTime

/-! ### Schedules -/

variable {σ : Type}

/-- The arguments of the schedule generation scheme for a chromosome (converter.py:86-124); `B` supplies the data that is not
part of the project here (volumes, given times, independence, materials, zones). -/
def input (J : Project) (heads : List Nat) (B : Decode.Input σ) (i : Ind) : Decode.Input σ :=
  { B with
    order := i.order
    chrom := i.res
    node := node heads
    reqs := J.reqs
    spec := J.spec
    pool := getPool J.contractors
    kinds := J.kinds
    parents := J.graph.parents }

/-- `toolbox.chromosome_to_schedule` with the parallel scheme (converter.py:86-237), as called for every member of the hall of
fame (schedule_builder.py:343-350). -/
def schedule (site : Env σ) (J : Project) (heads : List Nat) (B : Decode.Input σ) (inf : Int) (env : σ) (fuel : Nat) (i : Ind) :
    Option (Option (Decode.Loop σ)) :=
  Decode.parallel (input J heads B i) (Scheduler.onGraph site J.graph J.nodes) inf env fuel

end Sampo.GeneticRun
