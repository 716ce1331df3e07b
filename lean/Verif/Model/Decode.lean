import Verif.Model.Sched
import Verif.Model.Assigned
import Verif.Model.Contractor
import Verif.Model.GeneticResources
import Mathlib.Data.List.Sort

/-!
# Decoding chromosomes: serial and parallel schedule generation schemes
(`sampo/scheduler/genetic/converter.py`)

Kinds of workers and contractors are numbered; the dictionaries `worker_name2index`, `contractor2index` and
`index2contractor` are these numberings and are left out.  Works of the chromosome have indices, `index2node` maps them to
nodes of the graph (head works of inseparable chains).
-/

namespace Sampo.Decode

/-- Arguments of the two schemes, besides graph, estimator and landscape (`Env`). -/
structure Input (σ : Type) where
  /-- `chromosome[0]`. -/
  order : List Nat
  /-- `chromosome[1]` and `chromosome[2]`. -/
  chrom : GeneticRes.Chrom
  /-- `index2node`. -/
  node : Nat → Nat
  /-- `node.work_unit.worker_reqs`. -/
  reqs : Nat → List WorkerReq
  /-- `chromosome[3].get_work_spec(node.id)`: contractors and worker counts. -/
  spec : Nat → WorkSpec
  /-- `work_spec.is_independent`. -/
  independent : Nat → Bool
  /-- `work_spec.assigned_time`. -/
  assignedTime : Nat → Option Int
  /-- `node.work_unit.volume`. -/
  volume : Nat → Int
  /-- `int(remaining_time * volume / total_volume)` (see `Model/Assigned.lean`). -/
  share : Int → Int → Int → Int
  /-- `worker_pool` (keys; counts are replaced by the chromosome's borders). -/
  pool : WPool
  /-- Number of kinds of workers, `len(worker_name2index)`. -/
  kinds : Nat
  /-- `assigned_parent_time`. -/
  parentTime : Int
  /-- `node.parents` (graph.py:184-190): predecessors over edges of the types FS, IFS and FFS. -/
  parents : Nat → List Nat
  /-- `_material_timeline.can_schedule_at_the_moment(node, t, ...)`. -/
  matOk : σ → Nat → Int → Bool
  /-- `zone_timeline.can_schedule_at_the_moment(node.work_unit.zone_reqs, t, exec_time)`. -/
  zoneOk : σ → Nat → Int → Int → Bool

variable {σ : Type}

/-- The counts of the pool given to the timeline (converter.py:152-156 and 265-269): the chromosome's borders. -/
def borderPool (D : Input σ) : AgentId → Option Int := fun a => (D.pool a.2 a.1).map fun _ => D.chrom.border a.1 a.2

/-- `get_exec_times_from_assigned_time_for_chain` (timeline/utils.py:5-59) as a dictionary over the works of the chain. -/
def chainTimes (D : Input σ) (chain : List Nat) (t : Int) : ExecTimes := fun v =>
  ((chain.zip (Assigned.execTimes D.share (chain.map D.volume) t)).lookup v).map fun d => (0, d)

/-- `Scheduler.optimize_resources_using_spec` without optimizer (scheduler/base.py:91-128): counts fixed by the
specification are written into the workers of the team whose kind is required.  `none`: `KeyError`. -/
def respec (reqs : List WorkerReq) (assigned : List (Nat × Int)) (team : List Worker) : Option (List Worker) :=
  if assigned.length = reqs.length then
    team.mapM fun w =>
      if w.name ∈ reqs.map (·.kind) then (assigned.lookup w.name).map fun n => { w with count := n } else some w
  else
    some (team.map fun w =>
      if w.name ∈ reqs.map (·.kind) ∧ (assigned.lookup w.name).getD 0 > 0 then
        { w with count := (assigned.lookup w.name).getD 0 }
      else w)

/-! ### Serial scheme -/

/-- The team in the serial scheme (converter.py:285-290): one worker for each requirement. -/
def serialTeam (D : Input σ) (i : Nat) : Option (List Worker) :=
  ((D.reqs (D.node i)).mapM fun r => (D.pool r.kind (D.chrom.contractor i)).map fun _ =>
    (⟨D.chrom.contractor i, r.kind, D.chrom.amount i r.kind⟩ : Worker)).bind
      (respec (D.reqs (D.node i)) (D.spec (D.node i)).assigned)

/-- What the loop of the serial scheme hands to the momentum timeline for work `i` (converter.py:276-301). -/
def serialPlan (D : Input σ) (E : Env σ) (i : Nat) : Plan (Momentum.State σ) where
  choose _ _ := (serialTeam D i).map fun team => (team, D.chrom.contractor i)
  independent := D.independent
  assignedTimes v := (D.assignedTime v).map (chainTimes D (E.chain v))
  parentTime := D.parentTime

/-- The loop of `serial_schedule_generation_scheme` (converter.py:276-311).  `post` is what the zone statuses of the
chromosome do to the zones after a work (converter.py:302-311); it may do anything to the state of zones.  The last work
gets no special treatment, unlike in the list schedulers. -/
def serialFrom (D : Input σ) (E : Env σ) (post : Momentum.State σ → Nat → Option σ) (inf : Int) (fuelIn fuel : Nat) :
    Bool → List Nat → Momentum.State σ → Option (Option (Momentum.State σ))
  | _, [], st => some (some st)
  | first, i :: is, st =>
    match Momentum.step E (serialPlan D E i) inf fuelIn fuel first false st (D.node i) with
    | none => none
    | some none => some none
    | some (some st1) =>
      match post st1 i with
      | none => some none
      | some env => serialFrom D E post inf fuelIn fuel false is { st1 with env := env }

/-- `serial_schedule_generation_scheme` (converter.py:240-316) with a new timeline. -/
def serial (D : Input σ) (E : Env σ) (post : Momentum.State σ → Nat → Option σ) (env : σ) (inf : Int)
    (fuelIn fuel : Nat) : Option (Option (Momentum.State σ)) :=
  serialFrom D E post inf fuelIn fuel true D.order ⟨Momentum.init (borderPool D), env, []⟩

/-! ### Parallel scheme -/

/-- An element of `enumerated_works_remaining` (converter.py:184-186). -/
structure Item where
  idx : Nat
  node : Nat
  team : List Worker
  contractor : Nat
  exec : Int
deriving DecidableEq, Repr

/-- The team in `decode` (converter.py:173-176): kinds with a positive amount. -/
def parallelTeam (D : Input σ) (i : Nat) : Option (List Worker) :=
  ((List.range D.kinds).filter fun k => D.chrom.amount i k > 0).mapM fun k =>
    (D.pool k (D.chrom.contractor i)).map fun _ => (⟨D.chrom.contractor i, k, D.chrom.amount i k⟩ : Worker)

/-- `calculate_working_time_cascade` (scheduler/utils/time_computaion.py:12-32). -/
def cascade (E : Env σ) (v : Nat) (team : List Worker) : Int :=
  if (E.insepParent v).isSome then 0 else ((E.chain v).map fun u => E.estimate u team).sum

/-- `decode` (converter.py:166-181). -/
def decode (D : Input σ) (E : Env σ) (idx i : Nat) : Option Item :=
  (parallelTeam D i).map fun team =>
    ⟨idx, D.node i, team, D.chrom.contractor i, (D.assignedTime (D.node i)).getD (cascade E (D.node i) team)⟩

/-- The list of works with their positions (converter.py:184-186). -/
def decodeAll (D : Input σ) (E : Env σ) : Nat → List Nat → Option (List Item)
  | _, [] => some []
  | idx, i :: is => (decode D E idx i).bind fun it => (decodeAll D E (idx + 1) is).map (it :: ·)

/-- The independent branch of `can_schedule_at_the_moment` (just_in_time_timeline.py:145-152).  `none`: an exception. -/
def allReleased (tl : JIT.Timeline) (t : Int) : List Worker → Option Bool
  | [] => some true
  | w :: ws =>
    (tl w.agent).bind fun q => (JIT.latest q).bind fun l => if l > t then some false else allReleased tl t ws

/-- `can_schedule_at_the_moment` of the just-in-time timeline (just_in_time_timeline.py:138-186).  `none`: an exception. -/
def canNow (D : Input σ) (E : Env σ) (st : JIT.State σ) (it : Item) (t : Int) : Option Bool :=
  if D.independent it.node then allReleased st.tl t it.team
  else if ((E.chain it.node).any fun u => (D.parents u).any fun p =>
      !(E.chain it.node).contains p && (Sched.get st.sched p).isNone) then some false
  else if minStart (E.edgesTo it.node) st.sched > t then some false
  else (JIT.findMinStart st.tl false it.team 0).map fun m =>
    if m ≤ t then D.matOk st.env it.node t && D.zoneOk st.env it.node t it.exec else false

/-- The start passed to `schedule` (converter.py:200-206). -/
def startOf (D : Input σ) (E : Env σ) (env : σ) (it : Item) (t : Int) : Option (σ × Int) :=
  if it.idx + 1 = D.order.length then (E.finishZones env).map fun z => (z.1, max t z.2)
  else some (env, if it.idx = 0 then D.parentTime else t)

/-- Body of `work_scheduled` after the check (converter.py:197-216): new state and start time. -/
def place (D : Input σ) (E : Env σ) (st : JIT.State σ) (it : Item) (t : Int) : Option (JIT.State σ × Int) :=
  (respec (D.reqs it.node) (D.spec it.node).assigned it.team).bind fun team =>
    (startOf D E st.env it t).bind fun es =>
      (JIT.scheduleAt E { st with env := es.1 } it.node team it.contractor (D.independent it.node) es.2
        (chainTimes D (E.chain it.node) it.exec)).map fun st' => (st', es.2)

/-- `work_timeline.update_timeline` (general_timeline.py:30-33): only the times of the sorted events are used. -/
def addEvents (ev : List Int) (start exec : Int) : List Int := (ev.orderedInsert (· ≤ ·) start).orderedInsert (· ≤ ·) (start + exec)

/-- `enumerated_works_remaining.remove_if(work_scheduled)` at moment `t` (converter.py:193-217 and 234): remaining works,
state and events. -/
def pass (D : Input σ) (E : Env σ) (t : Int) :
    List Item → JIT.State σ → List Int → Option (List Item × JIT.State σ × List Int)
  | [], st, ev => some ([], st, ev)
  | it :: its, st, ev =>
    (canNow D E st it t).bind fun ok =>
      if ok then (place D E st it t).bind fun r => pass D E t its r.1 (addEvents ev r.2 it.exec)
      else (pass D E t its st ev).map fun r => (it :: r.1, r.2)

/-- Variables of the main loop (converter.py:163-191). -/
structure Loop (σ : Type) where
  items : List Item
  st : JIT.State σ
  events : List Int
  ckpt : Nat
  start : Int
  prev : Int

/-- A pass at moment `t` and line 235. -/
def advance (D : Input σ) (E : Env σ) (t prev : Int) (L : Loop σ) : Option (Loop σ) :=
  (pass D E t L.items L.st L.events).map fun r =>
    ⟨r.1, r.2.1, r.2.2, min (L.ckpt + 1) r.2.2.length, t, prev⟩

/-- The main loop (converter.py:220-235).  Outer `none`: out of fuel; inner `none`: an exception.  Time is saturated in the
code, so `is_inf` is "not below infinity" here. -/
def loop (D : Input σ) (E : Env σ) (inf : Int) : Nat → Loop σ → Option (Option (Loop σ))
  | 0, _ => none
  | fuel + 1, L =>
    if L.items.isEmpty then some (some L)
    else
      match L.events[L.ckpt]? with
      | some t =>
        if L.prev = t then loop D E inf fuel { L with ckpt := L.ckpt + 1, start := t }
        else if inf ≤ t then some (some L)
        else
          match advance D E t t L with
          | none => some none
          | some L' => loop D E inf fuel L'
      | none =>
        match advance D E (L.start + 1) L.prev L with
        | none => some none
        | some L' => loop D E inf fuel L'

/-- State before the main loop (converter.py:158-191). -/
def begin_ (D : Input σ) (E : Env σ) (env : σ) : Option (Loop σ) :=
  (decodeAll D E 0 D.order).map fun items =>
    ⟨items, ⟨JIT.init (borderPool D), env, []⟩, [0], 0, D.parentTime - 1, D.parentTime - 1 - 1⟩

/-- `parallel_schedule_generation_scheme` (converter.py:127-237) with a new timeline. -/
def parallel (D : Input σ) (E : Env σ) (inf : Int) (env : σ) (fuel : Nat) : Option (Option (Loop σ)) :=
  match begin_ D E env with
  | none => some none
  | some L => loop D E inf fuel L

end Sampo.Decode
