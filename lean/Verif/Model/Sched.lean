import Verif.Model.JIT
import Verif.Model.Momentum

/-!
# Placing works: `schedule` of both timelines and the list scheduler

Works are natural numbers.  What the schedulers read of a work graph, the work estimator, the material supply and the zone
timeline are fields of `Env`; the material/zone state is an arbitrary type `σ`, so the theorems hold for every supply and
zone behaviour (also for a wrong one).
-/

namespace Sampo

/-- `ScheduledWork` (sampo/schemas/scheduled_work.py): the fields the schedulers use. -/
structure SWork where
  start : Int
  finish : Int
  team : List Worker
  contractor : Nat
deriving DecidableEq, Repr

/-- `node2swork`; an assignment `node2swork[v] = x` puts `(v, x)` in front. -/
abbrev Sched := List (Nat × SWork)

/-- `node2swork.get(v)`. -/
def Sched.get (sw : Sched) (v : Nat) : Option SWork := (sw.find? fun e => e.1 = v).map (·.2)

/-- Everything the schedulers read besides timelines. -/
structure Env (σ : Type) where
  /-- `node.edges_to` as pairs (predecessor, `int(edge.lag)`), of all edge types (sampo/schemas/graph.py:218-219). -/
  edgesTo : Nat → List (Nat × Int)
  /-- `node.inseparable_parent` (graph.py:175-182). -/
  insepParent : Nat → Option Nat
  /-- `node.get_inseparable_chain_with_self()` (graph.py:249-257). -/
  chain : Nat → List Nat
  /-- `node.work_unit.is_service_unit`. -/
  service : Nat → Bool
  /-- `[req.kind for req in node.work_unit.worker_reqs]`. -/
  kinds : Nat → List Nat
  /-- `work_estimator.estimate_time(node.work_unit, team)`. -/
  estimate : Nat → List Worker → Int
  /-- `_material_timeline.find_min_material_time(node, t, ...)`. -/
  matTime : σ → Nat → Int → Int
  /-- `zone_timeline.find_min_start_time(node.work_unit.zone_reqs, t, exec)`. -/
  zoneTime : σ → Nat → Int → Int → Int
  /-- `_material_timeline.deliver_resources(node, t, ...)`: new state and time of the last delivery. -/
  deliver : σ → Nat → Int → Option (σ × Int)
  /-- `zone_timeline.update_timeline(...)` for the node at (start, duration). -/
  occupy : σ → Nat → Int → Int → Option σ
  /-- `zone_timeline.finish_statuses()[0]`. -/
  finishZones : σ → Option (σ × Int)

/-- `max(xs, default=0)` (Python). -/
def maxDefault : List Int → Int
  | [] => 0
  | x :: xs => xs.foldl max x

/-- `GraphNode.min_start_time` (graph.py:289-291). -/
def minStart (edges : List (Nat × Int)) (sw : Sched) : Int :=
  maxDefault (edges.filterMap fun e => (Sched.get sw e.1).map fun x => x.finish + e.2)

/-- Durations fixed from outside: `exec_times[node] = (lag, time)`; `none` for nodes not in the dictionary. -/
abbrev ExecTimes := Nat → Option (Int × Int)

/-- Inputs of `build_scheduler` besides graph and timeline.  `choose` returns the team and contractor for a work, given
everything placed before: `optimize_resources` of the generic scheduler (generic.py:74-104, whatever the resource
optimizer, contractor search and work order do) or the teams prepared by LFT (lft/base.py:165); `none` is an exception.
`assignedTimes` is the distribution of `spec.assigned_time`, if there is one. -/
structure Plan (S : Type) where
  choose : S → Nat → Option (List Worker × Nat)
  independent : Nat → Bool
  assignedTimes : Nat → Option ExecTimes
  parentTime : Int

namespace JIT

variable {σ : Type} (E : Env σ)

/-- The assertion in `_schedule_with_inseparables` (just_in_time_timeline.py:295-296). -/
def parentCheck (v : Nat) (sw : Sched) (maxParent : Int) : Bool :=
  match E.insepParent v with
  | none => true
  | some p =>
    match Sched.get sw p with
    | none => false
    | some x => x.finish ≤ maxParent

/-- The loop of `_schedule_with_inseparables` (just_in_time_timeline.py:286-317).  `none` is an exception. -/
def placeChain (team : List Worker) (contractor : Nat) (times : ExecTimes) :
    List Nat → Int → σ → Sched → Option (Int × σ × Sched)
  | [], cft, s, sw => some (cft, s, sw)
  | v :: vs, cft, s, sw =>
    let maxParent := minStart (E.edgesTo v) sw
    if parentCheck E v sw maxParent then
      let lt := (times v).getD (0, E.estimate v team)
      let cst := max (cft + lt.1) maxParent
      (E.deliver s v cst).bind fun d =>
        let st := max d.2 cst
        placeChain team contractor times vs (st + lt.2) d.1 ((v, ⟨st, st + lt.2, team, contractor⟩) :: sw)
    else none

/-- State of a scheduler run on a just-in-time timeline. -/
structure State (σ : Type) where
  tl : Timeline
  env : σ
  sched : Sched

/-- `_schedule_with_inseparables` (just_in_time_timeline.py:260-323). -/
def scheduleAt (st : State σ) (node : Nat) (team : List Worker) (contractor : Nat) (independent : Bool)
    (start : Int) (times : ExecTimes) : Option (State σ) :=
  (placeChain E team contractor times (E.chain node) start st.env st.sched).bind fun r =>
    (update st.tl r.1 independent team).bind fun tl' =>
      (E.occupy r.2.1 node start (r.1 - start)).map fun env' => ⟨tl', env', r.2.2⟩

/-- Duration of the chain as estimated in `find_min_start_time_with_additional` (just_in_time_timeline.py:74-87). -/
def chainDuration (team : List Worker) (sw : Sched) : List Nat → Int → Int
  | [], acc => acc
  | v :: vs, acc => chainDuration team sw vs (max acc (minStart (E.edgesTo v) sw) + E.estimate v team)

/-- The loop of `find_min_start_time_with_additional` (just_in_time_timeline.py:89-105).  Outer `none`: out of fuel;
inner `none`: an exception. -/
def findLoop (tl : Timeline) (env : σ) (node : Nat) (team : List Worker) (independent : Bool) (exec : Int) :
    Nat → Int → Option (Option Int)
  | 0, _ => none
  | fuel + 1, cur =>
    match findMinStart tl independent team cur with
    | none => some none
    | some cur' =>
      let m := E.matTime env node cur'
      if m > cur' then findLoop tl env node team independent exec fuel m
      else
        let z := E.zoneTime env node cur' exec
        if z > cur' then findLoop tl env node team independent exec fuel z else some (some cur')

/-- `find_min_start_time_with_additional` (just_in_time_timeline.py:35-110): (start, finish). -/
def find (st : State σ) (node : Nat) (team : List Worker) (independent : Bool) (parentTime : Int) (fuel : Nat) :
    Option (Option (Int × Int)) :=
  if st.sched.isEmpty then
    let z := E.zoneTime st.env node (E.matTime st.env node parentTime) 0
    some (some (z, z))
  else
    let exec := chainDuration E team st.sched (E.chain node) 0
    (findLoop E st.tl st.env node team independent exec fuel 0).map fun r => r.map fun c => (c, c + exec)

/-- Start time passed to `schedule` in `build_scheduler` (scheduler/generic.py:173-180, scheduler/lft/base.py:173-180): the
first work of the order starts at the assigned project start, the last one not before the zones are finalized. -/
def startFor (P : Plan (State σ)) (first last : Bool) (env : σ) (found : Int) : Option (σ × Int) :=
  let s := if first then P.parentTime else found
  if last then (E.finishZones env).map fun z => (z.1, max s z.2) else some (env, s)

/-- One round of the loop of `build_scheduler` (generic.py:163-188, lft/base.py:160-187) on a just-in-time timeline. -/
def step (P : Plan (State σ)) (fuel : Nat) (first last : Bool) (st : State σ) (node : Nat) : Option (Option (State σ)) :=
  match P.choose st node with
  | none => some none
  | some c =>
    match find E st node c.1 (P.independent node) P.parentTime fuel with
    | none => none
    | some none => some none
    | some (some f) =>
      some ((startFor E P first last st.env f.1).bind fun es =>
        scheduleAt E { st with env := es.1 } node c.1 c.2 (P.independent node) es.2
          ((P.assignedTimes node).getD fun _ => none))

/-- The loop of `build_scheduler`. -/
def buildFrom (P : Plan (State σ)) (fuel : Nat) : Bool → List Nat → State σ → Option (Option (State σ))
  | _, [], st => some (some st)
  | first, v :: vs, st =>
    match step E P fuel first vs.isEmpty st v with
    | none => none
    | some none => some none
    | some (some st') => buildFrom P fuel false vs st'

/-- `build_scheduler` with a new just-in-time timeline (generic.py:133-190, lft/base.py:144-195). -/
def build (P : Plan (State σ)) (pool : AgentId → Option Int) (env : σ) (fuel : Nat) (order : List Nat) :
    Option (Option (State σ)) :=
  buildFrom E P fuel true order ⟨init pool, env, []⟩

end JIT

namespace Momentum

variable {σ : Type} (E : Env σ)

/-- State of a scheduler run on a momentum timeline. -/
structure State (σ : Type) where
  tl : Timeline
  env : σ
  sched : Sched

/-- `apply_time_spec` (momentum_timeline.py:102-103). -/
def applySpec (assigned : Option Int) (t : Int) : Int :=
  match assigned with
  | some a => max t a
  | none => t

/-- `max(apply_time_spec(v.min_start_time(node2swork)), assigned_parent_time)` (momentum_timeline.py:105-109). -/
def parentTimeOf (sw : Sched) (assigned : Option Int) (parentTime : Int) (v : Nat) : Int :=
  max (applySpec assigned (minStart (E.edgesTo v) sw)) parentTime

/-- The loop computing `exec_times` and `exec_time` (momentum_timeline.py:113-123): list of (node, lag, time). -/
def execTimes (sw : Sched) (team : List Worker) (assigned : Option Int) (parentTime maxParent : Int) :
    List Nat → Int → List (Nat × Int × Int) × Int
  | [], exec => ([], exec)
  | v :: vs, exec =>
    let t := if (E.kinds v).isEmpty then 0 else E.estimate v team
    let lagReq := parentTimeOf E sw assigned parentTime v - maxParent - exec
    let lag := if lagReq > 0 then lagReq else 0
    let r := execTimes sw team assigned parentTime maxParent vs (exec + (lag + t))
    ((v, lag, t) :: r.1, r.2)

/-- The loop of `find_min_start_time_with_additional` (momentum_timeline.py:139-157). -/
def findLoop (tl : Timeline) (env : σ) (node : Nat) (team : List Worker) (contractor : Nat) (independent : Bool)
    (exec inf : Int) (fuelIn : Nat) : Nat → Int → Option (Option Int)
  | 0, _ => none
  | fuel + 1, cur =>
    match findMinStart (tl.resources contractor) ((E.chain node).map fun v => ⟨E.service v, E.kinds v⟩) independent cur
        exec team inf fuelIn with
    | none => none
    | some none => some none
    | some (some cur') =>
      let m := E.matTime env node cur'
      if m > cur' then findLoop tl env node team contractor independent exec inf fuelIn fuel m
      else
        let z := E.zoneTime env node cur' exec
        if z > cur' then findLoop tl env node team contractor independent exec inf fuelIn fuel z else some (some cur')

/-- Result of the search: start, finish and `exec_times`. -/
structure Found where
  start : Int
  finish : Int
  times : List (Nat × Int × Int)

/-- Lines 133-161 for a non-empty team: assigned start or search, then `_validate`. -/
def findStart (st : State σ) (node : Nat) (team : List Worker) (contractor : Nat) (independent : Bool)
    (assigned : Option Int) (maxParent exec inf : Int) (fuelIn fuel : Nat) : Option (Option Int) :=
  let r := match assigned with
    | some a => some (some a)
    | none => findLoop E st.tl st.env node team contractor independent exec inf fuelIn fuel maxParent
  match r with
  | none => none
  | some none => some none
  | some (some t) => some ((validate st.tl (t + exec) exec team).map fun _ => t)

/-- `find_min_start_time_with_additional` (momentum_timeline.py:74-162).  `contractor_id` is that of the first worker
(line 98). -/
def find (st : State σ) (node : Nat) (team : List Worker) (independent : Bool) (assigned : Option Int)
    (parentTime inf : Int) (fuelIn fuel : Nat) : Option (Option Found) :=
  let maxParent := parentTimeOf E st.sched assigned parentTime node
  let te := execTimes E st.sched team assigned parentTime maxParent (E.chain node) 0
  match team with
  | [] =>
    let m := E.matTime st.env node maxParent
    let z := E.zoneTime st.env node maxParent te.2
    let t := max maxParent (max m z)
    some (some ⟨t, t, te.1⟩)
  | w :: _ =>
    (findStart E st node team w.contractor independent assigned maxParent te.2 inf fuelIn fuel).map fun r =>
      r.map fun t => ⟨t, t + te.2, te.1⟩

/-- The loop of `_schedule_with_inseparables` (momentum_timeline.py:425-449). -/
def placeChain (team : List Worker) (contractor : Nat) (times : ExecTimes) :
    List Nat → Int → σ → Sched → Option (Int × σ × Sched)
  | [], cur, s, sw => some (cur, s, sw)
  | v :: vs, cur, s, sw =>
    let lt := (times v).getD (0, E.estimate v team)
    (E.deliver s v (cur + lt.1)).bind fun d =>
      let st := max (cur + lt.1) d.2
      placeChain team contractor times vs (st + lt.2) d.1 ((v, ⟨st, st + lt.2, team, contractor⟩) :: sw)

/-- Lookup in `exec_times`. -/
def timesOf (l : List (Nat × Int × Int)) : ExecTimes := fun v => (l.find? fun e => e.1 = v).map (·.2)

/-- `_schedule_with_inseparables` (momentum_timeline.py:412-454). -/
def scheduleAt (st : State σ) (node : Nat) (team : List Worker) (contractor : Nat) (start : Int) (times : ExecTimes) :
    Option (State σ) :=
  (placeChain E team contractor times (E.chain node) start st.env st.sched).bind fun r =>
    (update st.tl r.1 (r.1 - start) team).bind fun tl' =>
      (E.occupy r.2.1 node start (r.1 - start)).map fun env' => ⟨tl', env', r.2.2⟩

/-- `schedule` (momentum_timeline.py:391-410); `assignedTimes` is the distribution of an assigned duration
(timeline/utils.py), if there is one. -/
def schedule (st : State σ) (node : Nat) (team : List Worker) (contractor : Nat) (independent : Bool)
    (assigned : Option Int) (assignedTimes : Option ExecTimes) (parentTime inf : Int) (fuelIn fuel : Nat) :
    Option (Option (State σ)) :=
  (find E st node team independent assigned parentTime inf fuelIn fuel).map fun r =>
    r.bind fun f => scheduleAt E st node team contractor f.start (assignedTimes.getD (timesOf f.times))

/-- Start time passed to `schedule` in `build_scheduler`, see `JIT.startFor`. -/
def startFor (P : Plan (State σ)) (first last : Bool) (env : σ) (found : Int) : Option (σ × Int) :=
  let s := if first then P.parentTime else found
  if last then (E.finishZones env).map fun z => (z.1, max s z.2) else some (env, s)

/-- One round of the loop of `build_scheduler` (generic.py:163-188, lft/base.py:160-187) on a momentum timeline. -/
def step (P : Plan (State σ)) (inf : Int) (fuelIn fuel : Nat) (first last : Bool) (st : State σ) (node : Nat) :
    Option (Option (State σ)) :=
  match P.choose st node with
  | none => some none
  | some c =>
    match find E st node c.1 (P.independent node) none P.parentTime inf fuelIn fuel with
    | none => none
    | some none => some none
    | some (some f) =>
      match startFor E P first last st.env f.start with
      | none => some none
      | some es =>
        schedule E { st with env := es.1 } node c.1 c.2 (P.independent node) (some es.2) (P.assignedTimes node)
          P.parentTime inf fuelIn fuel

/-- The loop of `build_scheduler`. -/
def buildFrom (P : Plan (State σ)) (inf : Int) (fuelIn fuel : Nat) :
    Bool → List Nat → State σ → Option (Option (State σ))
  | _, [], st => some (some st)
  | first, v :: vs, st =>
    match step E P inf fuelIn fuel first vs.isEmpty st v with
    | none => none
    | some none => some none
    | some (some st') => buildFrom P inf fuelIn fuel false vs st'

/-- `build_scheduler` with a new momentum timeline (generic.py:133-190, lft/base.py:144-195). -/
def build (P : Plan (State σ)) (pool : AgentId → Option Int) (env : σ) (inf : Int) (fuelIn fuel : Nat)
    (order : List Nat) : Option (Option (State σ)) :=
  buildFrom E P inf fuelIn fuel true order ⟨init pool, env, []⟩

end Momentum

end Sampo
