import Verif.Model.Sched
import Verif.Spec.Blocks

/-!
# Agents that schedule blocks on their own timelines (`sampo/scheduler/multi_agency/multi_agency.py`)

Here the offers of agents are not arbitrary as in `Blocks`: they are made by the list schedulers of `Sched` on the timeline that the agent
keeps from its earlier blocks.
-/

namespace Sampo.Agency

/-- The timeline of an agent with the state of its materials and zones. -/
inductive Kept (σ : Type)
  | jit (tl : JIT.Timeline) (env : σ)
  | momentum (tl : Momentum.Timeline) (env : σ)

/-- The scheduler of an agent by its type of timeline.  What it decides about teams, independent works and durations is a `Plan` for every
block; schedulers may be random, so it is also for every call. -/
inductive Way (σ : Type)
  | jit (plan : Nat → Nat → Plan (JIT.State σ)) (fuel : Nat)
  | momentum (plan : Nat → Nat → Plan (Momentum.State σ)) (fuelIn fuel : Nat)

/-- An agent: its contractors' workers, the state of materials and zones of a new timeline, the work graphs of blocks as its scheduler sees
them, the order in which it places the works of a block, and the scheduler. -/
structure Crew (σ : Type) where
  pool : AgentId → Option Int
  fresh : σ
  env : Nat → Env σ
  order : Nat → Nat → List Nat
  way : Way σ

/-- The timeline to start from (generic.py:160-161, lft/base.py:126-127). -/
def Crew.jitFrom {σ : Type} (c : Crew σ) : Option (Kept σ) → JIT.State σ
  | some (.jit tl env) => ⟨tl, env, []⟩
  | _ => ⟨JIT.init c.pool, c.fresh, []⟩

/-- The timeline to start from (generic.py:160-161, lft/base.py:126-127). -/
def Crew.momentumFrom {σ : Type} (c : Crew σ) : Option (Kept σ) → Momentum.State σ
  | some (.momentum tl env) => ⟨tl, env, []⟩
  | _ => ⟨Momentum.init c.pool, c.fresh, []⟩

/-- `schedule_with_cache` with a timeline (generic.py:106-131, 158-190; lft/base.py:103-142, 157-195): the works of the block and the timeline
with them.  A timeline of another type than the scheduler's is replaced by a new one.  `none`: an exception; the model also runs out of
fuel. -/
def Crew.run {σ : Type} (c : Crew σ) (kept : Option (Kept σ)) (block call : Nat) (parent : Int) : Option (Sched × Kept σ) :=
  match c.way with
  | .jit plan fuel =>
    match JIT.buildFrom (c.env block) { plan block call with parentTime := parent } fuel true (c.order block call) (c.jitFrom kept) with
    | some (some st) => some (st.sched, .jit st.tl st.env)
    | _ => none
  | .momentum plan fuelIn fuel =>
    match Momentum.buildFrom (c.env block) { plan block call with parentTime := parent } TIME_INF fuelIn fuel true (c.order block call)
        (c.momentumFrom kept) with
    | some (some st) => some (st.sched, .momentum st.tl st.env)
    | _ => none

/-- `schedule.execution_time`.  Simplified: the latest finish, which it is for schedules of a work graph (C52). -/
def latest (s : Sched) : Int := maxDefault (s.map fun x => x.2.finish)

/-- An agent with its timeline; the schedule of its last block is kept with the timeline. -/
abbrev Hand (σ : Type) := Blocks.Agent (Kept σ × Sched)

/-- `Agent.offer` (multi_agency.py:36-49).  The timeline is a copy (`deepcopy`), so the agent does not change. -/
def offer {σ : Type} (crews : Nat → Crew σ) (a : Hand σ) (block call : Nat) (parent : Int) : Option (Blocks.Offer (Kept σ × Sched)) :=
  ((crews a.name).run (a.timeline.map (·.1)) block call parent).map fun r => ⟨parent, latest r.1, (r.2, r.1)⟩

/-- What changes while blocks are scheduled: agents, number of calls of schedulers so far, and for every block its number, the name of its
agent and its schedule (`ScheduledBlock`, multi_agency.py:96-121). -/
structure State (σ : Type) where
  agents : List (Hand σ)
  calls : Nat
  log : List (Nat × Nat × Sched)

/-- An auction in which `pick` decides who is best (multi_agency.py:168-199, 212-251, 317-381): the best agent makes an offer and confirms it,
the others update their statistics. -/
def auction {σ : Type} (crews : Nat → Crew σ) (pick : Nat → Int → State σ → Option (Hand σ × Nat)) (block : Nat) (parent : Int)
    (s : State σ) : Option (Nat × Int × Int × State σ) :=
  (pick block parent s).bind fun p => (offer crews p.1 block p.2 parent).map fun o =>
    (p.1.name, o.start, o.finish, ⟨s.agents.map fun a => if a.name ≠ p.1.name then a.updateStat o.start else a.confirm o, p.2 + 1,
      s.log ++ [(block, p.1.name, o.timeline.2)]⟩)

/-- The offers of all agents (multi_agency.py:182). -/
def asked {σ : Type} (crews : Nat → Crew σ) (block : Nat) (parent : Int) : List (Hand σ) → Nat →
    Option (List (Hand σ × Blocks.Offer (Kept σ × Sched)) × Nat)
  | [], call => some ([], call)
  | a :: as, call => (offer crews a block call parent).bind fun o => (asked crews block parent as (call + 1)).map fun r =>
    ((a, o) :: r.1, r.2)

/-- How `Manager.run_auction` picks the best agent (multi_agency.py:176-190). -/
def managerPick {σ : Type} (crews : Nat → Crew σ) (block : Nat) (parent : Int) (s : State σ) : Option (Hand σ × Nat) :=
  (asked crews block parent s.agents s.calls).bind fun r => (Blocks.choose r.1 (none, timeInf)).1.map fun a => (a, r.2)

/-- `Manager.manage_blocks` (multi_agency.py:137-160) with new agents. -/
def manage {σ : Type} (crews : Nat → Crew σ) (pick : Nat → Int → State σ → Option (Hand σ × Nat)) (names : List Nat) (p : Blocks.Plan) :
    Option (List Blocks.SBlock × State σ) :=
  Blocks.manageBlocks (auction crews pick) p.blocks.length p.graph ⟨names.map fun n => ⟨n, none, 0, 0⟩, 0, []⟩

end Sampo.Agency
