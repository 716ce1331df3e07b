import Verif.Model.Heads
import Verif.Model.Prioritize
import Verif.Model.GenericPlan

/-!
# The list schedulers from the work graph on (`schedule_with_cache`)
-/

namespace Sampo.Scheduler

/-- What the timelines read of a work graph (graph.py:175-182, 218-219, 249-265): edges with lags, inseparable parents and
chains.  The other fields of the environment (work units, estimator, materials, zones) are those of `site`. -/
def onGraph {σ : Type} (site : Env σ) (g : Graph) (nodes : List Nat) : Env σ :=
  { site with
    edgesTo := fun v => (g.edgesTo v).map fun e => (e.start, e.lag)
    insepParent := g.insepParent
    chain := g.chainWithSelf nodes.length }

/-- `PRIORITIZATION_F` (generic.py:30-32): heads, parent ids and child ids to an order of the heads; `none` is an exception (or
a loop that does not end). -/
abbrev Rule := List Nat → (Nat → List Nat) → (Nat → List Nat) → Option (List Nat)

/-- `HEFTScheduler` (heft/base.py:20-32, heft/prioritization.py:31-47). -/
def heftRule {α : Type} [AddCommGroup α] [LinearOrder α] (cost : Nat → α) (prio : Nat → Int) : Rule :=
  fun heads par _ => some (Heft.prioritize cost prio par heads)

/-- `LFTScheduler` (lft/base.py:99-100, 124). -/
def lftRule (dur : Nat → Int) (prio : Nat → Int) : Rule := fun heads _ chi => some (LFT.prioritize dur prio chi heads)

/-- `RandomizedLFTScheduler` (lft/base.py:250-267). -/
def randomLftRule (prio : Nat → Int) (pick : Nat → Nat) (fuel : Nat) : Rule :=
  fun heads par chi => (LFT.prioritizeRandom par chi prio pick fuel heads).join

/-- `TopologicalScheduler` and `RandomizedTopologicalScheduler` (topological/base.py:42-66, 115-138). -/
def topologicalRule (prio : Nat → Int) (shuffle : List Nat → List Nat) : Rule :=
  fun heads par _ => Topological.prioritize prio par shuffle heads

/-- Collapse of chains and prioritization, the first two steps of `schedule_with_cache` (generic.py:114-117, lft/base.py:115-124). -/
def orderWorks (rule : Rule) (g : Graph) (nodes : List Nat) : Option (List Nat) :=
  (Heads.collapse g nodes).bind fun c => rule c.1 (fun v => (c.2.1.lookup v).getD []) fun v => (c.2.2.lookup v).getD []

/-- `schedule_with_cache` (generic.py:106-131, lft/base.py:102-142) on a new just-in-time timeline, without the validation and
the `Schedule` object built at the end.  Outer `none`: a search loop does not end within the fuel; inner `none`: an exception. -/
def scheduleJIT {σ : Type} (site : Env σ) (rule : Rule) (g : Graph) (nodes : List Nat) (P : Plan (JIT.State σ))
    (pool : AgentId → Option Int) (env : σ) (fuel : Nat) : Option (Option (JIT.State σ)) :=
  match orderWorks rule g nodes with
  | none => some none
  | some order => JIT.build (onGraph site g nodes) P pool env fuel order

/-- The same on a new momentum timeline. -/
def scheduleMomentum {σ : Type} (site : Env σ) (rule : Rule) (g : Graph) (nodes : List Nat) (P : Plan (Momentum.State σ))
    (pool : AgentId → Option Int) (env : σ) (inf : Int) (fuelIn fuel : Nat) : Option (Option (Momentum.State σ)) :=
  match orderWorks rule g nodes with
  | none => some none
  | some order => Momentum.build (onGraph site g nodes) P pool env inf fuelIn fuel order

end Sampo.Scheduler
