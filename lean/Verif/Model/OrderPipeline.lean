import Verif.Model.Scheduler
import Verif.Model.SwapOrder

/-!
# Order optimizers of the pipeline in front of a generic scheduler (`sampo/pipeline/default.py`)
-/

namespace Sampo.Pipeline
open Scheduler

/-- `ApplyQueue.apply` for optimizers of the node order (schemas/apply_queue.py:17-24): each gets the result of the one before.
`none`: an exception. -/
def applyOrder (optimizers : List (List Nat → Option (List Nat))) (order : List Nat) : Option (List Nat) :=
  optimizers.foldlM (fun o f => f o) order

/-- `delegate_prioritization` of `LocalOptimizedScheduler` (pipeline/default.py:228-238, pipeline/delegating.py:10-20): the rule of the
scheduler with the optimizers after it. -/
def optimizedRule (optimizers : List (List Nat → Option (List Nat))) (rule : Rule) : Rule :=
  fun heads par chi => (rule heads par chi).bind (applyOrder optimizers)

/-- `optimize_local(SwapOrderLocalOptimizer(), range(a.1, a.2))` for each area (pipeline/default.py:188-190); nodes know their parents
and children themselves. -/
def swaps (g : Graph) (areas : List (Nat × Nat)) : List (List Nat → Option (List Nat)) :=
  areas.map fun a => SwapOrder.optimize g.parents g.children a.1 a.2

end Sampo.Pipeline
