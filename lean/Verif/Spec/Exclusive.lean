import Verif.Spec.Graph
import Verif.Spec.Sched

/-! # Specification: works that are done independently of all others -/

namespace Sampo

/-- The team has at least one worker of this type of this contractor. -/
def HasWorker (team : List Worker) (a : AgentId) : Prop := ∃ w ∈ team, w.agent = a ∧ 0 < w.count

/-- A work of an independent chain never overlaps with a work of another chain that uses workers of the same type of the same
contractor. -/
def Exclusive (g : Graph) (nodes : List Nat) (independent : Nat → Bool) (sw : Sched) : Prop :=
  ∀ k k' u v x y, g.IsHead nodes k → g.IsHead nodes k' → k ≠ k' → g.InChain k u → g.InChain k' v →
    independent k = true → sw.get u = some x → sw.get v = some y → ∀ a, HasWorker x.team a → HasWorker y.team a →
    x.finish ≤ y.start ∨ y.finish ≤ x.start

end Sampo
