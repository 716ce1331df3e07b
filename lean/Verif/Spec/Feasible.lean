import Verif.Spec.Graph
import Verif.Spec.Sched

/-!
# Specification: a valid schedule of a work graph

Nothing here refers to a scheduler, an order of works or a timeline.
-/

namespace Sampo

/-- A valid schedule of the works `nodes` of the graph `g` with the worker pool `pool`; `accepts v team c` says that contractor
`c` may do the chain of head `v` with `team`. -/
structure Feasible (g : Graph) (nodes : List Nat) (pool : AgentId → Option Int) (accepts : Nat → List Worker → Nat → Prop)
    (sw : Sched) : Prop where
  /-- every work once -/
  works : sw.works.Perm nodes
  /-- no work finishes before it starts -/
  times : ∀ v x, sw.get v = some x → x.start ≤ x.finish
  /-- no work starts before the finish of a predecessor plus the lag -/
  precedence : ∀ v x, sw.get v = some x → ∀ e ∈ g.edgesTo v, ∃ y, sw.get e.start = some y ∧ y.finish + e.lag ≤ x.start
  /-- inseparable works are done one after another by one contractor with one team -/
  chains : ∀ p v, v ∈ nodes → g.Follows p v → ∃ x y, sw.get p = some x ∧ sw.get v = some y ∧ x.finish ≤ y.start ∧
    x.team = y.team ∧ x.contractor = y.contractor
  /-- each chain has a contractor and a team that are acceptable for its head -/
  staffed : ∀ k v, g.IsHead nodes k → g.InChain k v → ∃ x, sw.get v = some x ∧ accepts k x.team x.contractor
  /-- at no moment are more workers busy than the pool has -/
  capacity : ∀ a n, pool a = some n → 0 ≤ n → ∀ t, busy sw.placements a t ≤ n

end Sampo
