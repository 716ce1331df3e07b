import Verif.Model.Sched
import Verif.Model.Graph
import Verif.Model.Contractor
import Verif.Spec.Graph

/-! Specification: projects in which the works of a chain are alike. -/

namespace Sampo

/-- Each work of a chain has the requirements of the first one, and contractors allowed for the first one are allowed for it. -/
def Uniform (g : Graph) (nodes : List Nat) (reqs : Nat → List WorkerReq) (spec : Nat → WorkSpec) : Prop :=
  ∀ k v, g.IsHead nodes k → g.InChain k v → (∀ r ∈ reqs k, r ∈ reqs v) ∧
    ((spec v).contractors = [] ∨ ((spec k).contractors ≠ [] ∧ ∀ c ∈ (spec k).contractors, c ∈ (spec v).contractors))

/-- Service works of the schedule take no time. -/
def Instant (service : Nat → Bool) (sw : Sched) : Prop := ∀ v x, sw.get v = some x → service v = true → x.start = x.finish

end Sampo
