import Verif.Model.LFTAssign

/-!
# Specification: even distribution of works over contractors
-/

namespace Sampo.LFT

/-- Number of works given to a contractor. -/
def Assignment.works (A : Assignment) (c : Nat) : Nat := (A.teams.filter fun x => x.2.1 = c).length

/-- Every contractor may do the work and owns as many workers of every type as the work can use. -/
def FullyEquipped (contractors : List Contractor) (spec : WorkSpec) (reqs : List WorkerReq) : Prop :=
  ∀ c ∈ contractors, (spec.contractors = [] ∨ c.id ∈ spec.contractors) ∧
    ∀ r ∈ reqs, ∃ n, c.workers.lookup r.kind = some n ∧ r.maxCount ≤ n

/-- How many of the given works a contractor does in a schedule. -/
def doneBy (sw : Sched) (works : List Nat) (c : Nat) : Nat :=
  (works.filter fun v => (sw.get v).map (·.contractor) = some c).length

end Sampo.LFT
