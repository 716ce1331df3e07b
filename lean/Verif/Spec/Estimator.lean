import Verif.Model.Estimator

/-! # Specification: how long a team takes -/

namespace Sampo.Estimator

/-- What `n` workers of a type do in a unit of time if at most `m` can work together: worker number `k`, counted from 0, adds
`1 - (k / m)²`; the sum is multiplied by the number of workers. -/
def output (n : Nat) (m : Int) : ℚ := n * ((List.range n).map fun k : Nat => 1 - ((k : ℚ) / m) ^ 2).sum

/-- `w` is the worker of the type in the team; if the type is there twice, the last one. -/
def IsWorker (team : List Worker) (kind : Nat) (w : Worker) : Prop :=
  ∃ before after, team = before ++ w :: after ∧ w.name = kind ∧ ∀ x ∈ after, x.name ≠ kind

/-- The team has the minimum of every type required. -/
def Meets (team : List Worker) (reqs : List Req) : Prop :=
  ∀ r ∈ reqs, 0 < r.minCount → ∃ w, IsWorker team r.kind w ∧ r.minCount ≤ w.count

/-- The team has no more than the maximum of any type required. -/
def Fits (team : List Worker) (reqs : List Req) : Prop :=
  ∀ r ∈ reqs, ∀ w, IsWorker team r.kind w → w.count ≤ r.maxCount

/-- The productivity of each worker is known and positive. -/
def Known (P : Means) (team : List Worker) : Prop := ∀ w ∈ team, ∃ p, meanOf P w = some p ∧ 0 < p

/-- Requirements as they should be. -/
def Sound (reqs : List Req) : Prop := ∀ r ∈ reqs, 0 ≤ r.minCount ∧ 0 ≤ r.volume

end Sampo.Estimator
