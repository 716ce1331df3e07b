import Verif.Model.Pipeline

/-! # Specification: who can do what -/

namespace Sampo.Pipeline

/-- The contractor owns at least the minimum number of each required type of workers. -/
def Capable (c : Contractor) (reqs : List WorkerReq) : Prop :=
  ∀ r ∈ reqs, ∃ n, c.workers.lookup r.kind = some n ∧ r.minCount ≤ n

/-- Every work can be done by some contractor. -/
def Feasible (cs : List Contractor) (nodes : List (List WorkerReq)) : Prop := ∀ reqs ∈ nodes, ∃ c ∈ cs, Capable c reqs

/-- The contractor has an entry, possibly zero, for every required type of workers. -/
def Complete (c : Contractor) (nodes : List (List WorkerReq)) : Prop :=
  ∀ reqs ∈ nodes, ∀ r ∈ reqs, ∃ n, c.workers.lookup r.kind = some n

/-- The bound a method stands for, in whole workers. -/
def boundOf (m : Method) (r : WorkerReq) : Int :=
  match m with
  | .min => r.minCount
  | .avg => (r.minCount + r.maxCount) / 2
  | .max => r.maxCount

/-- The functions of a queue one after another, each with the result of the one before and its stored arguments. -/
def inTurn {V : Type} : List (Entry V) → V → Option V
  | [], x => some x
  | e :: es, x => (e.run (x :: e.args)).bind (inTurn es)

end Sampo.Pipeline
