import Verif.Model.ScheduleSpec
import Verif.Spec.Graph
import Verif.Spec.Sched

/-! # Specification: a schedule keeps the terms of a user -/

namespace Sampo

/-- Duration of a work in a schedule (0 if it is not there). -/
def Sched.duration (sw : Sched) (v : Nat) : Int :=
  match sw.get v with
  | some x => x.finish - x.start
  | none => 0

/-- The schedule keeps the terms given for heads of chains (for a work without inseparable neighbours, the head is the work):
* the contractor of all works of the chain is one of the given ones, if there are any;
* the team consists of workers of this contractor, has workers of every type that the head requires, and the given number of workers
  of each type for which a number is given;
* the works of the chain last together exactly the given time. -/
structure KeepsTerms (g : Graph) (nodes : List Nat) (reqs : Nat → List WorkerReq) (terms : Nat → WorkTerms) (sw : Sched) : Prop where
  contractor : ∀ k v x, g.IsHead nodes k → g.InChain k v → sw.get v = some x →
    (terms k).contractors ≠ [] → x.contractor ∈ (terms k).contractors
  team : ∀ k v x, g.IsHead nodes k → g.InChain k v → sw.get v = some x →
    (x.team.map (·.name)) = (reqs k).map (·.kind) ∧ (∀ w ∈ x.team, w.contractor = x.contractor) ∧
    ∀ w ∈ x.team, ∀ n, (terms k).workers.lookup w.name = some n → w.count = n
  time : ∀ k T, g.IsHead nodes k → (terms k).time = some T → ∀ l : List Nat, l.Nodup → (∀ v, v ∈ l ↔ g.InChain k v) →
    (l.map sw.duration).sum = T

namespace ScheduleSpec

/-- The call sets the time of a work. -/
def Call.setsTime (work : Nat) : Call → Prop
  | .setExecTime w _ => w = work
  | _ => False

/-- The call sets the workers of a work. -/
def Call.setsWorkers (work : Nat) : Call → Prop
  | .assignWorkersDict w _ => w = work
  | .assignWorkers w _ => w = work
  | _ => False

/-- The call sets the contractors of a work. -/
def Call.setsContractors (work : Nat) : Call → Prop
  | .assignContractors w _ => w = work
  | _ => False

/-- The call says whether a work is independent. -/
def Call.setsIndependent (work : Nat) : Call → Prop
  | .setIndependent w _ => w = work
  | _ => False

end ScheduleSpec
end Sampo
