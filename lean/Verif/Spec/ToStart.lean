import Verif.Model.ToStart
import Verif.Spec.Supply

/-! # Specification: sequences of deliveries of `ToStartSupplyTimeline` -/

namespace Sampo.ToStart
open Supply

/-- All sequences of calls of `deliver_resources` on a new timeline. -/
inductive History (l : Land) : State → List Served → Prop
  | fresh : History l (State.init l) []
  | serve {st : State} {log : List Served} {w : Work} {deadline : Int} {out : Outcome} : History l st log → 0 ≤ deadline →
      deliver l st w deadline = some out →
      History l out.state (⟨w, deadline, out.records, out.time, out.booked⟩ :: log)

end Sampo.ToStart
