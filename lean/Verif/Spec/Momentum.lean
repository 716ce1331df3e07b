import Verif.Model.Momentum
import Verif.Spec.Capacity

/-!
# Specification vocabulary for the momentum timeline
-/

namespace Sampo.Momentum

/-- `History pool tl ps`: `tl` is the result of a sequence of successful `update_timeline` calls, placing the works
`ps` (latest first) at arbitrary intervals, on a fresh timeline. -/
inductive History (pool : AgentId → Option Int) : Timeline → List Placement → Prop
  | fresh : History pool (init pool) []
  | place {tl tl' : Timeline} {ps : List Placement} (p : Placement) :
      History pool tl ps →
      WellFormedTeam p.team →
      0 ≤ p.start → p.start ≤ p.finish →
      update tl p.finish (p.finish - p.start) p.team = some tl' →
      History pool tl' (p :: ps)

/-- `n` more workers of type `a` are free during the whole interval `[s, s + d)`. -/
def Free (ps : List Placement) (a : AgentId) (cap n s d : Int) : Prop :=
  ∀ t, s ≤ t → t < s + d → busy ps a t + n ≤ cap

end Sampo.Momentum
