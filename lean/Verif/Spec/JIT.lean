import Verif.Model.JIT
import Verif.Spec.Capacity

/-!
# Specification vocabulary for the just-in-time timeline
-/

namespace Sampo.JIT

/-- All workers recorded in a release list. -/
def total (q : Queue) : Int := (q.map (·.count)).sum

/-- Workers recorded as released not later than `t`. -/
def releasedBy (q : Queue) (t : Int) : Int := ((q.filter fun e => e.time ≤ t).map (·.count)).sum

/-- Release list ordered by time. -/
def Ordered (q : Queue) : Prop := q.Pairwise fun a b => a.time ≤ b.time

/-- No negative number is recorded. -/
def NonNeg (q : Queue) : Prop := ∀ e ∈ q, 0 ≤ e.count

/-- `History pool tl ps`: the timeline `tl` is the result of placing the works `ps` (latest first), one after another,
on a fresh timeline over the pool.  Each work is placed not before the start time which the timeline reports for its
team (asked from some earliest admissible time `from_`), and asks for no more workers than the pool has. -/
inductive History (pool : AgentId → Option Int) : Timeline → List Placement → Prop
  | fresh : History pool (init pool) []
  | place {tl tl' : Timeline} {ps : List Placement} (p : Placement) (from_ t : Int) :
      History pool tl ps →
      WellFormedTeam p.team →
      WithinPool pool p.team →
      findMinStart tl p.independent p.team from_ = some t →
      t ≤ p.start → p.start ≤ p.finish →
      update tl p.finish p.independent p.team = some tl' →
      History pool tl' (p :: ps)

end Sampo.JIT
