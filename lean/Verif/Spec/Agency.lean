import Verif.Model.Agency
import Verif.Spec.Sched

/-!
# Specification vocabulary: agents
-/

namespace Sampo.Agency

variable {σ : Type}

/-- Everything that agent `n` does, in all blocks. -/
def doneBy (log : List (Nat × Nat × Sched)) (n : Nat) : List Placement := (log.filter fun l => l.2.1 = n).flatMap fun l => l.2.2.placements

/-- Fixed durations are not negative, teams are teams of the contractors of the agent. -/
def PlanOk {S : Type} (pool : AgentId → Option Int) (P : Sampo.Plan S) : Prop :=
  (∀ v ts, P.assignedTimes v = some ts → NonNegTimes ts) ∧
    ∀ st v team c, P.choose st v = some (team, c) → WellFormedTeam team ∧ WithinPool pool team

/-- The first work of a block, its start, needs nobody. -/
def StartsEmpty {S : Type} (P : Sampo.Plan S) (order : List Nat) : Prop :=
  ∀ v rest, order = v :: rest → ∀ st team c, P.choose st v = some (team, c) → team = []

/-- Every work but the first is placed after a predecessor, with a lag that is not negative. -/
def FromStart (E : Env σ) (order : List Nat) : Prop :=
  ∀ pre v post, order.flatMap E.chain = pre ++ v :: post → pre ≠ [] → ∃ e ∈ E.edgesTo v, 0 ≤ e.2 ∧ e.1 ∈ pre

/-- What is supposed of an agent: estimates are not negative, and the above.  The last two are needed for the just-in-time timeline only. -/
structure Crew.Sound (c : Crew σ) : Prop where
  estimates : ∀ b v team, 0 ≤ (c.env b).estimate v team
  chains : ∀ b v, v ∈ (c.env b).chain v
  plans : match c.way with
    | .jit plan _ => ∀ b k, PlanOk c.pool (plan b k) ∧ StartsEmpty (plan b k) (c.order b k) ∧ FromStart (c.env b) (c.order b k)
    | .momentum plan _ _ => ∀ b k, PlanOk c.pool (plan b k)

end Sampo.Agency
