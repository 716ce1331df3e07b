import Verif.Model.Worker

/-!
# Specification: use of workers over time

This file knows nothing about timelines: it says what it means that works use workers.
-/

namespace Sampo

/-- A work placed in time: its team is busy during `[start, finish)`. -/
structure Placement where
  team : List Worker
  start : Int
  finish : Int
  independent : Bool := false
deriving DecidableEq, Repr

/-- Is the placement running at moment `t`? -/
def Placement.runs (p : Placement) (t : Int) : Prop := p.start ≤ t ∧ t < p.finish

instance (p : Placement) (t : Int) : Decidable (p.runs t) := by unfold Placement.runs; infer_instance

/-- Number of workers of type `a` in a team. -/
def teamCount (team : List Worker) (a : AgentId) : Int :=
  ((team.filter fun w => w.agent = a).map (·.count)).sum

/-- Number of workers of type `a` busy at moment `t` in the given placements. -/
def busy (ps : List Placement) (a : AgentId) (t : Int) : Int :=
  ((ps.filter fun p => p.runs t).map fun p => teamCount p.team a).sum

/-- A team in which each worker type occurs once and no count is negative. -/
def WellFormedTeam (team : List Worker) : Prop :=
  (team.map (·.agent)).Nodup ∧ ∀ w ∈ team, 0 ≤ w.count

instance (team : List Worker) : Decidable (WellFormedTeam team) := by
  unfold WellFormedTeam; infer_instance

/-- The team does not ask for more workers than the pool has. -/
def WithinPool (pool : AgentId → Option Int) (team : List Worker) : Prop :=
  ∀ w ∈ team, ∃ c, pool w.agent = some c ∧ w.count ≤ c

end Sampo
