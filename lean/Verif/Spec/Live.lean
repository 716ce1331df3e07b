import Verif.Model.Sched
import Verif.Spec.Capacity

/-!
# Specification vocabulary: a project without site limits
-/

namespace Sampo

/-- Neither materials nor zones hinder a work: they never ask for a later start, and their bookkeeping never fails. -/
structure NoSiteLimits {σ : Type} (E : Env σ) : Prop where
  material : ∀ s v t, E.matTime s v t ≤ t
  zone : ∀ s v t d, E.zoneTime s v t d ≤ t
  deliver : ∀ s v t, ∃ s' t', E.deliver s v t = some (s', t') ∧ t' ≤ t
  occupy : ∀ s v t d, ∃ s', E.occupy s v t d = some s'
  finish : ∀ s, ∃ s' t, E.finishZones s = some (s', t) ∧ t ≤ 0

/-- A work with an inseparable parent has an edge from it, with a lag that is not negative. -/
def ChainEdges {σ : Type} (E : Env σ) : Prop :=
  ∀ v p, E.insepParent v = some p → ∃ lag, 0 ≤ lag ∧ (p, lag) ∈ E.edgesTo v

/-- A team that can do the work `v` with its chain: no type twice, within the pool, of one contractor; the work asks for the
types of the team in this order, and so does each work of the chain, unless it asks for none. -/
structure Momentum.Fits {σ : Type} (E : Env σ) (pool : AgentId → Option Int) (v : Nat) (team : List Worker) : Prop where
  wf : WellFormedTeam team
  within : WithinPool pool team
  one : ∀ w ∈ team, ∀ w' ∈ team, w.contractor = w'.contractor
  kinds : team ≠ [] → (∃ l, E.chain v = v :: l) ∧ E.kinds v = team.map (·.name) ∧ E.service v = false ∧
    ∀ u ∈ E.chain v, E.kinds u = team.map (·.name) ∨ E.kinds u = []

end Sampo
