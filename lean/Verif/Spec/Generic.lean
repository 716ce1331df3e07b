import Verif.Model.GenericPlan
import Verif.Props.C16_Teams

/-! # Specification vocabulary: projects for the generic scheduler -/

namespace Sampo

/-- The optimizer gives an answer when no count is fixed. -/
def Answers (opt : Optimizer) : Prop :=
  ∀ down up counts, (∀ d ∈ down, 0 ≤ d) → Ordered down up → counts.length = down.length →
    ∃ r, opt none down up counts = some r

namespace Generic
open C14 (Admissible)

/-- The contractor owns enough workers for the requirements. -/
def Able (c : Contractor) (reqs : List WorkerReq) : Prop :=
  ∀ r ∈ reqs, ∃ n, c.workers.lookup r.kind = some n ∧ r.minCount ≤ n

/-- The input of the generic scheduler is sound: contractors and requirements are, no counts are fixed, the optimizer answers with
counts between the borders, and for each work an admissible contractor owns enough workers of every required type. -/
structure Sound {S : Type} (G : Setup S) : Prop where
  contractors : C16.SoundContractors G.contractors
  reqs : ∀ v, C16.SoundReqs (G.reqs v)
  kinds : ∀ v, ((G.reqs v).map (·.kind)).Nodup
  free : ∀ v, (G.spec v).assigned = []
  opt : ∀ st v c, StaysWithin (G.opt st v c) ∧ Answers (G.opt st v c)
  able : ∀ v, ∃ c ∈ G.contractors, Admissible (G.spec v) c ∧ Able c (G.reqs v)
  start : 0 ≤ G.parentTime

variable {σ : Type}

/-- Bounds on the project: for the works of the order and their chains, lags up to `L` and durations of sound teams up to `D`; no
duration is negative. -/
structure Bounded {S : Type} (E : Env σ) (G : Setup S) (order : List Nat) (L D : Int) : Prop where
  lag0 : 0 ≤ L
  dur0 : 0 ≤ D
  est0 : ∀ v team, 0 ≤ E.estimate v team
  est : ∀ v ∈ order, ∀ c ∈ G.contractors, ∀ team, C16.Meets c (G.reqs v) team → ∀ u ∈ E.chain v, E.estimate u team ≤ D
  lag : ∀ v ∈ order, ∀ u ∈ E.chain v, ∀ e ∈ E.edgesTo u, e.2 ≤ L

/-- What is asked of the works besides `Sound`: the requirements list the types of the work, and the works of a chain need the
same types as its head, or none. -/
structure Typed {S : Type} (E : Env σ) (G : Setup S) (order : List Nat) : Prop where
  kinds : ∀ v, E.kinds v = (G.reqs v).map (·.kind)
  service : ∀ v, G.reqs v ≠ [] → E.service v = false
  chain : ∀ v ∈ order, ∃ l, E.chain v = v :: l
  nodup : ∀ v ∈ order, (E.chain v).Nodup
  same : ∀ v ∈ order, ∀ u ∈ E.chain v, E.kinds u = E.kinds v ∨ E.kinds u = []

end Generic
end Sampo
