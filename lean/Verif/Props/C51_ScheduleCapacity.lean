import Verif.Lemmas.SchedJIT
import Verif.Lemmas.SchedMomentumRun
import Verif.Lemmas.Demo

/-! C51: complete schedules never over-allocate workers. -/

namespace Sampo.C51

variable {σ : Type}

/-- Just-in-time timeline: at every moment the works of the finished schedule that run at it use no more workers of a type
than the contractor has, for every graph, order, specification, landscape and choice of teams within the pool. -/
theorem jit_schedule_within_capacity (E : Env σ) (P : Plan (JIT.State σ)) (pool : AgentId → Option Int) (env : σ)
    (fuel : Nat) (order : List Nat) (st : JIT.State σ)
    (hest : ∀ v team, 0 ≤ E.estimate v team) (hts : ∀ v ts, P.assignedTimes v = some ts → NonNegTimes ts)
    (hchain : ∀ v, v ∈ E.chain v) (hP : 0 ≤ P.parentTime)
    (hteam : ∀ st v team c, P.choose st v = some (team, c) → WellFormedTeam team ∧ WithinPool pool team)
    (h : JIT.build E P pool env fuel order = some (some st))
    (a : AgentId) (cap : Int) (ha : pool a = some cap) (hcap : 0 ≤ cap) (t : Int) :
    busy st.sched.placements a t ≤ cap := by
  obtain ⟨ps, hh, hb⟩ := JIT.buildFrom_covered hest hts hchain hteam hP (.inl ⟨rfl, rfl, rfl⟩) h
  obtain ⟨q, _, hq⟩ := JIT.history_inv hh ha hcap
  have := hq.room t
  have := JIT.releasedBy_nonneg hq.nonneg t
  have := hb a t
  omega

/-- Momentum timeline: the same, and teams need not be within the pool (an update that does not fit raises an error). -/
theorem momentum_schedule_within_capacity (E : Env σ) (P : Plan (Momentum.State σ)) (pool : AgentId → Option Int) (env : σ)
    (inf : Int) (fuelIn fuel : Nat) (order : List Nat) (st : Momentum.State σ)
    (hest : ∀ v team, 0 ≤ E.estimate v team) (hts : ∀ v ts, P.assignedTimes v = some ts → NonNegTimes ts)
    (hP : 0 ≤ P.parentTime) (hinf : P.parentTime ≤ inf)
    (hteam : ∀ st v team c, P.choose st v = some (team, c) → WellFormedTeam team)
    (h : Momentum.build E P pool env inf fuelIn fuel order = some (some st))
    (a : AgentId) (cap : Int) (ha : pool a = some cap) (hcap : 0 ≤ cap) (t : Int) :
    busy st.sched.placements a t ≤ cap := by
  obtain ⟨ps, hh, hb⟩ := Momentum.buildFrom_covered hest hts hteam hP hinf
    ⟨[], .fresh, fun a t => Int.le_refl _⟩ h
  obtain ⟨s, _, hinv⟩ := Momentum.history_inv hh ha
  have := hinv.room hcap t
  have := hb a t
  omega

-- the demo project: two teams of two of three workers; they are busy at 10 and at 40 but never together
example : ∃ st, JIT.build Demo.env (Demo.plan _) Demo.pool () 20 Demo.order = some (some st) ∧
    busy st.sched.placements (0, 0) 10 = 2 ∧ busy st.sched.placements (0, 0) 40 = 2 := ⟨_, rfl, by decide, by decide⟩
example : ∃ st, Momentum.build Demo.env (Demo.plan _) Demo.pool () 1000 20 20 Demo.order = some (some st) ∧
    busy st.sched.placements (0, 0) 10 = 2 ∧ busy st.sched.placements (0, 0) 40 = 2 := ⟨_, rfl, by decide, by decide⟩
example : (∀ v, v ∈ Demo.env.chain v) ∧ ∀ st v team c, (Demo.plan (JIT.State Unit)).choose st v = some (team, c) →
    WellFormedTeam team ∧ WithinPool Demo.pool team := ⟨Demo.chain_self, Demo.team_ok _⟩

end Sampo.C51
