import Verif.Lemmas.SchedJIT
import Verif.Lemmas.SchedMomentumRun
import Verif.Lemmas.Demo

/-! C12: inseparable chains are executed in order by one team. -/

namespace Sampo.C12

variable {σ : Type}

theorem jit_chain_in_order_by_one_team (E : Env σ) (P : Plan (JIT.State σ)) (pool : AgentId → Option Int) (env : σ)
    (fuel : Nat) (order : List Nat) (st : JIT.State σ)
    (hest : ∀ v team, 0 ≤ E.estimate v team) (hts : ∀ v ts, P.assignedTimes v = some ts → NonNegTimes ts)
    (hnd : (order.flatMap E.chain).Nodup)
    (h : JIT.build E P pool env fuel order = some (some st)) : ∀ v ∈ order, OneAfterAnother st.sched (E.chain v) :=
  (JIT.buildFrom_run hest hts h).oneAfterAnother hnd

theorem momentum_chain_in_order_by_one_team (E : Env σ) (P : Plan (Momentum.State σ)) (pool : AgentId → Option Int)
    (env : σ) (inf : Int) (fuelIn fuel : Nat) (order : List Nat) (st : Momentum.State σ)
    (hest : ∀ v team, 0 ≤ E.estimate v team) (hts : ∀ v ts, P.assignedTimes v = some ts → NonNegTimes ts)
    (hP : 0 ≤ P.parentTime) (hinf : P.parentTime ≤ inf)
    (hnd : (order.flatMap E.chain).Nodup)
    (h : Momentum.build E P pool env inf fuelIn fuel order = some (some st)) :
    ∀ v ∈ order, OneAfterAnother st.sched (E.chain v) :=
  (Momentum.buildFrom_run hest hts hP hinf h).oneAfterAnother hnd

-- the chain of works 1 and 2 of the demo project, on both timelines
example : Demo.env.chain 1 = [1, 2] ∧ 1 ∈ Demo.order ∧ (Demo.order.flatMap Demo.env.chain).Nodup := by decide
example : ∃ st, JIT.build Demo.env (Demo.plan _) Demo.pool () 20 Demo.order = some (some st) := ⟨_, rfl⟩
example : ∃ st, Momentum.build Demo.env (Demo.plan _) Demo.pool () 1000 20 20 Demo.order = some (some st) := ⟨_, rfl⟩

end Sampo.C12
