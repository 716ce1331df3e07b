import Verif.Lemmas.SchedJIT
import Verif.Lemmas.SchedMomentumRun
import Verif.Lemmas.Demo

/-! C11: schedules of the list schedulers respect precedence and lags. -/

namespace Sampo.C11

variable {σ : Type}

/-- Predecessors of a work. -/
def preds (E : Env σ) (v : Nat) : List Nat := (E.edgesTo v).map (·.1)

/-- Just-in-time timeline, any plan: if the order (with chains expanded) lists each work once and after its predecessors,
then in the schedule every work starts not before finish + lag of each of its predecessors. -/
theorem jit_respects_precedence (E : Env σ) (P : Plan (JIT.State σ)) (pool : AgentId → Option Int) (env : σ) (fuel : Nat)
    (order : List Nat) (st : JIT.State σ)
    (hest : ∀ v team, 0 ≤ E.estimate v team) (hts : ∀ v ts, P.assignedTimes v = some ts → NonNegTimes ts)
    (htopo : TopoList (preds E) (order.flatMap E.chain)) (hnd : (order.flatMap E.chain).Nodup)
    (h : JIT.build E P pool env fuel order = some (some st)) : RespectsPrecedence E.edgesTo st.sched := by
  apply (JIT.buildFrom_run hest hts h).precedence (fun _ _ _ h => h)
  · intro v x hx; simp [get_nil] at hx
  · simp only [Sched.works, List.map_nil, List.reverse_nil, List.nil_append]; exact htopo
  · simpa [Sched.works] using hnd

/-- Both timelines: no work finishes before it starts. -/
theorem jit_finish_after_start (E : Env σ) (P : Plan (JIT.State σ)) (pool : AgentId → Option Int) (env : σ) (fuel : Nat)
    (order : List Nat) (st : JIT.State σ)
    (hest : ∀ v team, 0 ≤ E.estimate v team) (hts : ∀ v ts, P.assignedTimes v = some ts → NonNegTimes ts)
    (h : JIT.build E P pool env fuel order = some (some st)) : ∀ e ∈ st.sched, e.2.start ≤ e.2.finish :=
  (JIT.buildFrom_run hest hts h).times_ordered (by simp)

theorem momentum_finish_after_start (E : Env σ) (P : Plan (Momentum.State σ)) (pool : AgentId → Option Int) (env : σ)
    (inf : Int) (fuelIn fuel : Nat) (order : List Nat) (st : Momentum.State σ)
    (hest : ∀ v team, 0 ≤ E.estimate v team) (hts : ∀ v ts, P.assignedTimes v = some ts → NonNegTimes ts)
    (hP : 0 ≤ P.parentTime) (hinf : P.parentTime ≤ inf)
    (h : Momentum.build E P pool env inf fuelIn fuel order = some (some st)) : ∀ e ∈ st.sched, e.2.start ≤ e.2.finish :=
  (Momentum.buildFrom_run hest hts hP hinf h).times_ordered (by simp)

/-- Momentum timeline: the same as for just-in-time, and no work starts before the project start, when no durations are
assigned and lags inside inseparable chains are not positive (as the graph restructuring of the library produces them).
Missing from the full property: the two excluded cases, for which it is false
(`momentum_positive_lag_in_chain_violated`, `momentum_assigned_duration_violates`). -/
theorem momentum_respects_precedence_partial (E : Env σ) (P : Plan (Momentum.State σ)) (pool : AgentId → Option Int)
    (env : σ) (inf : Int) (fuelIn fuel : Nat) (order : List Nat) (st : Momentum.State σ)
    (hest : ∀ v team, 0 ≤ E.estimate v team) (hts : ∀ v, P.assignedTimes v = none)
    (hlag : ∀ v ∈ order, ∀ u ∈ E.chain v, ∀ e ∈ E.edgesTo u, e.1 ∈ E.chain v → e.2 ≤ 0)
    (hP : 0 ≤ P.parentTime) (hinf : P.parentTime ≤ inf) (hrange : TimesInRange E.edgesTo inf st.sched)
    (htopo : TopoList (preds E) (order.flatMap E.chain)) (hnd : (order.flatMap E.chain).Nodup)
    (h : Momentum.build E P pool env inf fuelIn fuel order = some (some st)) :
    RespectsPrecedence E.edgesTo st.sched ∧ ∀ e ∈ st.sched, P.parentTime ≤ e.2.start := by
  have hrun := Momentum.buildFrom_after hest (fun v _ => hts v)
    (fun v hv => by
      rw [List.nodup_flatMap] at hnd
      exact hnd.1 v hv)
    hlag hP hinf hrange (fun _ => rfl) (fun v ts h => by rw [hts v] at h; cases h) h
  refine ⟨?_, hrun.all_starts (fun _ _ _ h => h.2) (by simp)⟩
  apply hrun.precedence (fun _ _ _ h => h.1)
  · intro v x hx; simp [get_nil] at hx
  · simp only [Sched.works, List.map_nil, List.reverse_nil, List.nil_append]; exact htopo
  · simpa [Sched.works] using hnd

-- the demo project meets the hypotheses on both timelines
example : ∃ st, JIT.build Demo.env (Demo.plan _) Demo.pool () 20 Demo.order = some (some st) ∧
    st.sched.get 2 = some ⟨47, 67, [⟨0, 0, 2⟩], 0⟩ ∧ st.sched.get 3 = some ⟨7, 37, [⟨0, 0, 2⟩], 0⟩ := ⟨_, rfl, by decide, by decide⟩
example : ∃ st, Momentum.build Demo.env (Demo.plan _) Demo.pool () 1000 20 20 Demo.order = some (some st) ∧
    TimesInRange Demo.env.edgesTo 1000 st.sched := ⟨_, rfl, Demo.timesInRange (by decide)⟩
example : TopoList (preds Demo.env) (Demo.order.flatMap Demo.env.chain) ∧ (Demo.order.flatMap Demo.env.chain).Nodup :=
  ⟨Demo.topo, Demo.nodup⟩
example : ∀ v ∈ Demo.order, ∀ u ∈ Demo.env.chain v, ∀ e ∈ Demo.env.edgesTo u, e.1 ∈ Demo.env.chain v → e.2 ≤ 0 := by
  decide

/-- The demo project with lag 4 on the edge between the works 1 and 2 of the chain. -/
private def lagEnv : Env Unit :=
  { Demo.env with edgesTo := fun v => if v = 2 then [(1, 4)] else if v = 4 then [(2, 0)] else Demo.edges v }

/-- A positive lag between two works of a chain is ignored by the momentum timeline (and respected by just-in-time). -/
theorem momentum_positive_lag_in_chain_violated :
    ∃ (E : Env Unit) (P : Plan (Momentum.State Unit)) (pool : AgentId → Option Int) (order : List Nat)
      (st : Momentum.State Unit),
      (∀ v team, 0 ≤ E.estimate v team) ∧ (∀ v, P.assignedTimes v = none) ∧
      TopoList (preds E) (order.flatMap E.chain) ∧ (order.flatMap E.chain).Nodup ∧
      Momentum.build E P pool () 1000 20 20 order = some (some st) ∧ ¬ RespectsPrecedence E.edgesTo st.sched := by
  refine ⟨lagEnv, Demo.plan _, Demo.pool, Demo.order, _, Demo.estimate_nonneg, fun _ => rfl,
    topoList_of_from (by decide), by decide, rfl, ?_⟩
  intro h
  obtain ⟨y, hy, hle⟩ := h 2 ⟨47, 67, [⟨0, 0, 2⟩], 0⟩ (by decide) (1, 4) (by decide)
  have : y = ⟨37, 47, [⟨0, 0, 2⟩], 0⟩ := by
    have h2 : some y = some (⟨37, 47, [⟨0, 0, 2⟩], 0⟩ : SWork) := by rw [← hy]; decide
    exact Option.some.inj h2
  subst this
  revert hle; decide

/-- Assigned durations are placed by the momentum timeline without looking at predecessors of later works of the chain. -/
theorem momentum_assigned_duration_violates :
    ∃ (E : Env Unit) (P : Plan (Momentum.State Unit)) (pool : AgentId → Option Int) (order : List Nat)
      (st : Momentum.State Unit),
      (∀ v team, 0 ≤ E.estimate v team) ∧ (∀ v ts, P.assignedTimes v = some ts → NonNegTimes ts) ∧
      TopoList (preds E) (order.flatMap E.chain) ∧ (order.flatMap E.chain).Nodup ∧
      Momentum.build E P pool () 1000 20 20 order = some (some st) ∧ ¬ RespectsPrecedence E.edgesTo st.sched := by
  refine ⟨Demo.env, ⟨fun _ v => some (if v = 0 ∨ v = 4 then [] else [⟨0, 0, 1⟩], 0), fun _ => false,
    fun v => if v = 1 then some (fun _ => some (0, 1)) else none, 5⟩, Demo.pool, Demo.order, _, Demo.estimate_nonneg, ?_,
    Demo.topo, Demo.nodup, rfl, ?_⟩
  · intro v ts h
    simp only [Option.ite_none_right_eq_some, Option.some.injEq] at h
    obtain ⟨_, rfl⟩ := h
    intro v l d h; simp at h; omega
  intro h
  obtain ⟨y, hy, hle⟩ := h 2 ⟨6, 7, [⟨0, 0, 1⟩], 0⟩ (by decide) (3, 0) (by decide)
  have : y = ⟨7, 37, [⟨0, 0, 1⟩], 0⟩ := by
    have h2 : some y = some (⟨7, 37, [⟨0, 0, 1⟩], 0⟩ : SWork) := by rw [← hy]; decide
    exact Option.some.inj h2
  subst this
  revert hle; decide

end Sampo.C11
