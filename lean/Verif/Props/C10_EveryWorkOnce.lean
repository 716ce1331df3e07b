import Verif.Lemmas.SchedJIT
import Verif.Lemmas.SchedMomentumRun
import Verif.Lemmas.Demo

/-! C10: the list schedulers schedule every work exactly once and nothing else. -/

namespace Sampo.C10

variable {σ : Type}

/-- `all` are the works of the graph; the order is complete when the chains of its works list each of them once. -/
def CompleteOrder (chain : Nat → List Nat) (order all : List Nat) : Prop := (order.flatMap chain).Perm all

/-- Just-in-time timeline: whatever teams are chosen, whatever the specification and the landscape say, a schedule that is
built contains exactly the works of the graph, each once. -/
theorem jit_every_work_once (E : Env σ) (P : Plan (JIT.State σ)) (pool : AgentId → Option Int) (env : σ) (fuel : Nat)
    (order all : List Nat) (st : JIT.State σ)
    (hest : ∀ v team, 0 ≤ E.estimate v team) (hts : ∀ v ts, P.assignedTimes v = some ts → NonNegTimes ts)
    (hcomplete : CompleteOrder E.chain order all)
    (h : JIT.build E P pool env fuel order = some (some st)) : st.sched.works.Perm all := by
  have := (JIT.buildFrom_run hest hts h).works
  simp only [Sched.works, List.map_nil, List.append_nil] at this
  rw [Sched.works, this]
  exact (List.reverse_perm _).trans hcomplete

/-- The same on a momentum timeline. -/
theorem momentum_every_work_once (E : Env σ) (P : Plan (Momentum.State σ)) (pool : AgentId → Option Int) (env : σ)
    (inf : Int) (fuelIn fuel : Nat) (order all : List Nat) (st : Momentum.State σ)
    (hest : ∀ v team, 0 ≤ E.estimate v team) (hts : ∀ v ts, P.assignedTimes v = some ts → NonNegTimes ts)
    (hP : 0 ≤ P.parentTime) (hinf : P.parentTime ≤ inf)
    (hcomplete : CompleteOrder E.chain order all)
    (h : Momentum.build E P pool env inf fuelIn fuel order = some (some st)) : st.sched.works.Perm all := by
  have := (Momentum.buildFrom_run hest hts hP hinf h).works
  simp only [Sched.works, List.map_nil, List.append_nil] at this
  rw [Sched.works, this]
  exact (List.reverse_perm _).trans hcomplete

/-- As a dictionary: a work has an entry exactly when it is a work of the graph (just-in-time). -/
theorem jit_entry_iff (E : Env σ) (P : Plan (JIT.State σ)) (pool : AgentId → Option Int) (env : σ) (fuel : Nat)
    (order all : List Nat) (st : JIT.State σ)
    (hest : ∀ v team, 0 ≤ E.estimate v team) (hts : ∀ v ts, P.assignedTimes v = some ts → NonNegTimes ts)
    (hcomplete : CompleteOrder E.chain order all)
    (h : JIT.build E P pool env fuel order = some (some st)) (v : Nat) :
    (∃ x, st.sched.get v = some x) ↔ v ∈ all := by
  rw [get_isSome_iff]
  exact (jit_every_work_once E P pool env fuel order all st hest hts hcomplete h).mem_iff

-- the demo project is scheduled on both timelines and its order is complete
example : CompleteOrder Demo.env.chain Demo.order [0, 1, 2, 3, 4] := by unfold CompleteOrder; decide
example : ∃ st, JIT.build Demo.env (Demo.plan _) Demo.pool () 20 Demo.order = some (some st) ∧
    st.sched.works = [4, 2, 1, 3, 0] := ⟨_, rfl, by decide⟩
example : ∃ st, Momentum.build Demo.env (Demo.plan _) Demo.pool () 1000 20 20 Demo.order = some (some st) ∧
    st.sched.works = [4, 2, 1, 3, 0] := ⟨_, rfl, by decide⟩

end Sampo.C10
