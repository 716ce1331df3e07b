import Verif.Lemmas.GeneticStart
import Verif.Lemmas.GeneticDemo
import Verif.Props.C90_PriorityFirst

/-!
# C91: a valid schedule becomes a valid chromosome with the same teams

The tables of the genetic algorithm and the conversion of the schedules it starts with.
-/

namespace Sampo.C91

open GeneticRun
open Genetic (Ind Problem correct)

variable {J : Project} {m : Nat}

/-- The tables are built without an exception and describe the project: all chain heads are numbered, dependencies between numbers
are those between chains, limits are those of the requirements, capacities those of the contractors. -/
theorem tables_describe_project (h : Sound J m) : ∃ heads P, prepare J = some (heads, P) ∧ C55.WellFormed P ∧
    heads.Nodup ∧ (∀ v, v ∈ heads ↔ J.graph.IsHead J.nodes v) ∧ P.n = heads.length ∧ P.m = m ∧ P.nc = J.contractors.length ∧
    ∀ (i : Nat) (v : Nat), heads[i]? = some v →
      (∀ (j : Nat) (w : Nat), heads[j]? = some w → ((j ∈ P.parents i ↔ J.graph.HeadDependsOn J.nodes v w) ∧
        (j ∈ P.children i ↔ J.graph.HeadDependsOn J.nodes w v))) ∧
      P.prio i = J.prio v ∧ (∀ r ∈ J.reqs v, P.lo i r.kind = r.minCount ∧ P.hi i r.kind = r.maxCount) ∧
      (∀ k, (∀ r ∈ J.reqs v, r.kind ≠ k) → P.lo i k = 0 ∧ P.hi i k = 0) ∧
      (∀ (x : Nat) (c : Contractor), J.contractors[x]? = some c →
        (P.enabled i x = true ↔ C14.Admissible (J.spec v) c) ∧ ∀ k < m, c.workers.lookup k = some (P.cap x k)) := by
  obtain ⟨heads, P, hp⟩ := prepare_some h
  have hp' := prepare_prepared h hp
  refine ⟨heads, P, hp, hp'.wellFormed h, hp'.nodup, hp'.isHead, hp'.n, hp'.kinds, hp'.nc, fun i v hv => ?_⟩
  have hi := (index_eq hp'.nodup).2 hv
  have hn := node_of_index hp'.nodup hi
  refine ⟨fun j w hw => ?_, by rw [hp'.prio, hn], fun r hr => ?_, fun k hk => ?_, fun x c hx => ⟨?_, fun k hk => ?_⟩⟩
  · have hj := (index_eq hp'.nodup).2 hw
    rw [hp'.parents, hp'.children]
    constructor
    · constructor
      · rintro ⟨a, b, ha, hb, hd⟩
        rwa [index_inj hp'.nodup ha hi, index_inj hp'.nodup hb hj] at hd
      · exact fun hd => ⟨v, w, hi, hj, hd⟩
    · constructor
      · rintro ⟨a, b, ha, hb, hd⟩
        rwa [index_inj hp'.nodup ha hi, index_inj hp'.nodup hb hj] at hd
      · exact fun hd => ⟨v, w, hi, hj, hd⟩
  · rw [hp'.lo, hp'.hi, hn]
    exact ⟨limit_of_mem (h.reqs v).2.1 hr, limit_of_mem (h.reqs v).2.1 hr⟩
  · rw [hp'.lo, hp'.hi, hn]
    exact ⟨limit_absent hk, limit_absent hk⟩
  · rw [hp'.enabled, hn]
    have := h.contractors.ids x c hx
    simp [WorkSpec.enabled, C14.Admissible, this]
  · rw [hp'.cap]
    exact (h.contractors.pool hx hk).2

/-- A valid schedule, staffed by enabled contractors with teams that meet the requirements, together with an order of the chain
heads by dependencies and priorities: it is converted without an exception, the chromosome is valid and passes the check, has
the same order, the same team and contractor for every work and the capacities as borders. -/
theorem feasible_schedule_converts (h : Sound J m) {heads : List Nat} {P : Problem} (hp : prepare J = some (heads, P))
    (first : List Nat → Nat) (hfirst : ∀ l, l ≠ [] → first l ∈ l) (pool : AgentId → Option Int) (sw : Sched)
    (hsw : Feasible J.graph J.nodes pool (C89.Staffs J.contractors J.spec J.reqs) sw) (order : List Nat)
    (ho : C89.GoodOrder J.graph J.nodes order) (hprio : ByPriority J.prio order) :
    ∃ ind, convert J heads first sw order = some ind ∧ C55.ValidInd P ind ∧ correct P ind = true ∧ ind.res.border = P.cap ∧
      (ind.order.map fun i => heads[i]?) = order.map some ∧
      ∀ (i : Nat) (v : Nat) x, heads[i]? = some v → sw.get v = some x →
        (∀ w ∈ x.team, ind.res.amount i w.name = w.count) ∧ (∀ k, k ∉ x.team.map (·.name) → ind.res.amount i k = 0) ∧
        (x.team ≠ [] → ind.res.contractor i = x.contractor) := by
  have hp' := prepare_prepared h hp
  have hwf := hp'.wellFormed h
  obtain ⟨ho1, ho2, ho3⟩ := ho
  have hmem : ∀ v, v ∈ order ↔ v ∈ heads := fun v => by rw [ho2, hp'.isHead]
  have hlen : order.length = heads.length :=
    ((List.perm_ext_iff_of_nodup ho1 hp'.nodup).2 hmem).length_eq
  have hst : ∀ v ∈ order, ∃ x, sw.get v = some x ∧ C89.Staffs J.contractors J.spec J.reqs v x.team x.contractor :=
    fun v hv => hsw.staffed v v ((ho2 v).1 hv) Relation.ReflTransGen.refl
  obtain ⟨o, hoo⟩ := mapM_index_some fun v hv => (hmem v).1 hv
  have hfa := mapM_index hoo
  have hmap := map_node hp'.nodup hfa
  obtain ⟨ch, hch, hb, -, hh⟩ := writeWorks_spec h hp'.nodup hfirst (rows := order.length) ho1 (fun v hv => by
    rw [hlen]; exact index_of_mem ((hmem v).1 hv)) hst ⟨fun _ _ => 0, fun _ => 0, J.borders⟩ (fun _ _ _ _ _ => rfl)
  have hrow : ∀ i < P.n, ∃ v x, v ∈ order ∧ index heads v = some i ∧ node heads i = v ∧ sw.get v = some x ∧
      C89.Staffs J.contractors J.spec J.reqs v x.team x.contractor ∧ Holds J v i x ch := by
    intro i hi
    rw [hp'.n] at hi
    obtain ⟨h1, h2⟩ := index_node hp'.nodup hi
    obtain ⟨x, hx, hs⟩ := hst _ ((hmem _).2 h2)
    exact ⟨_, x, (hmem _).2 h2, h1, rfl, hx, hs, hh _ ((hmem _).2 h2) i x h1 hx⟩
  have hvalid : C55.ValidInd P ⟨o, ch⟩ := by
    refine ⟨?_, ?_, ?_, ?_⟩
    · refine (List.perm_ext_iff_of_nodup ?_ List.nodup_range).2 fun i => ?_
      · exact List.Nodup.of_map (node heads) (by rw [hmap]; exact ho1)
      · rw [forall₂_mem_right hfa, List.mem_range, hp'.n]
        constructor
        · rintro ⟨v, _, hv⟩; exact index_lt hp'.nodup hv
        · intro hi
          obtain ⟨h1, h2⟩ := index_node hp'.nodup hi
          exact ⟨_, (hmem _).2 h2, h1⟩
    · unfold OrderRespects at ho3 ⊢
      rw [← hmap, List.pairwise_map] at ho3
      refine ho3.imp fun {a b} hab hd => hab ?_
      simp only at hd
      rw [hp'.parents] at hd
      obtain ⟨x, y, hx, hy, hd⟩ := hd
      rwa [node_of_index hp'.nodup hx, node_of_index hp'.nodup hy]
    · rw [byPriority_iff, ← hmap, List.pairwise_map] at hprio
      refine hprio.imp fun {a b} hab => ?_
      rw [hp'.prio, hp'.prio]
      exact hab
    · refine ⟨?_, ?_, ?_, ?_, ?_, ?_⟩
      · intro i hi k hk
        obtain ⟨v, x, -, h1, h2, h3, h4, h5⟩ := hrow i hi
        rw [hp'.lo, h2]
        exact (h5.within h h4 (hp'.kinds ▸ hk)).1
      · intro i hi k hk
        obtain ⟨v, x, -, h1, h2, h3, h4, h5⟩ := hrow i hi
        rw [hp'.hi, h2]
        exact (h5.within h h4 (hp'.kinds ▸ hk)).2.1
      · intro i hi k hk
        obtain ⟨v, x, -, h1, h2, h3, h4, h5⟩ := hrow i hi
        dsimp only
        rw [hb]
        exact (h5.within h h4 (hp'.kinds ▸ hk)).2.2
      · intro i hi
        obtain ⟨v, x, -, h1, h2, h3, h4, h5⟩ := hrow i hi
        rw [hp'.nc]
        exact h5.known
      · intro i hi
        obtain ⟨v, x, -, h1, h2, h3, h4, h5⟩ := hrow i hi
        rw [hp'.enabled, h2]
        exact h5.enabled
      · intro c _ k _
        dsimp only
        rw [hb, hp'.cap]
  refine ⟨⟨o, ch⟩, ?_, hvalid, C55.valid_is_accepted P hwf _ hvalid, by rw [hp'.cap]; exact hb, ?_, ?_⟩
  · unfold convert
    rw [hoo, Option.bind_some, hch]; rfl
  · rw [← hmap, List.map_map]
    apply List.map_congr_left
    intro i hi
    obtain ⟨v, hv, hiv⟩ := (forall₂_mem_right hfa i).1 hi
    rw [Function.comp, node_of_index hp'.nodup hiv]
    exact (index_eq hp'.nodup).1 hiv
  · intro i v x hv hx
    have hi := (index_eq hp'.nodup).2 hv
    have := hh v ((hmem v).2 (mem_of_index hi)) i x hi hx
    exact ⟨this.amount, this.others, this.contractor⟩

/-- In particular the result of a list scheduler (HEFT, LFT, randomized LFT, topological) on a just-in-time timeline together
with its own order. -/
theorem scheduler_result_converts {σ : Type} (h : Sound J m) (hdep : C89.OnlyDependencies J.graph) {heads : List Nat} {P : Problem}
    (hp : prepare J = some (heads, P)) (first : List Nat → Nat) (hfirst : ∀ l, l ≠ [] → first l ∈ l) (site : Env σ)
    (hest : ∀ v team, 0 ≤ site.estimate v team) (rule : Scheduler.Rule) (hrule : C89.GivesGoodOrders rule J.graph J.nodes)
    (hsorted : ∀ order, Scheduler.orderWorks rule J.graph J.nodes = some order → ByPriority J.prio order)
    (plan : Plan (JIT.State σ)) (hts : ∀ v ts, plan.assignedTimes v = some ts → NonNegTimes ts) (h0 : 0 ≤ plan.parentTime)
    (hch : ∀ st v team c, plan.choose st v = some (team, c) → C89.Staffs J.contractors J.spec J.reqs v team c) (env : σ)
    (fuel : Nat) (st : JIT.State σ) (order : List Nat) (ho : Scheduler.orderWorks rule J.graph J.nodes = some order)
    (hrun : Scheduler.scheduleJIT site rule J.graph J.nodes plan (LFT.agents J.contractors) env fuel = some (some st)) :
    ∃ ind, convert J heads first st.sched order = some ind ∧ C55.ValidInd P ind ∧ correct P ind = true ∧
      ind.res.border = P.cap := by
  have hf := C89.jit_feasible h.graph hdep site hest rule hrule plan hts h0 (LFT.agents J.contractors)
    (C89.Staffs J.contractors J.spec J.reqs) (fun v team c hc => by
      obtain ⟨k, hk, -, -, hm⟩ := hc
      exact meets_ok h.contractors.sound hk (h.reqs v).1 (h.reqs v).2.1 hm) hch env fuel st hrun
  obtain ⟨ind, h1, h2, h3, h4, -⟩ := feasible_schedule_converts h hp first hfirst _ st.sched hf order (hrule order ho) (hsorted order ho)
  exact ⟨ind, h1, h2, h3, h4⟩

/-! ### Contractors that list kinds of workers in different orders -/

private def mixed : Project where
  graph := Graph.ofEdges []
  nodes := [0]
  contractors := [⟨0, [(0, 1), (1, 9)]⟩, ⟨1, [(1, 5), (0, 2)]⟩]
  reqs v := if v = 0 then [⟨1, 3, 4⟩] else []
  prio _ := 1
  spec v := if v = 0 then ⟨[1], []⟩ else ⟨[], []⟩

private theorem mixed_graph : C22.WorkGraph mixed.graph mixed.nodes where
  once := by decide
  linked := Graph.linked_ofEdges _
  closed := Graph.closed_ofEdges (by decide)
  chains := Graph.chains_ofEdges (by decide)
  acyclic := Graph.acyclic_ofEdges (fun v => v) (by decide)

private theorem mixed_acyclic : Acyclic (mixed.graph.HeadDependsOn mixed.nodes) := by
  by_contra hn
  have := (C22.error_iff_chain_cycle mixed_graph).2 hn
  revert this
  decide

private theorem mixed_noEdges (v : Nat) (e : Edge) : e ∉ mixed.graph.edgesTo v := by
  show e ∉ (Graph.ofEdges []).edgesTo v
  rw [Graph.ofEdges_to]
  simp

private def rule : Scheduler.Rule := Scheduler.lftRule (fun _ => (0 : Int)) (fun _ => 1)

private theorem mixed_agrees : C89.PrioritiesAgree (fun _ => 1) mixed.graph mixed.nodes := fun _ _ _ => Int.le_refl _

private theorem mixed_staff (v : Nat) : C54.Staffable mixed.contractors (mixed.spec v) (mixed.reqs v) := by
  simp only [mixed]
  split
  · refine ⟨by simp [C16.SoundReqs], by simp, by simp, ⟨1, [(1, 5), (0, 2)]⟩, by decide, by simp [C14.Admissible], ?_⟩
    intro r hr
    rw [List.mem_singleton] at hr
    subst hr
    exact ⟨5, by decide, by decide, by simp⟩
  · exact ⟨by simp [C16.SoundReqs], by simp, by simp, _, List.mem_cons_self, .inl rfl, by simp⟩

private def mixedPlan : Plan (JIT.State Unit) :=
  LFT.plan _ mixed.contractors mixed.spec mixed.reqs (fun _ _ => 0) (fun _ => false) 0

/-- Not proved because false: for all contractors.  When they list the kinds of workers in different orders, a valid schedule
becomes a chromosome that fails the check: three workers of kind 1 of a contractor that has five, but the border compared
with is its number of workers of kind 0. -/
theorem mixed_up_kinds_reject_valid_schedule : ∃ (J : Project) (heads : List Nat) (P : Problem) (sw : Sched) (order : List Nat)
    (ind : Ind), C22.WorkGraph J.graph J.nodes ∧ C16.SoundContractors J.contractors ∧ (∀ v, C16.SoundReqs (J.reqs v)) ∧
    Feasible J.graph J.nodes (LFT.agents J.contractors) (C89.Staffs J.contractors J.spec J.reqs) sw ∧
    C89.GoodOrder J.graph J.nodes order ∧ ByPriority J.prio order ∧
    prepare J = some (heads, P) ∧ convert J heads (fun l => l.headD 0) sw order = some ind ∧ correct P ind = false := by
  have hcs : C16.SoundContractors mixed.contractors := by unfold C16.SoundContractors; decide
  obtain ⟨st, hst, hf⟩ := C89.lft_jit_schedules (site := GeneticDemo.site) mixed_graph (fun v e he => absurd he (mixed_noEdges v e))
    (fun v e he _ => absurd he (mixed_noEdges v e)) GeneticDemo.noLimits GeneticDemo.est rule
    (C89.lft_order mixed_graph _ (fun _ => Int.le_refl _) _ mixed_agrees)
    (C89.rules_answer mixed_graph mixed_acyclic (fun _ => (0 : Int)) (fun _ => 0) (fun _ => 1)).2.1 mixed.contractors hcs mixed.spec
    (by intro v k n; simp only [mixed]; split <;> simp) mixed.reqs (fun _ _ => 0) (fun _ _ h => h) (fun _ => false) 0 (by decide) ()
    mixed_staff
  have key : ((Scheduler.scheduleJIT GeneticDemo.site rule mixed.graph mixed.nodes mixedPlan (LFT.agents mixed.contractors) () 1).join.bind
      fun st => (prepare mixed).bind fun hp => (convert mixed hp.1 (fun l => l.headD 0) st.sched [0]).map fun ind =>
        correct hp.2 ind) = some false := by decide +kernel
  have h1 : Scheduler.scheduleJIT GeneticDemo.site rule mixed.graph mixed.nodes mixedPlan (LFT.agents mixed.contractors) () 1 =
      some (some st) := hst 1 (Nat.le_refl 1)
  rw [h1] at key
  simp only [Option.join_some, Option.bind_some, Option.bind_eq_some_iff, Option.map_eq_some_iff] at key
  obtain ⟨⟨heads, P⟩, hp, ind, hi, hc⟩ := key
  refine ⟨mixed, heads, P, st.sched, [0], ind, mixed_graph, hcs, fun v => (mixed_staff v).1, hf, ?_, byPriority_iff.2 (by decide), hp, hi, hc⟩
  exact C89.lft_order mixed_graph (fun _ => (0 : Int)) (fun _ => Int.le_refl _) (fun _ => 1) mixed_agrees [0] (by decide +kernel)

/-! ### A concrete project -/

-- tables and conversion of the schedule of LFT for the project of `GeneticDemo`
example : ∃ heads P, prepare GeneticDemo.J = some (heads, P) ∧ C55.WellFormed P := by
  obtain ⟨heads, P, h, hw, -⟩ := tables_describe_project GeneticDemo.sound
  exact ⟨heads, P, h, hw⟩

private def demoRule : Scheduler.Rule := Scheduler.lftRule (fun v => (v : Int)) GeneticDemo.J.prio

example : ∃ heads P st ind, prepare GeneticDemo.J = some (heads, P) ∧
    Feasible C22.demo GeneticDemo.works (LFT.agents GeneticDemo.J.contractors)
      (C89.Staffs GeneticDemo.J.contractors GeneticDemo.J.spec GeneticDemo.J.reqs) (JIT.State.sched (σ := Unit) st) ∧
    convert GeneticDemo.J heads (fun l => l.headD 0) st.sched [0, 3, 1, 4] = some ind ∧ correct P ind = true := by
  obtain ⟨heads, P, hp, -⟩ := tables_describe_project GeneticDemo.sound
  obtain ⟨st, -, hf⟩ := C89.lft_jit_schedules GeneticDemo.graph GeneticDemo.deps (fun v e he _ => GeneticDemo.lag he)
    GeneticDemo.site GeneticDemo.noLimits GeneticDemo.est demoRule
    (C89.lft_order GeneticDemo.graph _ (fun v => Int.natCast_nonneg v) _ GeneticDemo.agrees)
    (C89.rules_answer GeneticDemo.graph GeneticDemo.acyclic (fun v => (v : Int)) (fun v => (v : Int)) GeneticDemo.J.prio).2.1
    GeneticDemo.J.contractors GeneticDemo.contractors.sound GeneticDemo.J.spec
    (by intro v k n; simp only [GeneticDemo.J]; split <;> simp) GeneticDemo.J.reqs (fun _ _ => 0) (fun _ _ h => h) (fun _ => false) 5
    (by decide) () GeneticDemo.staff
  obtain ⟨ind, h1, -, h3, -⟩ := feasible_schedule_converts GeneticDemo.sound hp (fun l => l.headD 0)
    (fun l hl => by cases l <;> simp_all) _ st.sched hf [0, 3, 1, 4]
    (C89.lft_order GeneticDemo.graph _ (fun v => Int.natCast_nonneg v) _ GeneticDemo.agrees _ (by decide +kernel)) (byPriority_iff.2 (by decide))
  exact ⟨heads, P, st, ind, hp, hf, h1, h3⟩

-- the run itself meets the hypotheses of `scheduler_result_converts`
example : ∃ heads P st ind, prepare GeneticDemo.J = some (heads, P) ∧
    Scheduler.scheduleJIT GeneticDemo.site demoRule C22.demo GeneticDemo.works
      (LFT.plan (JIT.State Unit) GeneticDemo.J.contractors GeneticDemo.J.spec GeneticDemo.J.reqs (fun _ _ => 0) (fun _ => false) 5)
      (LFT.agents GeneticDemo.J.contractors) () 1 = some (some st) ∧
    convert GeneticDemo.J heads (fun l => l.headD 0) st.sched [0, 3, 1, 4] = some ind ∧ correct P ind = true := by
  have hneg : ∀ v k n, (GeneticDemo.J.spec v).assigned.lookup k = some n → n ≠ -1 := by
    intro v k n; simp only [GeneticDemo.J]; split <;> simp
  have hgood := C89.lft_order GeneticDemo.graph _ (fun v => Int.natCast_nonneg v) _ GeneticDemo.agrees
  obtain ⟨heads, P, hp, -⟩ := tables_describe_project GeneticDemo.sound
  obtain ⟨st, hst, -⟩ := C89.lft_jit_schedules GeneticDemo.graph GeneticDemo.deps (fun v e he _ => GeneticDemo.lag he)
    GeneticDemo.site GeneticDemo.noLimits GeneticDemo.est demoRule hgood
    (C89.rules_answer GeneticDemo.graph GeneticDemo.acyclic (fun v => (v : Int)) (fun v => (v : Int)) GeneticDemo.J.prio).2.1
    GeneticDemo.J.contractors GeneticDemo.contractors.sound GeneticDemo.J.spec hneg GeneticDemo.J.reqs (fun _ _ => 0)
    (fun _ _ h => h) (fun _ => false) 5 (by decide) () GeneticDemo.staff
  obtain ⟨ind, h1, -, h3, -⟩ := scheduler_result_converts GeneticDemo.sound GeneticDemo.deps hp (fun l => l.headD 0)
    (fun l hl => by cases l <;> simp_all) GeneticDemo.site GeneticDemo.est demoRule hgood
    (fun order ho => C90.schedulers GeneticDemo.graph (fun _ => (0 : Int)) _ _ (fun l => l) (fun _ => List.Perm.refl _) order
      (.inr (.inl ho)))
    _ (fun v ts hv => by simp [LFT.plan] at hv) (by decide)
    (fun s v team c hc => OnGraph.lft_staffs _ GeneticDemo.contractors.sound _ hneg _ (fun v => (GeneticDemo.staff v).1) (fun _ _ => 0) hc) () 1 st
    [0, 3, 1, 4] (by decide +kernel) (hst 1 (Nat.le_refl 1))
  exact ⟨heads, P, st, ind, hp, hst 1 (Nat.le_refl 1), h1, h3⟩

end Sampo.C91
