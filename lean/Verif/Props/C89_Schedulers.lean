import Verif.Lemmas.Schedulers

/-!
# C89: from a work graph to a valid schedule

The list schedulers as a whole: collapse of chains, prioritization and placement.  `Feasible` says what a valid schedule of a
work graph is without mentioning any of these steps.
-/

namespace Sampo.C89
open Scheduler OnGraph
open C22 (WorkGraph)

variable {σ : Type} {g : Graph} {nodes : List Nat}

private theorem good_of (hw : WorkGraph g nodes) {heads : List Nat} {par chi : Deps}
    (hc : Heads.collapse g nodes = some (heads, par, chi)) {order : List Nat} (hp : order.Perm heads)
    (ho : OrderRespects (fun x p => p ∈ (par.lookup x).getD []) order) : GoodOrder g nodes order := by
  obtain ⟨c1, c2, -⟩ := C22.collapse_preserves_dependencies hw hc
  refine ⟨hp.nodup_iff.2 c1, fun v => by rw [hp.mem_iff, c2], ho.imp fun {x y} hxy hd => hxy ?_⟩
  exact ((C22.collapse_tables hw hc x y).1).2 hd

private theorem agree (hw : WorkGraph g nodes) {prio : Nat → Int} (hp : PrioritiesAgree prio g nodes) {heads : List Nat}
    {par chi : Deps} (hc : Heads.collapse g nodes = some (heads, par, chi)) :
    C20.PrioritiesAgree prio heads (fun v => (par.lookup v).getD []) :=
  fun x _ p hpx => hp x p (((C22.collapse_tables hw hc x p).1).1 hpx)

/-- The order of HEFT, for non-negative costs and priorities that agree with the dependencies between chains. -/
theorem heft_order {α : Type} [AddCommGroup α] [LinearOrder α] [IsOrderedAddMonoid α] (hw : WorkGraph g nodes)
    (cost : Nat → α) (hcost : ∀ v, 0 ≤ cost v) (prio : Nat → Int) (hp : PrioritiesAgree prio g nodes) :
    GivesGoodOrders (heftRule cost prio) g nodes := by
  intro order h
  simp only [orderWorks, Option.bind_eq_some_iff, heftRule, Option.some.injEq] at h
  obtain ⟨⟨heads, par, chi⟩, hc, rfl⟩ := h
  obtain ⟨h1, h2⟩ := C20.heft_partial (C22.collapse_feeds_prioritization hw hc) (agree hw hp hc) cost (fun v _ => hcost v)
  exact good_of hw hc h1 h2

/-- The order of LFT, for non-negative durations and priorities that agree with the dependencies between chains. -/
theorem lft_order (hw : WorkGraph g nodes) (dur : Nat → Int) (hdur : ∀ v, 0 ≤ dur v) (prio : Nat → Int)
    (hp : PrioritiesAgree prio g nodes) : GivesGoodOrders (lftRule dur prio) g nodes := by
  intro order h
  simp only [orderWorks, Option.bind_eq_some_iff, lftRule, Option.some.injEq] at h
  obtain ⟨⟨heads, par, chi⟩, hc, rfl⟩ := h
  obtain ⟨h1, h2⟩ := C20.lft_partial (C22.collapse_feeds_prioritization hw hc) (agree hw hp hc) dur (fun v _ => hdur v)
  exact good_of hw hc h1 h2

/-- The order of randomized LFT, whatever is drawn and whatever the priorities. -/
theorem random_lft_order (hw : WorkGraph g nodes) (prio : Nat → Int) (pick : Nat → Nat) (fuel : Nat) :
    GivesGoodOrders (randomLftRule prio pick fuel) g nodes := by
  intro order h
  simp only [orderWorks, Option.bind_eq_some_iff, randomLftRule] at h
  obtain ⟨⟨heads, par, chi⟩, hc, h⟩ := h
  rw [Option.join_eq_some_iff] at h
  obtain ⟨h1, h2⟩ := C20.randomized_lft pick fuel order h
  exact good_of hw hc h1 h2

/-- The order of the topological schedulers, whatever the order inside the levels, for priorities that agree with the
dependencies between chains. -/
theorem topological_order (hw : WorkGraph g nodes) (prio : Nat → Int) (hp : PrioritiesAgree prio g nodes)
    (shuffle : List Nat → List Nat) (hs : ∀ l, (shuffle l).Perm l) : GivesGoodOrders (topologicalRule prio shuffle) g nodes := by
  intro order h
  simp only [orderWorks, Option.bind_eq_some_iff, topologicalRule] at h
  obtain ⟨⟨heads, par, chi⟩, hc, h⟩ := h
  obtain ⟨o, h0, h1, h2⟩ := C20.topological_partial (C22.collapse_feeds_prioritization hw hc) (agree hw hp hc) shuffle hs
  rw [h0, Option.some.injEq] at h
  subst h
  exact good_of hw hc h1 h2

/-- All rules give an order if the chains do not depend on each other in a cycle; randomized LFT needs one start work. -/
theorem rules_answer {α : Type} [AddCommGroup α] [LinearOrder α] (hw : WorkGraph g nodes)
    (hac : Acyclic (g.HeadDependsOn nodes)) (cost : Nat → α) (dur prio : Nat → Int) :
    (∃ order, orderWorks (heftRule cost prio) g nodes = some order) ∧
    (∃ order, orderWorks (lftRule dur prio) g nodes = some order) ∧
    (PrioritiesAgree prio g nodes → ∀ shuffle, (∀ l : List Nat, (shuffle l).Perm l) →
      ∃ order, orderWorks (topologicalRule prio shuffle) g nodes = some order) ∧
    ((∃! s, g.IsHead nodes s ∧ ∀ p, ¬ g.HeadDependsOn nodes s p) → ∀ pick fuel, nodes.length ≤ fuel →
      ∃ order, orderWorks (randomLftRule prio pick fuel) g nodes = some order) := by
  cases hc : Heads.collapse g nodes with
  | none => exact absurd hac ((C22.error_iff_chain_cycle hw).1 hc)
  | some r =>
    obtain ⟨heads, par, chi⟩ := r
    have hg := C22.collapse_feeds_prioritization hw hc
    obtain ⟨c1, c2, c3, -⟩ := C22.collapse_preserves_dependencies hw hc
    have ht := fun v x => (C22.collapse_tables hw hc v x).1
    refine ⟨⟨_, by simp only [orderWorks, hc, heftRule, Option.bind_some]; rfl⟩,
      ⟨_, by simp only [orderWorks, hc, lftRule, Option.bind_some]; rfl⟩, fun hp shuffle hs => ?_, fun hsrc pick fuel hf => ?_⟩
    · obtain ⟨o, h0, -⟩ := C20.topological_partial hg (agree hw hp hc) shuffle hs
      exact ⟨o, by simp only [orderWorks, hc, topologicalRule, Option.bind_some]; exact h0⟩
    · obtain ⟨s, ⟨hs1, hs2⟩, huniq⟩ := hsrc
      have hne : heads ≠ [] := List.ne_nil_of_mem ((c2 s).2 hs1)
      have hlen : heads.length ≤ nodes.length := by
        refine (c1.subperm fun v hv => ?_).length_le
        exact ((c2 v).1 hv).1
      have htail : ∀ v ∈ heads.tail, (par.lookup v).getD [] ≠ [] := by
        intro v hv hpv
        -- the first head depends on no other, so it is the start
        cases heads with
        | nil => exact absurd rfl hne
        | cons a as =>
          have hno : ∀ w, w ∈ a :: as → (par.lookup w).getD [] = [] → w = s := by
            intro w hw' he
            refine huniq w ⟨(c2 w).1 hw', fun p hd => ?_⟩
            have := (ht w p).2 hd
            rw [he] at this
            exact List.not_mem_nil this
          have ha : a = s := by
            refine huniq a ⟨(c2 a).1 List.mem_cons_self, fun p hd => ?_⟩
            have hpm := (c2 p).2 hd.2.1
            rcases List.mem_cons.mp hpm with rfl | hpm
            · exact hd.2.2.1 rfl
            · exact (List.pairwise_cons.mp c3).1 p hpm hd
          have hv' : v = s := hno v (List.mem_cons_of_mem _ hv) hpv
          rw [ha, ← hv'] at c1
          exact (List.nodup_cons.mp c1).1 hv
      obtain ⟨o, ho⟩ := C20.randomized_lft_ends (prio := prio) hg hne htail pick fuel (by omega)
      exact ⟨o, by simp only [orderWorks, hc, randomLftRule, Option.bind_some, ho, Option.join_some]⟩

/-- Just-in-time timeline: with any prioritization that gives good orders and any choice of acceptable teams within the pool,
whatever the materials and zones, a schedule that is returned is valid. -/
theorem jit_feasible (hw : WorkGraph g nodes) (hdep : OnlyDependencies g) (site : Env σ)
    (hest : ∀ v team, 0 ≤ site.estimate v team) (rule : Rule) (hrule : GivesGoodOrders rule g nodes)
    (P : Plan (JIT.State σ)) (hts : ∀ v ts, P.assignedTimes v = some ts → NonNegTimes ts) (hP : 0 ≤ P.parentTime)
    (pool : AgentId → Option Int) (accepts : Nat → List Worker → Nat → Prop)
    (hacc : ∀ v team c, accepts v team c → WellFormedTeam team ∧ WithinPool pool team)
    (hch : ∀ st v team c, P.choose st v = some (team, c) → accepts v team c) (env : σ) (fuel : Nat) (st : JIT.State σ)
    (h : scheduleJIT site rule g nodes P pool env fuel = some (some st)) : Feasible g nodes pool accepts st.sched := by
  unfold scheduleJIT at h
  split at h
  · simp at h
  · rename_i order horder
    have ho := hrule order horder
    obtain ⟨e1, e2, e3⟩ := expand hw hdep site ho
    refine ⟨C10.jit_every_work_once (onGraph site g nodes) P pool env fuel order nodes st hest hts e1 h, fun v x hx => ?_, ?_, ?_, ?_, ?_⟩
    · exact C11.jit_finish_after_start (onGraph site g nodes) P pool env fuel order st hest hts h (v, x) (mem_of_get hx)
    · exact precedence_of (C11.jit_respects_precedence (onGraph site g nodes) P pool env fuel order st hest hts e2 e3 h)
    · exact chain_of hw ho (C12.jit_chain_in_order_by_one_team (onGraph site g nodes) P pool env fuel order st hest hts e3 h)
    · intro k v hk hv
      exact JIT.buildFrom_staffed (E := onGraph site g nodes) hch hest hts e3 h k ((ho.2.1 k).2 hk) v ((Heads.mem_chain hw.ok hk).2 hv)
    · intro a n ha hn t
      exact C51.jit_schedule_within_capacity (onGraph site g nodes) P pool env fuel order st hest hts (fun v => Expand.head_mem_chain v) hP
        (fun s v team c hc => hacc v team c (hch s v team c hc)) h a n ha hn t

/-- Momentum timeline: the same, if no durations are assigned, lags between works of one chain are not positive and times stay
in the range of `Time`; outside of this C11 has violations of precedence. -/
theorem momentum_feasible_partial (hw : WorkGraph g nodes) (hdep : OnlyDependencies g) (site : Env σ)
    (hest : ∀ v team, 0 ≤ site.estimate v team) (rule : Rule) (hrule : GivesGoodOrders rule g nodes)
    (hlag : ∀ k v, ∀ e ∈ g.edgesTo v, g.InChain k v → g.InChain k e.start → e.lag ≤ 0)
    (P : Plan (Momentum.State σ)) (hts : ∀ v, P.assignedTimes v = none) (inf : Int) (hP : 0 ≤ P.parentTime)
    (hinf : P.parentTime ≤ inf) (pool : AgentId → Option Int) (accepts : Nat → List Worker → Nat → Prop)
    (hacc : ∀ v team c, accepts v team c → WellFormedTeam team)
    (hch : ∀ st v team c, P.choose st v = some (team, c) → accepts v team c) (env : σ) (fuelIn fuel : Nat)
    (st : Momentum.State σ) (h : scheduleMomentum site rule g nodes P pool env inf fuelIn fuel = some (some st))
    (hrange : ∀ x ∈ st.sched, ∀ v, ∀ e ∈ g.edgesTo v, e.start = x.1 → x.2.finish + e.lag ≤ inf) :
    Feasible g nodes pool accepts st.sched ∧ ∀ v x, st.sched.get v = some x → P.parentTime ≤ x.start := by
  unfold scheduleMomentum at h
  split at h
  · simp at h
  · rename_i order horder
    have ho := hrule order horder
    obtain ⟨e1, e2, e3⟩ := expand hw hdep site ho
    have hts' : ∀ v ts, P.assignedTimes v = some ts → NonNegTimes ts := fun v ts hv => by rw [hts] at hv; cases hv
    obtain ⟨p1, p2⟩ := C11.momentum_respects_precedence_partial (onGraph site g nodes) P pool env inf fuelIn fuel order st hest
      hts
      (by
        intro v hv u hu e he hin
        have hk := (ho.2.1 v).1 hv
        simp only [onGraph, List.mem_map] at he
        obtain ⟨e, he, rfl⟩ := he
        exact hlag v u e he ((Heads.mem_chain hw.ok hk).1 hu) ((Heads.mem_chain hw.ok hk).1 hin))
      hP hinf
      (by
        intro x hx v e he hin
        simp only [onGraph, List.mem_map] at he
        obtain ⟨e, he, rfl⟩ := he
        exact hrange x hx v e he hin)
      e2 e3 h
    refine ⟨⟨C10.momentum_every_work_once (onGraph site g nodes) P pool env inf fuelIn fuel order nodes st hest hts' hP hinf e1 h,
      fun v x hx => ?_, precedence_of p1, ?_, ?_, ?_⟩, fun v x hx => p2 (v, x) (mem_of_get hx)⟩
    · exact C11.momentum_finish_after_start (onGraph site g nodes) P pool env inf fuelIn fuel order st hest hts' hP hinf h (v, x) (mem_of_get hx)
    · exact chain_of hw ho (C12.momentum_chain_in_order_by_one_team (onGraph site g nodes) P pool env inf fuelIn fuel order st hest hts' hP hinf e3 h)
    · intro k v hk hv
      exact Momentum.buildFrom_staffed (E := onGraph site g nodes) hch hest hts' hP hinf e3 h k ((ho.2.1 k).2 hk) v ((Heads.mem_chain hw.ok hk).2 hv)
    · intro a n ha hn t
      exact C51.momentum_schedule_within_capacity (onGraph site g nodes) P pool env inf fuelIn fuel order st hest hts' hP hinf
        (fun s v team c hc => hacc v team c (hch s v team c hc)) h a n ha hn t

/-! ### Projects that can be staffed get a valid schedule -/

/-- LFT schedulers on a just-in-time timeline: if chains do not depend on each other in a cycle, and every work can be staffed,
a schedule is returned, and it is valid. -/
theorem lft_jit_schedules (hw : WorkGraph g nodes) (hdep : OnlyDependencies g)
    (hpos : ∀ v, ∀ e ∈ g.edgesTo v, e.type = .inseparable → 0 ≤ e.lag) (site : Env σ) (hsite : NoSiteLimits site)
    (hest : ∀ v team, 0 ≤ site.estimate v team) (rule : Rule) (hrule : GivesGoodOrders rule g nodes)
    (hans : ∃ order, orderWorks rule g nodes = some order) (contractors : List Contractor)
    (hcs : C16.SoundContractors contractors) (spec : Nat → WorkSpec)
    (hneg : ∀ v k n, (spec v).assigned.lookup k = some n → n ≠ -1) (reqs : Nat → List WorkerReq) (index : Nat → Nat → Nat)
    (hidx : ∀ v n, 0 < n → index v n < n) (independent : Nat → Bool) (parentTime : Int) (hP : 0 ≤ parentTime) (env : σ)
    (hstaff : ∀ v, C54.Staffable contractors (spec v) (reqs v)) :
    ∃ st, (∀ fuel, 1 ≤ fuel → scheduleJIT site rule g nodes (LFT.plan _ contractors spec reqs index independent parentTime)
        (LFT.agents contractors) env fuel = some (some st)) ∧
      Feasible g nodes (LFT.agents contractors) (Staffs contractors spec reqs) st.sched := by
  obtain ⟨order, horder⟩ := hans
  have ho := hrule order horder
  obtain ⟨e1, e2, e3⟩ := expand hw hdep site ho
  obtain ⟨st, h, -⟩ := C54.lft_delivers_jit (onGraph site g nodes) (noSite hsite) (chainEdges site hpos) contractors hcs spec hneg
    reqs index hidx independent parentTime hP env order hest (fun v => Expand.head_mem_chain v) hstaff e2
  have hs : ∀ fuel, 1 ≤ fuel → scheduleJIT site rule g nodes
      (LFT.plan _ contractors spec reqs index independent parentTime) (LFT.agents contractors) env fuel = some (some st) := by
    intro fuel hf
    simp only [scheduleJIT, horder]
    exact h fuel hf
  refine ⟨st, hs, jit_feasible hw hdep site hest rule hrule _ (fun v ts hv => by simp [LFT.plan] at hv) hP _ _
    (staffs_ok hcs (fun v => (hstaff v).1) fun v => (hstaff v).2.1) (fun s v team c hc => ?_) env 1 st (hs 1 (Nat.le_refl _))⟩
  exact lft_staffs contractors hcs spec hneg reqs (fun v => (hstaff v).1) index hc

/-- HEFT (and any other generic scheduler) on a just-in-time timeline: if chains do not depend on each other in a cycle, every
work can be staffed, and the project surely ends before half of infinity, a schedule is returned, and it is valid and ends by
then. -/
theorem generic_jit_schedules (hw : WorkGraph g nodes) (hdep : OnlyDependencies g)
    (hpos : ∀ v, ∀ e ∈ g.edgesTo v, e.type = .inseparable → 0 ≤ e.lag) (site : Env σ) (hsite : NoSiteLimits site)
    (hsite0 : ∀ s v t d, 0 ≤ t → 0 ≤ site.matTime s v t ∧ 0 ≤ site.zoneTime s v t d)
    (rule : Rule) (hrule : GivesGoodOrders rule g nodes) (hans : ∃ order, orderWorks rule g nodes = some order)
    (G : Generic.Setup (JIT.State σ)) (hG : Generic.Sound G) (L D : Int) (hL : 0 ≤ L) (hD : 0 ≤ D)
    (hest : ∀ v team, 0 ≤ site.estimate v team ∧ site.estimate v team ≤ D) (hlag : ∀ v, ∀ e ∈ g.edgesTo v, e.lag ≤ L)
    (hhor : 2 * (G.parentTime + nodes.length * (L + D)) < TIME_INF) (env : σ) :
    ∃ st, (∀ fuel, 1 ≤ fuel → scheduleJIT site rule g nodes (Generic.planJIT (onGraph site g nodes) G fuel)
        (LFT.agents G.contractors) env fuel = some (some st)) ∧
      Feasible g nodes (LFT.agents G.contractors) (Staffs G.contractors G.spec G.reqs) st.sched ∧
      ∀ e ∈ st.sched, e.2.finish ≤ G.parentTime + nodes.length * (L + D) := by
  obtain ⟨order, horder⟩ := hans
  have ho := hrule order horder
  obtain ⟨e1, e2, e3⟩ := expand hw hdep site ho
  have hlen : (order.flatMap (onGraph site g nodes).chain).length = nodes.length := List.Perm.length_eq e1
  obtain ⟨st, h, -, hb⟩ := C54.generic_delivers_jit (onGraph site g nodes) (noSite hsite) hsite0 (chainEdges site hpos) G hG order L D
    ⟨hL, hD, fun v team => (hest v team).1, fun v _ c _ team _ u _ => (hest u team).2, fun v _ u _ e he => by
      simp only [onGraph, List.mem_map] at he
      obtain ⟨e, he, rfl⟩ := he
      exact hlag u e he⟩
    env (fun v => Expand.head_mem_chain v) (by rw [hlen]; exact hhor) e2
  have hs : ∀ fuel, 1 ≤ fuel → scheduleJIT site rule g nodes (Generic.planJIT (onGraph site g nodes) G fuel)
      (LFT.agents G.contractors) env fuel = some (some st) := by
    intro fuel hf
    simp only [scheduleJIT, horder]
    exact h fuel hf
  refine ⟨st, hs, jit_feasible hw hdep site (fun v team => (hest v team).1) rule hrule _
    (fun v ts hv => by simp [Generic.planJIT] at hv) hG.start _ _ (staffs_ok hG.contractors hG.reqs hG.kinds)
    (fun s v team c hc => ?_) env 1 st (hs 1 (Nat.le_refl _)), by rw [← hlen]; exact hb⟩
  obtain ⟨s', f, k, hr, rfl⟩ := Generic.choose_search hc
  obtain ⟨h1, h2, h3⟩ := C16.chosen_team_meets_requirements G.contractors hG.contractors _ _ (hG.reqs v) _ (hG.free v) _
    (fun c => (hG.opt s v c).1) _ (fun c t s' f hf => Generic.jit_time _ _ _ _ _ hf) s' f k team hr
  exact ⟨k, h1, rfl, h2, h3⟩

private theorem range_of {sw : Sched} {B L inf : Int} (h : ∀ e ∈ sw, e.2.finish ≤ B) (hlag : ∀ v, ∀ e ∈ g.edgesTo v, e.lag ≤ L)
    (hB : B + L ≤ inf) : ∀ x ∈ sw, ∀ v, ∀ e ∈ g.edgesTo v, e.start = x.1 → x.2.finish + e.lag ≤ inf := by
  intro x hx v e he _
  have := h x hx
  have := hlag v e he
  omega

/-- LFT schedulers on a momentum timeline: if moreover the works of a chain ask for the same worker types as its head (or for
none), lags between works of one chain are not positive and the project surely ends before infinity, a schedule is returned, and it
is valid. -/
theorem lft_momentum_schedules (hw : WorkGraph g nodes) (hdep : OnlyDependencies g)
    (hchlag : ∀ k v, ∀ e ∈ g.edgesTo v, g.InChain k v → g.InChain k e.start → e.lag ≤ 0) (site : Env σ)
    (hsite : NoSiteLimits site) (L D : Int) (hL : 0 ≤ L) (hD : 0 ≤ D)
    (hest : ∀ v team, 0 ≤ site.estimate v team ∧ site.estimate v team ≤ D) (hlag : ∀ v, ∀ e ∈ g.edgesTo v, e.lag ≤ L)
    (rule : Rule) (hrule : GivesGoodOrders rule g nodes) (hans : ∃ order, orderWorks rule g nodes = some order)
    (contractors : List Contractor) (hcs : C16.SoundContractors contractors) (spec : Nat → WorkSpec)
    (hneg : ∀ v k n, (spec v).assigned.lookup k = some n → n ≠ -1) (reqs : Nat → List WorkerReq) (index : Nat → Nat → Nat)
    (hidx : ∀ v n, 0 < n → index v n < n) (independent : Nat → Bool) (parentTime inf : Int) (hP : 0 ≤ parentTime)
    (hhor : parentTime + nodes.length * (L + D) + L ≤ inf) (env : σ)
    (hkinds : ∀ v, site.kinds v = (reqs v).map (·.kind)) (hserv : ∀ v, reqs v ≠ [] → site.service v = false)
    (hsame : ∀ k v, g.InChain k v → site.kinds v = site.kinds k ∨ site.kinds v = [])
    (hstaff : ∀ v, C54.Staffable contractors (spec v) (reqs v)) :
    ∃ N st, (∀ fuelIn fuel, N ≤ fuelIn → 1 ≤ fuel → scheduleMomentum site rule g nodes
        (LFT.plan _ contractors spec reqs index independent parentTime) (LFT.agents contractors) env inf fuelIn fuel =
        some (some st)) ∧
      Feasible g nodes (LFT.agents contractors) (Staffs contractors spec reqs) st.sched ∧
      ∀ v x, st.sched.get v = some x → parentTime ≤ x.start := by
  obtain ⟨order, horder⟩ := hans
  have ho := hrule order horder
  obtain ⟨e1, e2, e3⟩ := expand hw hdep site ho
  have hlen : (order.flatMap (onGraph site g nodes).chain).length = nodes.length := List.Perm.length_eq e1
  have hpos : 0 ≤ (nodes.length : Int) * (L + D) := Int.mul_nonneg (by omega) (by omega)
  have hfits : ∀ (st : Momentum.State σ), ∀ v ∈ order, ∃ team c,
      (LFT.plan (Momentum.State σ) contractors spec reqs index independent parentTime).choose st v = some (team, c) ∧
        Momentum.Fits (onGraph site g nodes) (LFT.agents contractors) v team := by
    intro st v hv
    obtain ⟨team, c, h, hc, hm⟩ := C54.lft_chooses_team contractors hcs spec hneg reqs index hidx v (hstaff v)
    obtain ⟨h1, h2⟩ := meets_ok hcs hc (hstaff v).1 (hstaff v).2.1 hm
    obtain ⟨h3, h4⟩ := meets_names hm
    have hhead := (ho.2.1 v).1 hv
    refine ⟨team, c.id, h, h1, h2, fun w hw w' hw' => by rw [h4 w hw, h4 w' hw'], fun hne => ?_⟩
    have hk : site.kinds v = team.map (·.name) := by rw [hkinds, h3]
    refine ⟨Expand.chain_head hhead, hk, hserv v fun he => hne ?_, fun u hu => ?_⟩
    · have := congrArg List.length h3
      rw [he] at this
      simpa using this
    · have hin := (Heads.mem_chain hw.ok hhead).1 hu
      rw [← hk]
      exact hsame v u hin
  obtain ⟨N, st, hb, h⟩ := Momentum.buildFrom_some_before (E := onGraph site g nodes) (inf := inf) (first := true)
    (st := ⟨Momentum.init (LFT.agents contractors), env, []⟩) (M := parentTime) (noSite hsite) (fun v team => (hest v team).1)
    hP hL hD (fun v team => (hest v team).2)
    (fun v e he => by
      simp only [onGraph, List.mem_map] at he
      obtain ⟨e, he, rfl⟩ := he
      exact hlag v e he)
    (fun v _ => rfl)
    (fun v hv => by rw [List.nodup_flatMap] at e3; exact e3.1 v hv) (fun v => Expand.head_mem_chain v) hfits
    ⟨by
      intro a q hq r hr
      simp only [Momentum.init, Option.map_eq_some_iff] at hq
      obtain ⟨c, _, rfl⟩ := hq
      simp at hr
      subst hr
      exact hP, by simp⟩ (Int.le_refl _) (.inl ⟨rfl, .fresh⟩)
  have hs : ∀ fuelIn fuel, N ≤ fuelIn → 1 ≤ fuel → scheduleMomentum site rule g nodes
      (LFT.plan _ contractors spec reqs index independent parentTime) (LFT.agents contractors) env inf fuelIn fuel =
      some (some st) := by
    intro fuelIn fuel hN hf
    obtain ⟨n, rfl⟩ : ∃ n, fuel = n + 1 := ⟨fuel - 1, by omega⟩
    simp only [scheduleMomentum, horder]
    exact h fuelIn n hN
  rw [hlen] at hb
  refine ⟨N, st, hs, momentum_feasible_partial hw hdep site (fun v team => (hest v team).1) rule hrule hchlag _ (fun v => rfl) inf
    hP ?_ _ _ (fun v team c hc => (staffs_ok hcs (fun v => (hstaff v).1) (fun v => (hstaff v).2.1) v team c hc).1)
    (fun s v team c hc => ?_) env N 1 st (hs N 1 (Nat.le_refl _) (Nat.le_refl _)) (range_of hb.2 hlag hhor)⟩
  · show parentTime ≤ inf
    omega
  · exact lft_staffs contractors hcs spec hneg reqs (fun v => (hstaff v).1) index hc

/-- Generic schedulers (HEFT, topological) on a momentum timeline: the same, if the project surely ends before half of
infinity. -/
theorem generic_momentum_schedules (hw : WorkGraph g nodes) (hdep : OnlyDependencies g)
    (hchlag : ∀ k v, ∀ e ∈ g.edgesTo v, g.InChain k v → g.InChain k e.start → e.lag ≤ 0) (site : Env σ)
    (hsite : NoSiteLimits site) (L D : Int) (hL : 0 ≤ L) (hD : 0 ≤ D)
    (hest : ∀ v team, 0 ≤ site.estimate v team ∧ site.estimate v team ≤ D) (hlag : ∀ v, ∀ e ∈ g.edgesTo v, e.lag ≤ L)
    (rule : Rule) (hrule : GivesGoodOrders rule g nodes) (hans : ∃ order, orderWorks rule g nodes = some order)
    (G : Generic.Setup (Momentum.State σ)) (hG : Generic.Sound G) (inf : Int)
    (hhor : 2 * (G.parentTime + nodes.length * (L + D)) < TIME_INF) (hinf : G.parentTime + nodes.length * (L + D) + L ≤ inf)
    (hkinds : ∀ v, site.kinds v = (G.reqs v).map (·.kind)) (hserv : ∀ v, G.reqs v ≠ [] → site.service v = false)
    (hsame : ∀ k v, g.InChain k v → site.kinds v = site.kinds k ∨ site.kinds v = []) (env : σ) :
    ∃ N st, (∀ fuelIn fuel, N ≤ fuelIn → 1 ≤ fuel → scheduleMomentum site rule g nodes
        (Generic.planMomentum (onGraph site g nodes) G inf fuelIn fuel) (LFT.agents G.contractors) env inf fuelIn fuel =
        some (some st)) ∧
      Feasible g nodes (LFT.agents G.contractors) (Staffs G.contractors G.spec G.reqs) st.sched ∧
      (∀ v x, st.sched.get v = some x → G.parentTime ≤ x.start) ∧
      ∀ e ∈ st.sched, e.2.finish ≤ G.parentTime + nodes.length * (L + D) := by
  obtain ⟨order, horder⟩ := hans
  have ho := hrule order horder
  obtain ⟨e1, e2, e3⟩ := expand hw hdep site ho
  have hlen : (order.flatMap (onGraph site g nodes).chain).length = nodes.length := List.Perm.length_eq e1
  have hpos : 0 ≤ (nodes.length : Int) * (L + D) := Int.mul_nonneg (by omega) (by omega)
  have h0 := hG.start
  obtain ⟨N, st, hb, h⟩ := Generic.momentum_run (E := onGraph site g nodes) (first := true) (inf := inf) (order := order)
    (order₀ := order) (L := L) (D := D)
    (st := ⟨Momentum.init (LFT.agents G.contractors), env, []⟩) hG (noSite hsite)
    ⟨hL, hD, fun v team => (hest v team).1, fun v _ c _ team _ u _ => (hest u team).2, fun v _ u _ e he => by
      simp only [onGraph, List.mem_map] at he
      obtain ⟨e, he, rfl⟩ := he
      exact hlag u e he⟩
    ⟨hkinds, hserv, fun v hv => Expand.chain_head ((ho.2.1 v).1 hv),
      fun v hv => by rw [List.nodup_flatMap] at e3; exact e3.1 v hv,
      fun v hv u hu => hsame v u ((Heads.mem_chain hw.ok ((ho.2.1 v).1 hv)).1 hu)⟩
    (M := G.parentTime) (fun _ h => h)
    ⟨by
      intro a q hq r hr
      simp only [Momentum.init, Option.map_eq_some_iff] at hq
      obtain ⟨c, _, rfl⟩ := hq
      simp at hr
      subst hr
      exact h0, by simp⟩ (Int.le_refl _) (by rw [hlen]; exact hhor) (.inl ⟨rfl, .fresh⟩)
  have hs : ∀ fuelIn fuel, N ≤ fuelIn → 1 ≤ fuel → scheduleMomentum site rule g nodes
      (Generic.planMomentum (onGraph site g nodes) G inf fuelIn fuel) (LFT.agents G.contractors) env inf fuelIn fuel =
      some (some st) := by
    intro fuelIn fuel hN hf
    obtain ⟨n, rfl⟩ : ∃ n, fuel = n + 1 := ⟨fuel - 1, by omega⟩
    simp only [scheduleMomentum, horder]
    exact h fuelIn n hN
  rw [hlen] at hb
  obtain ⟨f1, f2⟩ := momentum_feasible_partial hw hdep site (fun v team => (hest v team).1) rule hrule hchlag
    (Generic.planMomentum (onGraph site g nodes) G inf N 1) (fun v => rfl) inf
    h0 (show G.parentTime ≤ inf by omega) _ (Staffs G.contractors G.spec G.reqs)
    (fun v team c hc => (staffs_ok hG.contractors hG.reqs hG.kinds v team c hc).1) (fun s v team c hc => by
      obtain ⟨s', f, k, hr, rfl⟩ := Generic.choose_search hc
      obtain ⟨h1, h2, h3⟩ := C16.chosen_team_meets_requirements G.contractors hG.contractors _ _ (hG.reqs v) _ (hG.free v) _
        (fun c => (hG.opt s v c).1) _ (fun c t s' f hf => Generic.momentum_time _ _ _ _ _ hf) s' f k team hr
      exact ⟨k, h1, rfl, h2, h3⟩) env N 1 st
    (hs N 1 (Nat.le_refl _) (Nat.le_refl _)) (range_of hb.2 hlag hinf)
  exact ⟨N, st, hs, f1, f2, hb.2⟩

/-! ### A concrete project -/

private def works : List Nat := [0, 1, 3, 2, 4]
private def demoReqs (v : Nat) : List WorkerReq := if v = 0 ∨ v = 4 ∨ 4 < v then [] else [⟨0, 1, 2⟩]
private def demoSite : Env Unit :=
  { Demo.env with kinds := fun v => (demoReqs v).map (·.kind), service := fun v => v == 0 || v == 4 || decide (4 < v),
                  estimate := fun v team => if team = [] then 0 else min (10 * v) 40 }
private def demoContractors : List Contractor := [⟨7, [(0, 3)]⟩, ⟨8, [(0, 1)]⟩]
private def demoCost (v : Nat) : Int := v
private def demoPrio (v : Nat) : Int := if v = 4 then 2 else 1
private def demoSetup (S : Type) : Generic.Setup S :=
  ⟨demoContractors, fun _ => ⟨[], []⟩, demoReqs, fun _ _ _ => Optimize.averageReq 1 1, fun _ => false, 5⟩

private theorem demo_graph : WorkGraph C22.demo works where
  once := by decide
  linked := Graph.linked_ofEdges _
  closed := Graph.closed_ofEdges (by decide)
  chains := Graph.chains_ofEdges (by decide)
  acyclic := Graph.acyclic_ofEdges (fun v => if v = 3 then 1 else v) (by decide)

-- the orders of the four rules
example : orderWorks (heftRule demoCost demoPrio) C22.demo works = some [0, 3, 1, 4] := by decide +kernel
example : orderWorks (lftRule demoCost demoPrio) C22.demo works = some [0, 3, 1, 4] := by decide +kernel
example : orderWorks (randomLftRule demoPrio (fun n => n) 9) C22.demo works = some [0, 3, 1, 4] := by decide +kernel
example : orderWorks (topologicalRule demoPrio List.reverse) C22.demo works = some [0, 3, 1, 4] := by decide +kernel
-- whole runs
example : (scheduleJIT demoSite (lftRule demoCost demoPrio) C22.demo works
    (LFT.plan _ demoContractors (fun _ => ⟨[], []⟩) demoReqs (fun _ _ => 0) (fun _ => false) 5) (LFT.agents demoContractors) ()
    20).map (·.map (·.sched.map fun e => (e.1, e.2.start, e.2.finish))) =
    some (some [(4, 67, 67), (2, 47, 67), (1, 37, 47), (3, 7, 37), (0, 5, 5)]) := by decide +kernel

private theorem demo_collapse : Heads.collapse C22.demo works =
    some ([0, 3, 1, 4], [(0, []), (1, [0, 3]), (3, [0]), (4, [1])], [(0, [1, 3]), (1, [4]), (3, [1]), (4, [])]) := by decide

private def demoEdges : List Edge := [⟨0, 1, 0, .finishStart⟩, ⟨0, 3, 2, .lagFinishStart⟩, ⟨1, 2, 0, .inseparable⟩,
  ⟨3, 2, 0, .finishStart⟩, ⟨2, 4, 0, .finishStart⟩]

private theorem demo_edge {v : Nat} {e : Edge} (h : e ∈ C22.demo.edgesTo v) : e ∈ demoEdges ∧ e.finish = v := by
  unfold C22.demo at h
  rw [Graph.ofEdges_to] at h
  exact ⟨(List.mem_filter.1 h).1, by simpa using (List.mem_filter.1 h).2⟩

private theorem demo_deps : OnlyDependencies C22.demo := fun _ e he =>
  (by decide : ∀ e ∈ demoEdges, e.type = .finishStart ∨ e.type = .lagFinishStart ∨ e.type = .inseparable) e (demo_edge he).1

private theorem demo_lag {v : Nat} {e : Edge} (h : e ∈ C22.demo.edgesTo v) : 0 ≤ e.lag ∧ e.lag ≤ 2 :=
  (by decide : ∀ e ∈ demoEdges, 0 ≤ e.lag ∧ e.lag ≤ 2) e (demo_edge h).1

private theorem demo_agrees : PrioritiesAgree demoPrio C22.demo works := by
  intro a b hd
  have hb := ((C22.collapse_tables demo_graph demo_collapse a b).1).2 hd
  have ha : a ∈ [0, 3, 1, 4] := ((C22.collapse_preserves_dependencies demo_graph demo_collapse).2.1 a).2 hd.1
  have key : ∀ a ∈ [0, 3, 1, 4], ∀ b ∈ (List.lookup a [(0, []), (1, [0, 3]), (3, [0]), (4, [1])]).getD [],
      demoPrio b ≤ demoPrio a := by decide
  exact key a ha b hb

private theorem demo_acyclic : Acyclic (C22.demo.HeadDependsOn works) := by
  by_contra hn
  have := (C22.error_iff_chain_cycle demo_graph).2 hn
  rw [demo_collapse] at this
  cases this

private theorem demo_site : NoSiteLimits demoSite :=
  ⟨fun _ _ _ => Int.le_refl _, fun _ _ _ _ => Int.le_refl _, fun s _ t => ⟨s, t, rfl, Int.le_refl _⟩, fun s _ _ _ => ⟨s, rfl⟩,
    fun s => ⟨s, 0, rfl, Int.le_refl _⟩⟩

private theorem demo_est (v : Nat) (team : List Worker) : 0 ≤ demoSite.estimate v team ∧ demoSite.estimate v team ≤ 40 := by
  simp only [demoSite]
  split <;> omega

private theorem demo_contractors : C16.SoundContractors demoContractors := by unfold C16.SoundContractors; decide

private theorem demo_staff (v : Nat) : C54.Staffable demoContractors ⟨[], []⟩ (demoReqs v) := by
  unfold demoReqs
  split
  · exact ⟨by simp [C16.SoundReqs], by simp, by simp, _, List.mem_cons_self, .inl rfl, by simp⟩
  · refine ⟨by simp [C16.SoundReqs], by simp, by simp, _, List.mem_cons_self, .inl rfl, ?_⟩
    intro r hr
    rw [List.mem_singleton] at hr
    subst hr
    exact ⟨3, by decide, by decide, by simp⟩

private theorem demo_same (k v : Nat) (h : C22.demo.InChain k v) : demoSite.kinds v = demoSite.kinds k ∨ demoSite.kinds v = [] := by
  induction h with
  | refl => exact .inl rfl
  | @tail b c _ hf ih =>
    obtain ⟨e, he, rfl, ht⟩ := hf
    obtain ⟨h1, rfl⟩ := demo_edge he
    have key : ∀ e ∈ demoEdges, e.type = .inseparable → demoSite.kinds e.finish = demoSite.kinds e.start := by decide
    rw [key e h1 ht]
    exact ih

private theorem demo_chain_lag (k v : Nat) (e : Edge) (he : e ∈ C22.demo.edgesTo v) (h1 : C22.demo.InChain k v)
    (h2 : C22.demo.InChain k e.start) : e.lag ≤ 0 := by
  have hm := demo_edge he
  by_cases hl : e.lag ≤ 0
  · exact hl
  · exfalso
    have key : ∀ e ∈ demoEdges, ¬ e.lag ≤ 0 → e.finish = 3 ∧ e.start = 0 := by decide
    obtain ⟨h3, h0⟩ := key e hm.1 hl
    rw [← hm.2, h3] at h1
    rw [h0] at h2
    have nofollow : ∀ p, ¬ C22.demo.Follows p 3 ∧ ¬ C22.demo.Follows p 0 := by
      have key : ∀ e ∈ demoEdges, e.type = .inseparable → e.finish ≠ 3 ∧ e.finish ≠ 0 := by decide
      intro p
      constructor <;>
      · rintro ⟨e, he, -, ht⟩
        have hm := demo_edge he
        have := key e hm.1 ht
        omega
    have hk3 : k = 3 := by
      cases h1 with
      | refl => rfl
      | tail _ hf => exact absurd hf (nofollow _).1
    have hk0 : k = 0 := by
      cases h2 with
      | refl => rfl
      | tail _ hf => exact absurd hf (nofollow _).2
    omega

-- all hypotheses of the theorems above are met by this project: randomized LFT and HEFT on both timelines
example : ∃ st, (∀ fuel, 1 ≤ fuel → scheduleJIT demoSite (lftRule demoCost demoPrio) C22.demo works
      (LFT.plan _ demoContractors (fun _ => ⟨[], []⟩) demoReqs (fun _ _ => 0) (fun _ => false) 5) (LFT.agents demoContractors) ()
      fuel = some (some st)) ∧
    Feasible C22.demo works (LFT.agents demoContractors) (Staffs demoContractors (fun _ => ⟨[], []⟩) demoReqs) st.sched :=
  lft_jit_schedules demo_graph demo_deps (fun v e he _ => (demo_lag he).1) demoSite demo_site (fun v t => (demo_est v t).1) _
    (lft_order demo_graph _ (fun v => Int.natCast_nonneg v) _ demo_agrees)
    (rules_answer demo_graph demo_acyclic demoCost demoCost demoPrio).2.1 demoContractors demo_contractors (fun _ => ⟨[], []⟩)
    (by simp) demoReqs (fun _ _ => 0) (fun _ _ h => h) (fun _ => false) 5 (by decide) () demo_staff

private theorem demo_sound (S : Type) : Generic.Sound (demoSetup S) where
  contractors := demo_contractors
  reqs v := (demo_staff v).1
  kinds v := (demo_staff v).2.1
  free _ := rfl
  opt _ _ _ := ⟨(C16.optimizers_stay_within fun _ => 0).2.2 1 1 (by decide) (by decide),
    (C54.optimizers_answer fun _ => 0).2.2 1 1 (by decide) (by decide)⟩
  able v := by
    obtain ⟨-, -, -, c, hc, ha, h⟩ := demo_staff v
    refine ⟨c, hc, ha, fun r hr => ?_⟩
    obtain ⟨n, h1, h2, -⟩ := h r hr
    exact ⟨n, h1, h2⟩
  start := (by decide : (0 : Int) ≤ 5)

example : ∃ N st, (∀ fuelIn fuel, N ≤ fuelIn → 1 ≤ fuel → scheduleMomentum demoSite (heftRule demoCost demoPrio) C22.demo works
      (Generic.planMomentum (onGraph demoSite C22.demo works) (demoSetup _) 1000 fuelIn fuel) (LFT.agents demoContractors) () 1000
      fuelIn fuel = some (some st)) ∧
    Feasible C22.demo works (LFT.agents demoContractors) (Staffs demoContractors (fun _ => ⟨[], []⟩) demoReqs) st.sched ∧
    (∀ v x, st.sched.get v = some x → 5 ≤ x.start) ∧ ∀ e ∈ st.sched, e.2.finish ≤ 5 + 5 * (2 + 40) :=
  generic_momentum_schedules demo_graph demo_deps demo_chain_lag demoSite demo_site 2 40 (by decide) (by decide) demo_est
    (fun v e he => (demo_lag he).2) _ (heft_order demo_graph demoCost (fun v => Int.natCast_nonneg v) _ demo_agrees)
    (rules_answer demo_graph demo_acyclic demoCost demoCost demoPrio).1 (demoSetup _) (demo_sound _) 1000 (by decide) (by decide)
    (fun _ => rfl) (fun v h => by
      simp only [demoSite, demoSetup, demoReqs] at h ⊢
      split at h
      · exact absurd rfl h
      · simp; omega) demo_same ()

private def workPrio (v : Nat) : Int := if v = 3 then 2 else v

/-- Not proved because false: "if the priorities of works agree with all dependencies between works, the schedule is valid".
Here they do, but the chain of works 1 and 2 has the priority of work 1, so it is placed before work 3, on which work 2 depends:
work 2 starts before work 3 is finished. -/
theorem agreeing_priorities_not_enough : ∃ prio : Nat → Int,
    (∀ v, ∀ e ∈ C22.demo.edgesTo v, prio e.start ≤ prio v) ∧ ∃ st,
      scheduleJIT demoSite (heftRule demoCost prio) C22.demo works (Demo.plan _) Demo.pool () 20 = some (some st) ∧
      ∃ x y, st.sched.get 2 = some x ∧ st.sched.get 3 = some y ∧ x.start < y.finish := by
  refine ⟨workPrio, ?_, ?_⟩
  · intro v e he
    obtain ⟨hm, rfl⟩ := demo_edge he
    exact (by decide : ∀ e ∈ demoEdges, workPrio e.start ≤ workPrio e.finish) e hm
  · have h : ((scheduleJIT demoSite (heftRule demoCost workPrio) C22.demo works (Demo.plan _) Demo.pool () 20).map fun r =>
        r.map fun st => (st.sched.get 2, st.sched.get 3)) =
        some (some (some ⟨15, 35, [⟨0, 0, 2⟩], 0⟩, some ⟨35, 65, [⟨0, 0, 2⟩], 0⟩)) := by decide +kernel
    simp only [Option.map_eq_some_iff, Prod.mk.injEq] at h
    obtain ⟨r, hr, st, rfl, h2, h3⟩ := h
    exact ⟨st, hr, _, _, h2, h3, by decide⟩

end Sampo.C89
