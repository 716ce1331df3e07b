import Verif.Lemmas.PlainPipeline
import Verif.Lemmas.PlainDemo
import Verif.Props.C45_Check
import Verif.Props.C47_Generated
import Verif.Props.C106_Even
import Verif.Props.C107_OrderOptimizers

/-!
# C108: the pipeline with lag optimization switched on or off does the project that was given
-/

namespace Sampo.C108
open PlainPipeline Sampo.Scheduler
open Pipeline hiding Feasible Scheduler
open C22 (WorkGraph)
open C89 (OnlyDependencies PrioritiesAgree GivesGoodOrders GoodOrder Staffs)

variable {σ : Type} {p : Project} {given : Given} {cs : List Contractor} {restructure : Graph → Bool → Option Graph} {lag : Lag}

private theorem able (hp : SoundProject p) (hcan : canPerformGraph cs (p.works.map p.reqs) = some true) (v : Nat) :
    CanBeDone cs (p.reqs v) := by
  have hall := (C45.answer_exact hcan).1 rfl
  by_cases hv : v ∈ p.works
  · exact hall _ (List.mem_map_of_mem hv)
  · obtain ⟨w, hw⟩ := List.exists_mem_of_ne_nil _ hp.some
    obtain ⟨c, hc, -⟩ := hall _ (List.mem_map_of_mem hw)
    exact ⟨c, hc, by rw [hp.outside v hv]; simp⟩

private theorem run_done (hlag : lag ≠ .auto) {prio : Nat → Int} {scheduler : (Nat → Int) → List Contractor → Option Sched} {s : Sched}
    (hprio : Priority.correct p.graph.parents p.works.length p.works p.prio = some prio)
    (hc : contractorsOf (p.works.map p.reqs) given = some cs) (hcan : canPerformGraph cs (p.works.map p.reqs) = some true)
    (hs : scheduler prio cs = some s) : run restructure p given lag scheduler = .done cs ⟨p.graph, [s], [()]⟩ := by
  unfold run
  rw [hprio]
  dsimp only
  unfold Pipeline.schedule
  rw [hc]
  dsimp only
  rw [hcan]
  dsimp only
  cases lag with
  | auto => exact absurd rfl hlag
  | on => simp [chooseGraph, hs]
  | off => simp [chooseGraph, hs]

/-- The pipeline refuses the contractors exactly if there is a work that none of them can do, whatever the scheduler and the lag
optimization, if each contractor has an entry for every required type of workers; nothing is refused if contractors are generated. -/
theorem refused_iff (hp : SoundProject p) (scheduler : (Nat → Int) → List Contractor → Option Sched) :
    (∀ cs : List Contractor, (∀ c ∈ cs, ∀ v ∈ p.works, ∀ r ∈ p.reqs v, ∃ n, c.workers.lookup r.kind = some n) →
      (run restructure p (.list cs) lag scheduler = .refused ↔ ∃ v ∈ p.works, ¬ CanBeDone cs (p.reqs v))) ∧
    ∀ m number scaler, 0 < number → run restructure p (.generate m number scaler) lag scheduler ≠ .refused := by
  obtain ⟨prio, hprio, -⟩ := corrected hp
  constructor
  · intro cs hcs
    have hex := (C45.accepted_iff_partial (cs := cs) (nodes := p.works.map p.reqs) (by
      intro c hc reqs hr r hm
      obtain ⟨v, hv, rfl⟩ := List.mem_map.1 hr
      exact hcs c hc v hv r hm)).2
    have hF : (¬ Pipeline.Feasible cs (p.works.map p.reqs)) ↔ ∃ v ∈ p.works, ¬ CanBeDone cs (p.reqs v) := by
      unfold Pipeline.Feasible Capable CanBeDone
      simp only [List.mem_map, forall_exists_index, and_imp, forall_apply_eq_imp_iff₂]
      push Not
      rfl
    rw [← hF, ← hex]
    unfold run
    rw [hprio]
    dsimp only
    unfold Pipeline.schedule
    simp only [contractorsOf]
    constructor
    · intro h
      split at h
      · cases h
      · assumption
      · split at h <;> cases h
    · intro h
      rw [h]
  · intro m number scaler hn h
    unfold run at h
    rw [hprio] at h
    dsimp only at h
    unfold Pipeline.schedule at h
    split at h
    · cases h
    · rename_i cs hc
      have := C47.accepted hn (fun reqs hr r hm => by
        obtain ⟨v, -, rfl⟩ := List.mem_map.1 hr
        exact (hp.reqs v).1 r hm) hc
      rw [this] at h
      dsimp only at h
      split at h <;> cases h

/-- With the HEFT scheduler on its default timeline: if the contractors suffice, the pipeline ends with the given graph and one schedule,
which is valid, whatever the priorities of the works, also with order optimizers that keep good orders. -/
theorem heft_executes_partial (hp : SoundProject p)
    (hpos : ∀ v, ∀ e ∈ p.graph.edgesTo v, e.type = .inseparable → 0 ≤ e.lag) (hlag : lag ≠ .auto) (S : Settings σ) (hsite : NoSiteLimits S.site)
    (hsite0 : ∀ s v t d, 0 ≤ t → 0 ≤ S.site.matTime s v t ∧ 0 ≤ S.site.zoneTime s v t d) (hP : 0 ≤ S.parentTime)
    (L D : Int) (hL : 0 ≤ L) (hD : 0 ≤ D) (hest : ∀ v team, 0 ≤ S.site.estimate v team ∧ S.site.estimate v team ≤ D)
    (hlags : ∀ v, ∀ e ∈ p.graph.edgesTo v, e.lag ≤ L) (hhor : 2 * (S.parentTime + p.works.length * (L + D)) < TIME_INF)
    (hc : contractorsOf (p.works.map p.reqs) given = some cs) (hcs : C16.SoundContractors cs)
    (hcan : canPerformGraph cs (p.works.map p.reqs) = some true) (cost : Nat → ℚ) (hcost : ∀ v, 0 ≤ cost v)
    (opt : JIT.State σ → Nat → Contractor → Optimizer) (hopt : ∀ st v c, StaysWithin (opt st v c) ∧ Answers (opt st v c))
    (optimizers : List (List Nat → Option (List Nat)))
    (hoptimizers : ∀ o ∈ optimizers, ∀ order, GoodOrder p.graph p.works order → ∃ r, o order = some r ∧ GoodOrder p.graph p.works r) :
    ∃ s, (∀ fuel, 1 ≤ fuel → run restructure p given lag (heft S cost opt optimizers fuel p) = .done cs ⟨p.graph, [s], [()]⟩) ∧
      Feasible p.graph p.works (LFT.agents cs) (Staffs cs (fun _ => ⟨[], []⟩) p.reqs) s ∧
      ∀ e ∈ s, e.2.finish ≤ S.parentTime + p.works.length * (L + D) := by
  obtain ⟨prio, hprio, hagree⟩ := corrected hp
  have hrule := C89.heft_order hp.graph cost hcost prio hagree
  obtain ⟨order, horder⟩ := (C89.rules_answer hp.graph (heads_acyclic hp) cost (fun _ => 0) prio).1
  have hrule' := C107.optimizers_compose optimizers (heftRule cost prio) hrule (fun o ho order r hg hr => by
    obtain ⟨r', h1, h2⟩ := hoptimizers o ho order hg
    rw [hr, Option.some.injEq] at h1
    exact h1 ▸ h2)
  have hans : ∃ order, orderWorks (optimizedRule optimizers (heftRule cost prio)) p.graph p.works = some order := by
    have hg := hrule order horder
    unfold orderWorks at horder ⊢
    rw [Option.bind_eq_some_iff] at horder
    obtain ⟨c, hcol, hr⟩ := horder
    rw [hcol, Option.bind_some]
    unfold optimizedRule
    rw [hr, Option.bind_some]
    unfold applyOrder
    clear hr hcol hrule'
    induction optimizers generalizing order with
    | nil => exact ⟨order, rfl⟩
    | cons o os ih =>
      obtain ⟨r, h1, h2⟩ := hoptimizers o List.mem_cons_self order hg
      rw [List.foldlM_cons, h1]
      exact ih (fun o ho => hoptimizers o (List.mem_cons_of_mem _ ho)) r h2
  obtain ⟨st, h1, h2, h3⟩ := C89.generic_jit_schedules hp.graph hp.deps hpos S.site hsite hsite0 _ hrule' hans
    ⟨cs, fun _ => ⟨[], []⟩, p.reqs, opt, S.independent, S.parentTime⟩
    ⟨hcs, fun v => (hp.reqs v).1, fun v => (hp.reqs v).2, fun _ => rfl, hopt, fun v => by
      obtain ⟨c, hc, h⟩ := able hp hcan v
      exact ⟨c, hc, .inl rfl, h⟩, hP⟩ L D hL hD hest hlags hhor S.env
  refine ⟨st.sched, fun fuel hf => run_done hlag hprio hc hcan ?_, h2, h3⟩
  unfold heft
  rw [h1 fuel hf]
  rfl

/-- With the LFT scheduler on its default timeline and with its own choice of contractors: the same, and nothing starts before the
given start time; moreover the works of a chain ask for the same worker types as its head (or for none) and lags inside chains are not
positive. -/
theorem lft_executes_partial (hp : SoundProject p)
    (hchlag : ∀ k v, ∀ e ∈ p.graph.edgesTo v, p.graph.InChain k v → p.graph.InChain k e.start → e.lag ≤ 0) (hlag : lag ≠ .auto)
    (S : Settings σ) (hsite : NoSiteLimits S.site) (hP : 0 ≤ S.parentTime) (nobody : Nat)
    (L D inf : Int) (hL : 0 ≤ L) (hD : 0 ≤ D) (hest : ∀ v team, 0 ≤ S.site.estimate v team ∧ S.site.estimate v team ≤ D)
    (hlags : ∀ v, ∀ e ∈ p.graph.edgesTo v, e.lag ≤ L) (hhor : S.parentTime + p.works.length * (L + D) + L ≤ inf)
    (hkinds : ∀ v, S.site.kinds v = (p.reqs v).map (·.kind)) (hserv : ∀ v, p.reqs v ≠ [] → S.site.service v = false)
    (hsame : ∀ k v, p.graph.InChain k v → S.site.kinds v = S.site.kinds k ∨ S.site.kinds v = [])
    (hc : contractorsOf (p.works.map p.reqs) given = some cs) (hcs : C16.SoundContractors cs)
    (hcan : canPerformGraph cs (p.works.map p.reqs) = some true) :
    ∃ N s, (∀ fuelIn fuel, N ≤ fuelIn → 1 ≤ fuel →
        run restructure p given lag (lft S nobody inf fuelIn fuel p) = .done cs ⟨p.graph, [s], [()]⟩) ∧
      Feasible p.graph p.works (LFT.agents cs) (Staffs cs (fun _ => ⟨[], []⟩) p.reqs) s ∧
      ∀ v x, s.get v = some x → S.parentTime ≤ x.start := by
  obtain ⟨prio, hprio, hagree⟩ := corrected hp
  obtain ⟨N, st, h1, h2, h3⟩ := C106.schedules_momentum (spec := fun _ => ⟨[], []⟩) hp.graph hp.deps hchlag (heads_acyclic hp) S.site hsite
    L D hL hD hest hlags nobody hcs (fun _ _ _ h => by cases h) prio hagree S.independent S.parentTime inf hP hhor S.env hkinds hserv hsame
    (fun v => by
      obtain ⟨c, hc, h⟩ := able hp hcan v
      refine ⟨(hp.reqs v).1, (hp.reqs v).2, by simp, c, hc, .inl rfl, fun r hr => ?_⟩
      obtain ⟨n, h1, h2⟩ := h r hr
      exact ⟨n, h1, h2, fun _ h => by cases h⟩)
  refine ⟨N, st.sched, fun fuelIn fuel hN hf => run_done hlag hprio hc hcan ?_, h2, h3⟩
  unfold lft
  rw [h1 fuelIn fuel hN hf]
  rfl

/-! ### Concrete projects -/

open PlainDemo

-- all hypotheses of the theorems above are met by this project
example : ∃ s, (∀ fuel, 1 ≤ fuel → run (fun _ _ => none) two (.list demoContractors) .on
      (heft demoSettings (fun v => (v : ℚ)) demoOpt [fun o => some o] fuel two) = .done demoContractors ⟨two.graph, [s], [()]⟩) ∧
    Feasible two.graph works (LFT.agents demoContractors) (Staffs demoContractors (fun _ => ⟨[], []⟩) demoReqs) s :=
  have ⟨s, h1, h2, _⟩ := heft_executes_partial two_sound (fun v e he ht =>
      (by decide : ∀ e ∈ twoEdges, e.type = .inseparable → 0 ≤ e.lag) e (two_edge he).1 ht) (by decide) demoSettings demo_site
    (fun _ _ _ _ h => ⟨h, h⟩) (by decide) 2 40 (by decide) (by decide) demo_est two_lags (by decide) rfl demo_contractors demo_can
    (fun v => (v : ℚ)) (fun v => Nat.cast_nonneg v) demoOpt (fun _ _ _ =>
      ⟨(C16.optimizers_stay_within fun _ => 0).2.2 1 1 (by decide) (by decide),
        (C54.optimizers_answer fun _ => 0).2.2 1 1 (by decide) (by decide)⟩) [fun o => some o]
    (fun o ho order hg => ⟨order, by rw [List.mem_singleton] at ho; rw [ho], hg⟩)
  ⟨s, h1, h2⟩

example : ∃ N s, (∀ fuelIn fuel, N ≤ fuelIn → 1 ≤ fuel → run (fun _ _ => none) two (.list demoContractors) .off
      (lft demoSettings 0 1000 fuelIn fuel two) = .done demoContractors ⟨two.graph, [s], [()]⟩) ∧
    Feasible two.graph works (LFT.agents demoContractors) (Staffs demoContractors (fun _ => ⟨[], []⟩) demoReqs) s ∧
    ∀ v x, s.get v = some x → 5 ≤ x.start :=
  lft_executes_partial two_sound two_chain_lag (by decide) demoSettings demo_site (by decide) 0 2 40 1000 (by decide) (by decide) demo_est
    two_lags (by decide) (fun _ => rfl) (fun v h => by
      simp only [two, demoSettings, demoSite, demoReqs] at h ⊢
      split at h
      · exact absurd rfl h
      · simp; omega) two_same rfl demo_contractors demo_can

-- a work that nobody can do
example : run (fun _ _ => none) two (.list [⟨8, [(0, 0)]⟩]) .off (lft demoSettings 0 1000 50 50 two) = .refused :=
  ((refused_iff two_sound _).1 _ (fun c hc v _ r hr => by
    rw [List.mem_singleton] at hc
    subst hc
    change r ∈ demoReqs v at hr
    unfold demoReqs at hr
    split at hr
    · cases hr
    · rw [List.mem_singleton] at hr
      subst hr
      exact ⟨0, rfl⟩)).2 ⟨1, by decide, by
    rintro ⟨c, hc, h⟩
    rw [List.mem_singleton] at hc
    subst hc
    obtain ⟨n, h1, h2⟩ := h ⟨0, 1, 2⟩ (by decide)
    cases h1
    exact absurd h2 (by decide)⟩

private def rows (o : Outcome Graph Sched Unit) : Option (List (List (Nat × Int × Int))) :=
  match o with
  | .done _ c => some (c.schedules.map fun s => s.map fun e => (e.1, e.2.start, e.2.finish))
  | _ => none

private theorem of_rows {o : Outcome Graph Sched Unit} {s : List (Nat × Int × Int)} (h : rows o = some [s]) :
    ∃ cs c sched, o = .done cs c ∧ c.schedules = [sched] ∧ s = sched.map fun e => (e.1, e.2.start, e.2.finish) := by
  unfold rows at h
  split at h
  · rename_i cs c
    rw [Option.some.injEq, List.map_eq_singleton_iff] at h
    obtain ⟨sched, h1, h2⟩ := h
    exact ⟨cs, c, sched, rfl, h1, h2.symm⟩
  · cases h

-- whole runs
example : rows (run (fun _ _ => none) two (.list demoContractors) .off (lft demoSettings 0 1000 50 50 two)) =
    some [[(4, 37, 37), (3, 7, 37), (2, 15, 35), (1, 5, 15), (0, 5, 5)]] := by decide +kernel
example : rows (run (fun _ _ => none) two (.list demoContractors) .on (heft demoSettings (fun v => (v : ℚ)) demoOpt [] 50 two)) =
    some [[(4, 37, 37), (2, 15, 35), (1, 5, 15), (3, 7, 37), (0, 5, 5)]] := by decide +kernel

/-- As in `C22.demo`: work 2, which is inseparable from work 1, depends on work 3. -/
private def late : Project := ⟨C22.demo, works, demoReqs, fun v => if v = 3 then 2 else v⟩

/-- Not proved because false: "whatever the priorities, dependencies are respected".  The priorities of this project agree with all its
dependencies, so the correction leaves them as they are; but work 2 is placed with work 1, on the priority of work 1, before work 3, and
starts before work 3 is finished, with both schedulers.  All else that is asked of a project holds. -/
theorem chain_entered_later : (∀ v q, late.graph.DependsOn v q → late.prio q ≤ late.prio v) ∧
    (∀ prio, (∀ v w, v ∈ late.works → w ∈ late.works → prio v = prio w) → SoundProject { late with prio := prio }) ∧
    canPerformGraph demoContractors (late.works.map late.reqs) = some true ∧ late.graph.DependsOn 2 3 ∧
    ∀ scheduler ∈ [lft demoSettings 0 1000 50 50 late, heft demoSettings (fun v => (v : ℚ)) demoOpt [] 50 late], ∃ cs c s,
      run (fun _ _ => none) late (.list demoContractors) .off scheduler = .done cs c ∧ c.schedules = [s] ∧
      (2, 15, 35) ∈ s.map (fun e => (e.1, e.2.start, e.2.finish)) ∧ (3, 7, 37) ∈ s.map (fun e => (e.1, e.2.start, e.2.finish)) := by
  have edge : ∀ v, C22.demo.edgesTo v = [⟨0, 1, 0, .finishStart⟩, ⟨0, 3, 2, .lagFinishStart⟩, ⟨1, 2, 0, .inseparable⟩,
      ⟨3, 2, 0, .finishStart⟩, ⟨2, 4, 0, .finishStart⟩].filter (fun e : Edge => e.finish == v) := by
    intro v
    unfold C22.demo
    rw [Graph.ofEdges_to]
    rfl
  have hg : WorkGraph C22.demo works := {
    once := by decide
    linked := Graph.linked_ofEdges _
    closed := Graph.closed_ofEdges (by decide)
    chains := Graph.chains_ofEdges (by decide)
    acyclic := Graph.acyclic_ofEdges (fun v => if v = 3 then 1 else v) (by decide) }
  refine ⟨?_, fun prio hprio => ⟨hg, ?_, by show late.works ≠ []; decide, .inr ⟨hprio, ?_⟩, demo_reqs, two_sound.outside⟩, demo_can, ?_, ?_⟩
  · rintro v q ⟨e, he, rfl, -⟩
    change e ∈ C22.demo.edgesTo v at he
    rw [edge] at he
    obtain ⟨hm, hf⟩ := List.mem_filter.1 he
    rw [← beq_iff_eq.1 hf]
    revert e
    simp [late]
  · intro v e he
    change e ∈ C22.demo.edgesTo v at he
    rw [edge] at he
    obtain ⟨hm, -⟩ := List.mem_filter.1 he
    simp only [List.mem_cons, List.not_mem_nil, or_false] at hm
    rcases hm with rfl | rfl | rfl | rfl | rfl <;> simp
  · by_contra hn
    have h1 := (C22.error_iff_chain_cycle hg).2 hn
    have h2 : Heads.collapse C22.demo works ≠ none := by decide
    exact h2 h1
  · exact ⟨⟨3, 2, 0, .finishStart⟩, by show _ ∈ C22.demo.edgesTo 2; rw [edge]; decide, rfl, .inl rfl⟩
  · intro scheduler hs
    have key : rows (run (fun _ _ => none) late (.list demoContractors) .off scheduler) =
        some [[(4, 35, 35), (3, 7, 37), (2, 15, 35), (1, 5, 15), (0, 5, 5)]] := by
      simp only [List.mem_cons, List.not_mem_nil, or_false] at hs
      rcases hs with rfl | rfl
      · decide +kernel
      · decide +kernel
    obtain ⟨cs, c, s, h1, h2, h3⟩ := of_rows key
    exact ⟨cs, c, s, h1, h2, by rw [← h3]; decide, by rw [← h3]; decide⟩

private def linkEdges : List Edge := [⟨0, 1, 0, .finishStart⟩, ⟨0, 2, 0, .finishStart⟩, ⟨1, 2, 0, .finishFinish⟩,
  ⟨1, 3, 0, .finishStart⟩, ⟨2, 3, 0, .finishStart⟩]
private def linked : Project := ⟨Graph.ofEdges linkEdges, [0, 1, 2, 3], fun v => if v = 1 ∨ v = 2 then [⟨0, 2, 2⟩] else [],
  fun v => if v = 1 then 5 else if v = 3 then 6 else 1⟩
private def linkSettings : Settings Unit :=
  ⟨{ demoSite with kinds := fun v => (linked.reqs v).map (·.kind), service := fun v => decide (linked.reqs v = []) }, (), fun _ => false, 5⟩

/-- Not proved because false: "links of all types are respected".  Work 2 must not finish before work 1 (finish-finish); with lag optimization
switched on, which does not restructure the graph (C44), or off, both schedulers let work 2 finish before work 1 starts. -/
theorem other_links_ignored : (∃ e ∈ linked.graph.edgesTo 2, e.start = 1 ∧ e.type = .finishFinish) ∧
    canPerformGraph demoContractors (linked.works.map linked.reqs) = some true ∧
    ∀ lag ∈ [Lag.on, Lag.off], ∀ scheduler ∈ [lft linkSettings 0 1000 50 50 linked, heft linkSettings (fun v => (v : ℚ)) demoOpt [] 50 linked],
      ∃ cs c s, run (fun _ _ => none) linked (.list demoContractors) lag scheduler = .done cs c ∧ c.schedules = [s] ∧
      (2, 5, 25) ∈ s.map (fun e => (e.1, e.2.start, e.2.finish)) ∧ (1, 25, 35) ∈ s.map (fun e => (e.1, e.2.start, e.2.finish)) := by
  refine ⟨⟨⟨1, 2, 0, .finishFinish⟩, by show _ ∈ (Graph.ofEdges linkEdges).edgesTo 2; rw [Graph.ofEdges_to]; decide, rfl, rfl⟩, by decide, ?_⟩
  intro lag hlag scheduler hs
  have key : rows (run (fun _ _ => none) linked (.list demoContractors) lag scheduler) =
      some [[(3, 35, 35), (1, 25, 35), (2, 5, 25), (0, 5, 5)]] := by
    simp only [List.mem_cons, List.not_mem_nil, or_false] at hs hlag
    rcases hs with rfl | rfl <;> rcases hlag with rfl | rfl <;> decide +kernel
  obtain ⟨cs, c, s, h1, h2, h3⟩ := of_rows key
  exact ⟨cs, c, s, h1, h2, by rw [← h3]; decide, by rw [← h3]; decide⟩

end Sampo.C108
