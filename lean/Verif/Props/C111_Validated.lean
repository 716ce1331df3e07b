import Verif.Lemmas.Checked
import Verif.Lemmas.Instant
import Verif.Lemmas.GeneticDemo

/-!
# C111: validation does not reject what the schedulers make

With `validate=True` the schedulers check their schedule before they return it, the genetic scheduler does so for all schedules of its
first population.  The check rejects only what it should if lags are not negative and the works of a chain are alike; without these two
assumptions it rejects valid schedules (`different_requirements_rejected`, `negative_lag_rejected`).
-/

namespace Sampo.C111

open Validate Scheduler
open C22 (WorkGraph)

variable {σ : Type} {g : Graph} {nodes : List Nat} {cs : List Contractor} {spec : Nat → WorkSpec} {reqs : Nat → List WorkerReq}

/-- What is assumed about a project here: lags are not negative, numbers of workers neither, works ask once for a kind of workers, and the
works of a chain are alike. -/
structure Regular (g : Graph) (nodes : List Nat) (cs : List Contractor) (spec : Nat → WorkSpec) (reqs : Nat → List WorkerReq) : Prop where
  graph : WorkGraph g nodes
  works : nodes ≠ []
  lags : ∀ v, ∀ e ∈ g.edgesTo v, 0 ≤ e.lag
  contractors : C16.SoundContractors cs
  counts : ∀ c ∈ cs, ∀ w ∈ c.workers, 0 ≤ w.2
  sound : ∀ v, C16.SoundReqs (reqs v)
  kinds : ∀ v, ((reqs v).map (·.kind)).Nodup
  uniform : Uniform g nodes reqs spec

/-- Every valid schedule passes, in whatever order its rows are, if service works take no time in it. -/
theorem valid_schedule_passes_partial (h : Regular g nodes cs spec reqs) (service : Nat → Bool) (sw : Sched)
    (hf : Feasible g nodes (LFT.agents cs) (C89.Staffs cs spec reqs) sw) (hserv : Instant service sw) (sort : Sched → Sched)
    (hsort : (sort sw).Perm sw) : passes sort g nodes service cs spec reqs sw = true :=
  feasible_passes h.graph h.works h.lags h.contractors h.counts h.kinds h.uniform (fun _ _ _ ha => proper_of_staffs h.sound ha) hf hserv hsort

/-- Just-in-time timeline: with validation a scheduler returns the same as without, for every prioritization that gives good orders, every
choice of enabled contractors and teams that meet the requirements, whatever materials and zones do, if service works are estimated to
take no time. -/
theorem jit_validation_changes_nothing_partial (h : Regular g nodes cs spec reqs) (hdep : C89.OnlyDependencies g) (site : Env σ)
    (hest : ∀ v team, 0 ≤ site.estimate v team) (service : Nat → Bool) (hserv : ∀ v team, service v = true → site.estimate v team = 0)
    (rule : Rule) (hrule : C89.GivesGoodOrders rule g nodes) (P : Plan (JIT.State σ)) (hts : ∀ v, P.assignedTimes v = none)
    (hP : 0 ≤ P.parentTime) (hch : ∀ st v team c, P.choose st v = some (team, c) → C89.Staffs cs spec reqs v team c)
    (sort : Sched → Sched) (hsort : ∀ sw, (sort sw).Perm sw) (env : σ) (fuel : Nat) :
    checked (fun st => passes sort g nodes service cs spec reqs st.sched) (scheduleJIT site rule g nodes P (LFT.agents cs) env fuel) =
      scheduleJIT site rule g nodes P (LFT.agents cs) env fuel := by
  cases hr : scheduleJIT site rule g nodes P (LFT.agents cs) env fuel with
  | none => rfl
  | some o =>
    cases o with
    | none => rfl
    | some st =>
      have hf := C89.jit_feasible h.graph hdep site hest rule hrule P (fun v ts hv => by rw [hts] at hv; cases hv) hP (LFT.agents cs)
        (C89.Staffs cs spec reqs) (fun v team c hc => by
          obtain ⟨k, hk, -, -, hm⟩ := hc
          exact meets_ok h.contractors hk (h.sound v) (h.kinds v) hm) hch env fuel st hr
      have hz : Zero service st.sched := by
        unfold scheduleJIT at hr
        split at hr
        · simp at hr
        · exact JIT.buildFrom_zero (E := onGraph site g nodes) hserv hts (by simp [Zero]) hr
      have := valid_schedule_passes_partial h service st.sched hf hz.instant sort (hsort _)
      simp [checked, this]

/-- Momentum timeline: the same for every run that ends with a schedule within the range of time, if lags inside chains are not positive. -/
theorem momentum_validation_passes_partial (h : Regular g nodes cs spec reqs) (hdep : C89.OnlyDependencies g) (site : Env σ)
    (hest : ∀ v team, 0 ≤ site.estimate v team) (service : Nat → Bool) (hserv : ∀ v team, service v = true → site.estimate v team = 0)
    (rule : Rule) (hrule : C89.GivesGoodOrders rule g nodes)
    (hlag : ∀ k v, ∀ e ∈ g.edgesTo v, g.InChain k v → g.InChain k e.start → e.lag ≤ 0)
    (P : Plan (Momentum.State σ)) (hts : ∀ v, P.assignedTimes v = none) (inf : Int) (hP : 0 ≤ P.parentTime) (hinf : P.parentTime ≤ inf)
    (hch : ∀ st v team c, P.choose st v = some (team, c) → C89.Staffs cs spec reqs v team c)
    (sort : Sched → Sched) (hsort : ∀ sw, (sort sw).Perm sw) (env : σ) (fuelIn fuel : Nat) (st : Momentum.State σ)
    (hr : scheduleMomentum site rule g nodes P (LFT.agents cs) env inf fuelIn fuel = some (some st))
    (hrange : ∀ x ∈ st.sched, ∀ v, ∀ e ∈ g.edgesTo v, e.start = x.1 → x.2.finish + e.lag ≤ inf) :
    checked (fun st => passes sort g nodes service cs spec reqs st.sched)
      (scheduleMomentum site rule g nodes P (LFT.agents cs) env inf fuelIn fuel) = some (some st) := by
  obtain ⟨hf, -⟩ := C89.momentum_feasible_partial h.graph hdep site hest rule hrule hlag P hts inf hP hinf (LFT.agents cs)
    (C89.Staffs cs spec reqs) (fun v team c hc => by
      obtain ⟨k, hk, -, -, hm⟩ := hc
      exact (meets_ok h.contractors hk (h.sound v) (h.kinds v) hm).1) hch env fuelIn fuel st hr hrange
  have hz : Zero service st.sched := by
    unfold scheduleMomentum at hr
    split at hr
    · simp at hr
    · exact Momentum.buildFrom_zero (E := onGraph site g nodes) hserv hts (by simp [Zero]) hr
  have := valid_schedule_passes_partial h service st.sched hf hz.instant sort (hsort _)
  simp [checked, hr, this]

/-! ### What is rejected -/

private def uneven (v : Nat) : List WorkerReq := if v = 2 then [⟨0, 3, 3⟩] else GeneticDemo.reqs v

private abbrev rule : Rule := lftRule (fun v => (v : Int)) GeneticDemo.J.prio

private abbrev plan (reqs : Nat → List WorkerReq) : Plan (JIT.State Unit) :=
  LFT.plan _ GeneticDemo.J.contractors GeneticDemo.J.spec reqs (fun _ _ => 0) (fun _ => false) 5

private def service (v : Nat) : Bool := v = 0 ∨ v = 4

/-- The site of the demo, on which the start and the finish take no time. -/
private def site : Env Unit := { Demo.env with estimate := fun v team => if service v ∨ team = [] then 0 else min (10 * v) 40 }

private theorem noLimits : NoSiteLimits site :=
  ⟨fun _ _ _ => Int.le_refl _, fun _ _ _ _ => Int.le_refl _, fun s _ t => ⟨s, t, rfl, Int.le_refl _⟩, fun s _ _ _ => ⟨s, rfl⟩,
    fun s => ⟨s, 0, rfl, Int.le_refl _⟩⟩

private theorem est (v : Nat) (team : List Worker) : 0 ≤ site.estimate v team := by
  simp only [site]
  split <;> omega

private abbrev run (reqs : Nat → List WorkerReq) := scheduleJIT site rule C22.demo GeneticDemo.works (plan reqs) (LFT.agents GeneticDemo.J.contractors) ()

private theorem uneven_staff (v : Nat) : C54.Staffable GeneticDemo.J.contractors (GeneticDemo.J.spec v) (uneven v) := by
  unfold uneven
  split
  · subst v
    refine ⟨by simp [C16.SoundReqs], by decide, by simp [GeneticDemo.J], ⟨0, [(0, 3), (1, 2)]⟩, by decide, .inl rfl, ?_⟩
    intro r hr
    rw [List.mem_singleton] at hr
    subst hr
    exact ⟨3, rfl, by decide, by simp [GeneticDemo.J]⟩
  · exact GeneticDemo.staff v

/-- Not proved because false: the same for chains of works with different requirements.  The schedulers give a chain the team of its first
work; the validation compares it with the requirements of every work of the chain.  Here work 1 needs one or two workers and work 2, which
must follow it at once, needs three: LFT gives both two workers, a schedule that is valid as far as the schedulers are concerned, and with
validation there is an exception instead of a schedule. -/
theorem different_requirements_rejected : ∃ (reqs : Nat → List WorkerReq) (st : JIT.State Unit),
    (∀ v, C54.Staffable GeneticDemo.J.contractors (GeneticDemo.J.spec v) (reqs v)) ∧ run reqs 1 = some (some st) ∧
    Feasible C22.demo GeneticDemo.works (LFT.agents GeneticDemo.J.contractors) (C89.Staffs GeneticDemo.J.contractors GeneticDemo.J.spec reqs)
      st.sched ∧ Instant service st.sched ∧
    checked (fun st => passes id C22.demo GeneticDemo.works service GeneticDemo.J.contractors GeneticDemo.J.spec reqs st.sched)
      (run reqs 1) = some none := by
  obtain ⟨st, hst, hf⟩ := C89.lft_jit_schedules (site := site) GeneticDemo.graph GeneticDemo.deps
    (fun v e he _ => GeneticDemo.lag he) noLimits est rule
    (C89.lft_order GeneticDemo.graph _ (fun v => Int.natCast_nonneg v) _ GeneticDemo.agrees)
    (C89.rules_answer GeneticDemo.graph GeneticDemo.acyclic (fun v => (v : Int)) (fun v => (v : Int)) GeneticDemo.J.prio).2.1
    GeneticDemo.J.contractors GeneticDemo.contractors.sound GeneticDemo.J.spec
    (by intro v k n; simp only [GeneticDemo.J]; split <;> simp) uneven (fun _ _ => 0) (fun _ _ h => h) (fun _ => false) 5 (by decide) ()
    uneven_staff
  have key : ((run uneven 1).join.map fun st => (passes id C22.demo GeneticDemo.works service GeneticDemo.J.contractors
      GeneticDemo.J.spec uneven st.sched, st.sched.all fun e => !service e.1 || e.2.start == e.2.finish)) = some (false, true) := by
    decide +kernel
  have h1 := hst 1 (Nat.le_refl 1)
  rw [show run uneven 1 = some (some st) from h1] at key
  simp only [Option.join_some, Option.map_some, Option.some.injEq, Prod.mk.injEq, List.all_eq_true] at key
  refine ⟨uneven, st, uneven_staff, h1, hf, fun v x hx hs => ?_, ?_⟩
  · have := key.2 (v, x) (mem_of_get hx)
    simpa [hs] using this
  · rw [show run uneven 1 = some (some st) from h1]
    simp [checked, key.1]

private def early : List Edge := [⟨0, 1, 0, .finishStart⟩, ⟨1, 2, -4, .lagFinishStart⟩, ⟨2, 3, 0, .finishStart⟩]

/-- Not proved because false: the same with a negative lag.  Work 2 may start four hours before work 1 ends, and HEFT lets it; the
validation wants it to start after the end. -/
theorem negative_lag_rejected : ∃ (st : JIT.State Unit),
    scheduleJIT GeneticDemo.site (heftRule (fun v => (v : Int)) fun _ => 0) (Graph.ofEdges early) [0, 1, 2, 3]
      (LFT.plan _ [⟨0, [(0, 3)]⟩] (fun _ => ⟨[], []⟩) (fun v => if v = 1 ∨ v = 2 then [⟨0, 1, 1⟩] else []) (fun _ _ => 0) (fun _ => false) 0)
      (LFT.agents [⟨0, [(0, 3)]⟩]) () 1 = some (some st) ∧
    (∀ e ∈ early, ∃ x y, st.sched.get e.start = some x ∧ st.sched.get e.finish = some y ∧ x.finish + e.lag ≤ y.start) ∧
    passes id (Graph.ofEdges early) [0, 1, 2, 3] (fun v => v = 0 ∨ v = 3) [⟨0, [(0, 3)]⟩] (fun _ => ⟨[], []⟩)
      (fun v => if v = 1 ∨ v = 2 then [⟨0, 1, 1⟩] else []) st.sched = false := by
  have key : ((scheduleJIT GeneticDemo.site (heftRule (fun v => (v : Int)) fun _ => 0) (Graph.ofEdges early) [0, 1, 2, 3]
      (LFT.plan _ [⟨0, [(0, 3)]⟩] (fun _ => ⟨[], []⟩) (fun v => if v = 1 ∨ v = 2 then [⟨0, 1, 1⟩] else []) (fun _ _ => 0) (fun _ => false) 0)
      (LFT.agents [⟨0, [(0, 3)]⟩]) () 1).join.map fun st => (early.map fun e => ((st.sched.get e.start).map (·.finish), (st.sched.get e.finish).map (·.start)),
        passes id (Graph.ofEdges early) [0, 1, 2, 3] (fun v => v = 0 ∨ v = 3) [⟨0, [(0, 3)]⟩] (fun _ => ⟨[], []⟩)
          (fun v => if v = 1 ∨ v = 2 then [⟨0, 1, 1⟩] else []) st.sched)) =
      some ([(some 0, some 0), (some 10, some 6), (some 26, some 26)], false) := by decide +kernel
  simp only [Option.map_eq_some_iff, Option.join_eq_some_iff, Prod.mk.injEq, early, List.map_cons, List.map_nil, List.cons.injEq, and_true] at key
  obtain ⟨st, hst, ⟨⟨h1, h2⟩, ⟨h3, h4⟩, h5, h6⟩, h7⟩ := key
  refine ⟨st, hst, ?_, h7⟩
  obtain ⟨x1, e1, f1⟩ := h1
  obtain ⟨x2, e2, f2⟩ := h2
  obtain ⟨x3, e3, f3⟩ := h3
  obtain ⟨x4, e4, f4⟩ := h4
  obtain ⟨x5, e5, f5⟩ := h5
  obtain ⟨x6, e6, f6⟩ := h6
  intro e he
  simp only [early, List.mem_cons, List.not_mem_nil, or_false] at he
  rcases he with rfl | rfl | rfl
  · exact ⟨x1, x2, e1, e2, by dsimp only; omega⟩
  · exact ⟨x3, x4, e3, e4, by dsimp only; omega⟩
  · exact ⟨x5, x6, e5, e6, by dsimp only; omega⟩

/-! ### The assumptions hold for a project -/

private theorem demo_chain {k v : Nat} (h : C22.demo.InChain k v) : v = k ∨ (k = 1 ∧ v = 2) := by
  induction h with
  | refl => exact .inl rfl
  | tail _ hf ih =>
    have key : ∀ e ∈ GeneticDemo.edges, e.type = .inseparable → e.start = 1 ∧ e.finish = 2 := by decide
    obtain ⟨e, he, hs, ht⟩ := hf
    obtain ⟨hm, hfin⟩ := GeneticDemo.edge he
    obtain ⟨h1, h2⟩ := key e hm ht
    omega

private theorem regular : Regular C22.demo GeneticDemo.works GeneticDemo.J.contractors GeneticDemo.J.spec GeneticDemo.J.reqs where
  graph := GeneticDemo.graph
  works := by decide
  lags v e he := GeneticDemo.lag he
  contractors := GeneticDemo.contractors.sound
  counts := GeneticDemo.contractors.counts
  sound v := (GeneticDemo.sound.reqs v).1
  kinds v := (GeneticDemo.sound.reqs v).2.1
  uniform k v _ hc := by
    rcases demo_chain hc with rfl | ⟨rfl, rfl⟩
    · exact ⟨fun r hr => hr, by by_cases h : (GeneticDemo.J.spec v).contractors = []
                                · exact .inl h
                                · exact .inr ⟨h, fun c hc => hc⟩⟩
    · exact ⟨fun r hr => hr, .inl rfl⟩

private theorem chooses (st : JIT.State Unit) (v : Nat) (team : List Worker) (c : Nat)
    (hc : (plan GeneticDemo.J.reqs).choose st v = some (team, c)) :
    C89.Staffs GeneticDemo.J.contractors GeneticDemo.J.spec GeneticDemo.J.reqs v team c := by
  exact OnGraph.lft_staffs GeneticDemo.J.contractors GeneticDemo.contractors.sound GeneticDemo.J.spec
    (by intro v k n; simp only [GeneticDemo.J]; split <;> simp) GeneticDemo.J.reqs (fun v => (GeneticDemo.sound.reqs v).1) (fun _ _ => 0)
    (show LFT.choose _ _ _ _ _ = _ from hc)

/-- LFT on the demo, in full: with validation it returns a schedule. -/
example : ∃ st, checked (fun st => passes id C22.demo GeneticDemo.works service GeneticDemo.J.contractors GeneticDemo.J.spec
    GeneticDemo.J.reqs st.sched) (run GeneticDemo.J.reqs 1) = some (some st) := by
  obtain ⟨st, hst, -⟩ := C89.lft_jit_schedules (site := site) GeneticDemo.graph GeneticDemo.deps
    (fun v e he _ => GeneticDemo.lag he) noLimits est rule
    (C89.lft_order GeneticDemo.graph _ (fun v => Int.natCast_nonneg v) _ GeneticDemo.agrees)
    (C89.rules_answer GeneticDemo.graph GeneticDemo.acyclic (fun v => (v : Int)) (fun v => (v : Int)) GeneticDemo.J.prio).2.1
    GeneticDemo.J.contractors GeneticDemo.contractors.sound GeneticDemo.J.spec
    (by intro v k n; simp only [GeneticDemo.J]; split <;> simp) GeneticDemo.J.reqs (fun _ _ => 0) (fun _ _ h => h) (fun _ => false) 5
    (by decide) () GeneticDemo.staff
  refine ⟨st, ?_⟩
  rw [← hst 1 (Nat.le_refl 1)]
  exact jit_validation_changes_nothing_partial regular GeneticDemo.deps site est service
    (fun v team hs => by simp [site, hs]) rule
    (C89.lft_order GeneticDemo.graph _ (fun v => Int.natCast_nonneg v) _ GeneticDemo.agrees) (plan GeneticDemo.J.reqs) (fun _ => rfl)
    (by decide) chooses id (fun _ => List.Perm.refl _) () 1

end Sampo.C111
