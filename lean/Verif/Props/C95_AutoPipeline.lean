import Verif.Lemmas.StageGraph
import Verif.Props.C45_Check
import Verif.Props.C54_Delivers

/-!
# C95: the pipeline with automatic lag optimization does the project that was given

The given project has works that may start or finish together with a part of another work.  The pipeline divides them into stages, plans
the stages twice (`LagOptimizationStrategy.AUTO`), and returns the better plan.  The theorems speak of the works and edges the user gave.
-/

namespace Sampo.C95
open AutoPipeline Restructure Pipeline Scheduler

variable {σ : Type} {p : Project} {given : Given} {cs : List Contractor}

private theorem run_auto {prio : Nat → Int} (hpr : Priority.correct (parentsOf p.graph) p.works.length p.works p.prio = some prio)
    (hc : contractorsOf (p.works.map p.reqs) given = some cs) (hcan : canPerformGraph cs (p.works.map p.reqs) = some true)
    {scheduler : List Contractor → Prepared → Option (Sched × List Nat)} {P : Bool → Prepared}
    (hP : ∀ opt, prepare p prio opt = some (P opt)) {r : Bool → Sched × List Nat} (hr : ∀ opt, scheduler cs (P opt) = some (r opt)) :
    run p given scheduler = .done cs (if executionTime (r false).1 < executionTime (r true).1
      then ⟨some (P false), [(r false).1], [(r false).2]⟩ else ⟨some (P true), [(r true).1], [(r true).2]⟩) := by
  unfold run
  rw [hpr]
  dsimp only
  unfold Pipeline.schedule
  dsimp only
  rw [hc]
  dsimp only
  rw [hcan]
  dsimp only
  unfold chooseGraph
  simp only [hP, hr, Option.map_some, Option.bind_some, List.map_cons, List.map_nil, List.min?_singleton]
  split
  · rename_i h
    split at h <;> cases h
  · rename_i h
    split at h <;> cases h
    · rename_i hlt; rw [if_pos hlt]
    · rename_i hlt; rw [if_neg hlt]

private theorem one_of (t1 t2 : Int) {γ : Type} (a b : γ) : ∃ opt : Bool, (if t1 < t2 then a else b) = bif opt then b else a := by
  split
  · exact ⟨false, rfl⟩
  · exact ⟨true, rfl⟩

private theorem staff (hp : SoundProject p) (hcan : canPerformGraph cs (p.works.map p.reqs) = some true) {opt : Bool} {N : New}
    (m : Made p opt N) {P : Prepared} (hP : P.ids = N.ids) (i : Nat) : C54.Staffable cs ⟨[], []⟩ (reqsOf p P i) := by
  have hall := (C45.answer_exact hcan).1 rfl
  unfold reqsOf
  cases h : P.workOf i with
  | none =>
    obtain ⟨c, hc, -⟩ := hall _ (List.mem_map_of_mem hp.start_mem)
    exact ⟨by simp [C16.SoundReqs], by simp, by simp, c, hc, .inl rfl, by simp⟩
  | some v =>
    have hv : v ∈ p.works := (m.stage (i := i) (v := v) (by unfold Prepared.workOf at h; unfold wk; rw [← hP]; exact h)).1
    obtain ⟨c, hc, h1⟩ := hall _ (List.mem_map_of_mem hv)
    refine ⟨(hp.reqs v hv).1, (hp.reqs v hv).2, by simp, c, hc, .inl rfl, fun r hr => ?_⟩
    obtain ⟨n, hn, hle⟩ := h1 r hr
    exact ⟨n, hn, hle, by simp⟩

private theorem lag_le {opt : Bool} {N : New} (m : Made p opt N) {L : Int} (hL : 0 ≤ L)
    (hlag : ∀ v ∈ p.works, ∀ e ∈ p.graph.edgesTo v, ⌈e.lag⌉ ≤ L) (v : Nat) (x : Edge) (hx : x ∈ (graphOf N).edgesTo v) : x.lag ≤ L := by
  obtain ⟨e, he, rfl, -⟩ := mem_to.1 hx
  show ⌈e.lag⌉ ≤ L
  rcases m.edge_cases he with ⟨-, h, -⟩ | ⟨-, u, hu, o, ho, hm⟩
  · rw [h]; simpa using hL
  · rcases hm.lag with h | h
    · rw [h]; simpa using hL
    · rw [h]; simpa using hlag u hu o ho

/-- What the theorems ask of the site and the estimator: durations between 0 and `D`, no limits by materials and zones, worker
types as required, and no specification. -/
structure Plain (S : Settings σ) (p : Project) (D : Int) : Prop where
  site : ∀ P, NoSiteLimits (S.site P)
  times : ∀ P v team, 0 ≤ (S.site P).estimate v team ∧ (S.site P).estimate v team ≤ D
  kinds : ∀ P v, (S.site P).kinds v = (reqsOf p P v).map (·.kind)
  service : ∀ P v, reqsOf p P v ≠ [] → (S.site P).service v = false
  spec : ∀ v, S.spec v = ⟨[], []⟩
  start : 0 ≤ S.parentTime

private theorem specOf_plain {S : Settings σ} (h : ∀ v, S.spec v = ⟨[], []⟩) (P : Prepared) : specOf S.spec P = fun _ => ⟨[], []⟩ := by
  funext i
  unfold specOf
  split
  · exact h _
  · rfl

/-- With the LFT scheduler on its default timeline: if the contractors suffice, the pipeline ends with one schedule, it does the given project,
and nothing starts before the given start time. -/
theorem lft_executes_partial (hp : SoundProject p) (S : Settings σ) (L D inf : Int) (hL : 0 ≤ L) (hD : 0 ≤ D) (hS : Plain S p D)
    (hlag : ∀ v ∈ p.works, ∀ e ∈ p.graph.edgesTo v, ⌈e.lag⌉ ≤ L)
    (hhor : ∀ opt N, restructure p.graph opt p.works = some N → S.parentTime + N.ids.length * (L + D) + L ≤ inf)
    (hc : contractorsOf (p.works.map p.reqs) given = some cs) (hcs : C16.SoundContractors cs)
    (hcan : canPerformGraph cs (p.works.map p.reqs) = some true)
    (dur : Prepared → Nat → Int) (hdur : ∀ P v, 0 ≤ dur P v) (index : Nat → Nat → Nat) (hidx : ∀ v n, 0 < n → index v n < n) :
    ∃ P s order n, (∀ fuel, n ≤ fuel → run p given (lft S dur index inf fuel p) = .done cs ⟨some P, [s], [order]⟩) ∧
      Executes p cs P s ∧ ∀ i x, s.get i = some x → S.parentTime ≤ x.start := by
  obtain ⟨prio, hpr, hagree⟩ := corrected hp
  have one : ∀ opt, ∃ P s order n, prepare p prio opt = some P ∧ (∀ fuel, n ≤ fuel → lft S dur index inf fuel p cs P = some (s, order)) ∧
      Executes p cs P s ∧ ∀ i x, s.get i = some x → S.parentTime ≤ x.start := by
    intro opt
    obtain ⟨N, nodes, m, hn, hprep⟩ := prepare_spec hp hagree opt
    generalize hPd : (⟨N.ids, graphOf N, nodes, stagePrio N prio⟩ : Prepared) = P at hprep
    have e1 : P.ids = N.ids := by rw [← hPd]
    have e2 : P.graph = graphOf N := by rw [← hPd]
    have e3 : P.nodes = nodes := by rw [← hPd]
    have e4 : P.prio = stagePrio N prio := by rw [← hPd]
    have hw := m.workGraph hn
    obtain ⟨order, horder⟩ := (C89.rules_answer hw (m.headAcyclic nodes) (fun _ => (0 : ℚ)) (dur P) (stagePrio N prio)).2.1
    have hlen : nodes.length = N.ids.length := by rw [hn.length_eq, List.length_range]
    obtain ⟨n, st, h1, h2, h3⟩ := C89.lft_momentum_schedules hw m.onlyDependencies
      (fun k v e he hv hs => by
        obtain ⟨x, hx, rfl, rfl⟩ := mem_to.1 he
        obtain ⟨f1, f2, f3⟩ := m.forward hx
        rcases m.edge_cases hx with ⟨ht, -⟩ | ⟨-, u, hu, o, ho, hm⟩
        · exact le_of_eq (m.chain_lag he ht)
        · exfalso
          have w1 := (m.inChain_work hs).symm.trans (m.inChain_work hv)
          rw [show (numbered N.ids x).start = number N.ids x.start from rfl, wk_number f1, wk_number f2, hm.start, hm.finish] at w1
          have := (position hp hu ho).2
          rw [Option.some.inj w1] at this
          exact Nat.lt_irrefl _ this)
      (S.site P) (hS.site P) L D hL hD (hS.times P) (lag_le m hL hlag) _
      (C89.lft_order hw (dur P) (hdur P) _ (m.prioritiesAgree hagree nodes)) ⟨order, horder⟩ cs hcs (fun _ => ⟨[], []⟩) (by simp)
      (reqsOf p P) index hidx S.independent S.parentTime inf hS.start (by rw [hlen]; exact hhor opt N m.eq) S.env (hS.kinds P)
      (hS.service P)
      (fun k v h => .inl (by
        rw [hS.kinds, hS.kinds]
        have := m.inChain_work h
        unfold reqsOf Prepared.workOf
        unfold wk at this
        rw [e1, this]))
      (staff hp hcan m e1)
    refine ⟨P, st.sched, order, max n 1, hprep, fun fuel hf => ?_, m.executes hn hcs e1 h2, h3⟩
    unfold lft
    rw [e2, e3, e4, horder, Option.bind_some, specOf_plain hS.spec,
      h1 fuel fuel (Nat.le_trans (Nat.le_max_left _ _) hf) (Nat.le_trans (Nat.le_max_right _ _) hf)]
    rfl
  choose P s order n h1 h2 h3 h4 using one
  obtain ⟨opt, ho⟩ := one_of (executionTime (s false)) (executionTime (s true))
    (⟨some (P false), [s false], [order false]⟩ : Chosen _ _ _) ⟨some (P true), [s true], [order true]⟩
  refine ⟨P opt, s opt, order opt, max (n false) (n true), fun fuel hf => ?_, h3 opt, h4 opt⟩
  rw [run_auto hpr hc hcan h1 (r := fun opt => (s opt, order opt)) fun opt => h2 opt fuel ?_, ho]
  · cases opt <;> rfl
  · cases opt
    · exact Nat.le_trans (Nat.le_max_left _ _) hf
    · exact Nat.le_trans (Nat.le_max_right _ _) hf

/-- With the HEFT scheduler on its default timeline. -/
theorem heft_executes_partial (hp : SoundProject p) (S : Settings σ) (L D : Int) (hL : 0 ≤ L) (hD : 0 ≤ D) (hS : Plain S p D)
    (hsite0 : ∀ P s v t d, 0 ≤ t → 0 ≤ (S.site P).matTime s v t ∧ 0 ≤ (S.site P).zoneTime s v t d)
    (hlag : ∀ v ∈ p.works, ∀ e ∈ p.graph.edgesTo v, ⌈e.lag⌉ ≤ L)
    (hhor : ∀ opt N, restructure p.graph opt p.works = some N → 2 * (S.parentTime + N.ids.length * (L + D)) < TIME_INF)
    (hc : contractorsOf (p.works.map p.reqs) given = some cs) (hcs : C16.SoundContractors cs)
    (hcan : canPerformGraph cs (p.works.map p.reqs) = some true)
    (cost : Prepared → Nat → ℚ) (hcost : ∀ P v, 0 ≤ cost P v) (opt : JIT.State σ → Nat → Contractor → Optimizer)
    (hopt : ∀ st v c, StaysWithin (opt st v c) ∧ Answers (opt st v c)) :
    ∃ P s order, (∀ fuel, 1 ≤ fuel → run p given (heft S cost opt fuel p) = .done cs ⟨some P, [s], [order]⟩) ∧ Executes p cs P s := by
  obtain ⟨prio, hpr, hagree⟩ := corrected hp
  have one : ∀ lag, ∃ P s order, prepare p prio lag = some P ∧ (∀ fuel, 1 ≤ fuel → heft S cost opt fuel p cs P = some (s, order)) ∧
      Executes p cs P s := by
    intro lag
    obtain ⟨N, nodes, m, hn, hprep⟩ := prepare_spec hp hagree lag
    generalize hPd : (⟨N.ids, graphOf N, nodes, stagePrio N prio⟩ : Prepared) = P at hprep
    have e1 : P.ids = N.ids := by rw [← hPd]
    have e2 : P.graph = graphOf N := by rw [← hPd]
    have e3 : P.nodes = nodes := by rw [← hPd]
    have e4 : P.prio = stagePrio N prio := by rw [← hPd]
    have hw := m.workGraph hn
    obtain ⟨order, horder⟩ := (C89.rules_answer hw (m.headAcyclic nodes) (cost P) (fun _ => 0) (stagePrio N prio)).1
    have hlen : nodes.length = N.ids.length := by rw [hn.length_eq, List.length_range]
    have hst := staff hp hcan m e1
    obtain ⟨st, h1, h2, -⟩ := C89.generic_jit_schedules hw m.onlyDependencies (fun v e he ht => le_of_eq (m.chain_lag he ht).symm)
      (S.site P) (hS.site P) (hsite0 P) _ (C89.heft_order hw (cost P) (hcost P) _ (m.prioritiesAgree hagree nodes)) ⟨order, horder⟩
      ⟨cs, fun _ => ⟨[], []⟩, reqsOf p P, opt, S.independent, S.parentTime⟩
      { contractors := hcs, reqs := fun v => (hst v).1, kinds := fun v => (hst v).2.1, free := fun _ => rfl, opt := hopt
        able := fun v => by
          obtain ⟨-, -, -, c, hc, ha, h⟩ := hst v
          refine ⟨c, hc, ha, fun r hr => ?_⟩
          obtain ⟨n, h1, h2, -⟩ := h r hr
          exact ⟨n, h1, h2⟩
        start := hS.start }
      L D hL hD (hS.times P) (lag_le m hL hlag) (by rw [hlen]; exact hhor lag N m.eq) S.env
    refine ⟨P, st.sched, order, hprep, fun fuel hf => ?_, m.executes hn hcs e1 h2⟩
    unfold heft
    rw [e2, e3, e4, horder, Option.bind_some, specOf_plain hS.spec, h1 fuel hf]
    rfl
  choose P s order h1 h2 h3 using one
  obtain ⟨lag, ho⟩ := one_of (executionTime (s false)) (executionTime (s true))
    (⟨some (P false), [s false], [order false]⟩ : Chosen _ _ _) ⟨some (P true), [s true], [order true]⟩
  refine ⟨P lag, s lag, order lag, fun fuel hf => ?_, h3 lag⟩
  rw [run_auto hpr hc hcan h1 (r := fun opt => (s opt, order opt)) fun opt => h2 opt fuel hf, ho]
  cases lag <;> rfl

/-! ### A concrete project -/

private def graphWith (edges : List OEdge) : OGraph where
  edgesTo v := edges.filter (·.finish = v)
  edgesFrom v := edges.filter (·.start = v)
  wu v := if v = 0 ∨ v = 4 then ⟨0, []⟩ else ⟨10, [7]⟩

private def demoEdges : List OEdge := [⟨0, 1, 0, .finishStart⟩, ⟨1, 2, 4, .startStart⟩, ⟨1, 3, 1 / 2, .finishStart⟩, ⟨2, 3, 3, .finishFinish⟩,
  ⟨2, 4, 0, .finishStart⟩, ⟨3, 4, 2, .lagFinishStart⟩]

private def demoReqs (v : Nat) : List WorkerReq := if v = 0 ∨ v = 4 then [] else [⟨0, 1, 2⟩]

private def demo : Project := ⟨graphWith demoEdges, [0, 1, 2, 3, 4], 0, demoReqs, fun v => if v = 0 then 1 else 2⟩

private def demoSite (p : Project) (P : Prepared) : Env Unit where
  edgesTo := fun _ => []
  insepParent := fun _ => none
  chain := fun v => [v]
  service := fun i => reqsOf p P i = []
  kinds := fun i => (reqsOf p P i).map (·.kind)
  estimate := fun _ team => if team = [] then 0 else 5
  matTime := fun _ _ t => t
  zoneTime := fun _ _ t _ => t
  deliver := fun s _ t => some (s, t)
  occupy := fun s _ _ _ => some s
  finishZones := fun s => some (s, 0)

private def demoSettings (p : Project) (spec : Nat → WorkSpec) : Settings Unit := ⟨demoSite p, (), spec, fun _ => false, 3⟩

private def demoContractors : List Contractor := [⟨7, [(0, 3)]⟩, ⟨8, [(0, 1)]⟩]

private theorem graphWith_wf {edges : List OEdge} {works : List Nat} (hn : works.Nodup)
    (hm : ∀ e ∈ edges, e.finish ∈ works)
    (ht : ∀ e ∈ edges, e.finish ∈ works → e.start ∈ works ∧ works.idxOf e.start < works.idxOf e.finish) :
    WellFormed (graphWith edges) works := by
  refine ⟨hn, ?_, ?_, ?_⟩
  · intro v _ e he
    obtain ⟨h1, h2⟩ := List.mem_filter.mp he
    exact ⟨of_decide_eq_true h2, List.mem_filter.mpr ⟨h1, by simp⟩⟩
  · intro v _ e he
    obtain ⟨h1, h2⟩ := List.mem_filter.mp he
    exact ⟨of_decide_eq_true h2, hm e h1, List.mem_filter.mpr ⟨h1, by simp⟩⟩
  · rintro l₁ v l₂ hl q hq
    obtain ⟨e, he, rfl⟩ := List.mem_map.1 hq
    obtain ⟨h1, h2⟩ := List.mem_filter.mp he
    have h2 : e.finish = v := of_decide_eq_true h2
    obtain ⟨h3, h4⟩ := ht e h1 (by rw [h2, hl]; simp)
    rw [h2] at h4
    have hv : v ∉ l₁ := fun hv => by
      rw [hl] at hn
      exact (List.nodup_append.1 hn).2.2 v hv v List.mem_cons_self rfl
    have hvi : works.idxOf v = l₁.length := by rw [hl, List.idxOf_append_of_notMem hv]; simp
    by_contra hc
    have : l₁.length ≤ works.idxOf e.start := by rw [hl, List.idxOf_append_of_notMem hc]; omega
    omega

private theorem demo_sound : SoundProject demo where
  wf := graphWith_wf (by decide) (by decide) (by decide)
  simple := ⟨by decide +kernel, by decide +kernel, by decide +kernel⟩
  separable := by decide +kernel
  start_mem := by decide
  start_first := by decide +kernel
  start_whole := by decide +kernel
  reached := by decide +kernel
  reqs := by unfold C16.SoundReqs; decide +kernel
  prios := .inl (by decide +kernel)

private theorem demo_plain (p : Project) : Plain (demoSettings p fun _ => ⟨[], []⟩) p 5 where
  site _ := ⟨fun _ _ _ => Int.le_refl _, fun _ _ _ _ => Int.le_refl _, fun s _ t => ⟨s, t, rfl, Int.le_refl _⟩,
    fun s _ _ _ => ⟨s, rfl⟩, fun s => ⟨s, 0, rfl, Int.le_refl _⟩⟩
  times _ _ team := by simp only [demoSettings, demoSite]; split <;> omega
  kinds _ _ := rfl
  service P v h := by simp only [demoSettings, demoSite]; exact decide_eq_false h
  spec _ := rfl
  start := by show (0 : Int) ≤ 3; decide

private theorem demo_size (opt : Bool) (N : New) (h : restructure demo.graph opt demo.works = some N) : N.ids.length ≤ 9 := by
  have key : ∀ opt, (restructure demo.graph opt demo.works).map (fun N => decide (N.ids.length ≤ 9)) = some true := by decide +kernel
  have := key opt
  rw [h] at this
  exact of_decide_eq_true (Option.some.inj this)

private theorem demo_lag : ∀ v ∈ demo.works, ∀ e ∈ demo.graph.edgesTo v, ⌈e.lag⌉ ≤ 4 := by decide +kernel

private theorem demo_contractors : C16.SoundContractors demoContractors := by unfold C16.SoundContractors; decide

private theorem demo_can : canPerformGraph demoContractors (demo.works.map demo.reqs) = some true := by decide +kernel

-- the hypotheses of both theorems are met by this project, in which three works are divided
example : ∃ P s order n, (∀ fuel, n ≤ fuel → run demo (.list demoContractors)
      (lft (demoSettings demo fun _ => ⟨[], []⟩) (fun _ _ => 5) (fun _ _ => 0) 1000 fuel demo) =
      .done demoContractors ⟨some P, [s], [order]⟩) ∧
    Executes demo demoContractors P s ∧ ∀ i x, s.get i = some x → 3 ≤ x.start :=
  lft_executes_partial demo_sound _ 4 5 1000 (by decide) (by decide) (demo_plain demo) demo_lag
    (fun opt N h => by have := demo_size opt N h; show (3 : Int) + _ * (4 + 5) + 4 ≤ 1000; omega)
    rfl demo_contractors demo_can _ (fun _ _ => by decide) _ fun _ _ h => h

example : ∃ P s order, (∀ fuel, 1 ≤ fuel → run demo (.list demoContractors)
      (heft (demoSettings demo fun _ => ⟨[], []⟩) (fun _ _ => 5) (fun _ _ _ => Optimize.averageReq 1 1) fuel demo) =
      .done demoContractors ⟨some P, [s], [order]⟩) ∧ Executes demo demoContractors P s :=
  heft_executes_partial demo_sound _ 4 5 (by decide) (by decide) (demo_plain demo) (fun _ _ _ t _ h => ⟨h, h⟩) demo_lag
    (fun opt N h => by
      have := demo_size opt N h
      show 2 * ((3 : Int) + _ * (4 + 5)) < TIME_INF
      unfold TIME_INF
      omega)
    rfl demo_contractors demo_can _ (fun _ _ => by decide) _ fun _ _ _ =>
      ⟨(C16.optimizers_stay_within fun _ => 0).2.2 1 1 (by decide) (by decide),
        (C54.optimizers_answer fun _ => 0).2.2 1 1 (by decide) (by decide)⟩

private def rows (o : Outcome (Option Prepared) Sched (List Nat)) : Option (List Contractor × List NewId × List (List (Nat × SWork))) :=
  match o with
  | .done cs c => c.graph.map fun P => (cs, P.ids, c.schedules)
  | _ => none

private theorem of_rows {o : Outcome (Option Prepared) Sched (List Nat)} {cs : List Contractor} {ids : List NewId} {s : Sched}
    (h : rows o = some (cs, ids, [s])) : ∃ P orders, o = .done cs ⟨some P, [s], orders⟩ ∧ P.ids = ids := by
  unfold rows at h
  split at h
  · rename_i cs' c
    obtain ⟨g, ss, os⟩ := c
    obtain ⟨P, h1, h2⟩ := Option.map_eq_some_iff.1 h
    dsimp only at h1 h2
    subst h1
    cases h2
    exact ⟨P, os, rfl, rfl⟩
  · cases h

private def onlyEight (v : Nat) : WorkSpec := if v = 1 then ⟨[8], []⟩ else ⟨[], []⟩

/-- Not proved because false: "contractors enabled for a work by the specification are kept".  Work 1 is to be done by contractor 8, but
it is divided, its first stage has a new id, for which nothing is specified, and contractor 7 does all its stages. -/
theorem specification_of_divided_work_ignored : ∃ (p : Project) (S : Settings Unit) (cs : List Contractor), SoundProject p ∧
    (S.spec 1).contractors = [8] ∧ ∃ P s orders,
      run p (.list cs) (lft S (fun _ _ => 5) (fun _ _ => 0) 1000 30 p) = .done cs ⟨some P, [s], orders⟩ ∧
      ∃ i x, P.workOf i = some 1 ∧ s.get i = some x ∧ x.contractor = 7 := by
  refine ⟨demo, demoSettings demo onlyEight, demoContractors, demo_sound, rfl, ?_⟩
  have h : rows (run demo (.list demoContractors) (lft (demoSettings demo onlyEight) (fun _ _ => 5) (fun _ _ => 0) 1000 30 demo)) =
      some (demoContractors, [.last 0, .stage 1 0, .last 1, .last 2, .stage 3 0, .last 3, .last 4],
        [[(6, ⟨28, 28, [], 7⟩), (5, ⟨23, 28, [⟨7, 0, 2⟩], 7⟩), (4, ⟨18, 23, [⟨7, 0, 2⟩], 7⟩), (3, ⟨13, 18, [⟨7, 0, 2⟩], 7⟩),
          (2, ⟨8, 13, [⟨7, 0, 2⟩], 7⟩), (1, ⟨3, 8, [⟨7, 0, 2⟩], 7⟩), (0, ⟨3, 3, [], 7⟩)]]) := by decide +kernel
  obtain ⟨P, orders, h1, h2⟩ := of_rows h
  exact ⟨P, _, orders, h1, 1, _, by unfold Prepared.workOf; rw [h2]; rfl, rfl, rfl⟩

private def late : Project := ⟨graphWith [⟨0, 1, 0, .finishStart⟩, ⟨0, 2, 0, .finishStart⟩, ⟨1, 2, 0, .finishFinish⟩,
  ⟨2, 3, 0, .startStart⟩], [0, 1, 2, 3], 0, demoReqs, fun v => if v = 3 then 1 else 2⟩

/-- Not proved because false: "for any priorities the edges of the project are respected".  Work 2 must not finish before work 1, and work 3,
which is more urgent, must not start before work 2.  Correction of priorities makes only the first stage of work 2 more urgent, all stages
are placed with it, and work 2 is finished before work 1 starts.  All else that is asked of a project holds. -/
theorem urgent_work_breaks_edges : ∃ (p : Project) (S : Settings Unit) (cs : List Contractor), Plain S p 5 ∧
    (∀ prio, (∀ v ∈ p.works, prio v = 0) → SoundProject { p with prio := prio }) ∧
    canPerformGraph cs (p.works.map p.reqs) = some true ∧
    (∃ e ∈ p.graph.edgesTo 2, e.start = 1 ∧ e.type = .finishFinish) ∧ ∃ P s orders,
      run p (.list cs) (lft S (fun _ _ => 5) (fun _ _ => 0) 1000 30 p) = .done cs ⟨some P, [s], orders⟩ ∧
      ∃ i x, P.workOf i = some 1 ∧ s.get i = some x ∧ ∀ j y, P.workOf j = some 2 → s.get j = some y → y.finish < x.start := by
  refine ⟨late, demoSettings late fun _ => ⟨[], []⟩, demoContractors, demo_plain late, fun prio hprio => ?_, by decide +kernel,
    ⟨⟨1, 2, 0, .finishFinish⟩, by decide +kernel, rfl, rfl⟩, ?_⟩
  · have h0 : SoundProject { late with prio := fun _ => 0 } := ⟨graphWith_wf (by decide) (by decide) (by decide),
      ⟨by decide +kernel, by decide +kernel, by decide +kernel⟩, by decide +kernel, by decide, by decide +kernel, by decide +kernel,
      by decide +kernel, by unfold C16.SoundReqs; decide +kernel, .inl fun _ _ _ _ => Int.le_refl _⟩
    exact ⟨h0.wf, h0.simple, h0.separable, h0.start_mem, h0.start_first, h0.start_whole, h0.reached, h0.reqs,
      .inl fun v hv e he => by
        have : e.start ∈ late.works := (by decide +kernel : ∀ v ∈ late.works, ∀ e ∈ late.graph.edgesTo v, e.start ∈ late.works) v hv e he
        show prio e.start ≤ prio v
        rw [hprio v hv, hprio _ this]⟩
  · have h : rows (run late (.list demoContractors)
        (lft (demoSettings late fun _ => ⟨[], []⟩) (fun _ _ => 5) (fun _ _ => 0) 1000 30 late)) =
        some (demoContractors, [.last 0, .last 1, .stage 2 0, .stage 2 1, .last 2, .last 3],
          [[(1, ⟨23, 28, [⟨7, 0, 2⟩], 7⟩), (5, ⟨18, 23, [⟨7, 0, 2⟩], 7⟩), (4, ⟨13, 18, [⟨7, 0, 2⟩], 7⟩), (3, ⟨8, 13, [⟨7, 0, 2⟩], 7⟩),
            (2, ⟨3, 8, [⟨7, 0, 2⟩], 7⟩), (0, ⟨3, 3, [], 7⟩)]]) := by decide +kernel
    obtain ⟨P, orders, h1, h2⟩ := of_rows h
    refine ⟨P, _, orders, h1, 1, _, by unfold Prepared.workOf; rw [h2]; rfl, rfl, fun j y hj hy => ?_⟩
    unfold Prepared.workOf at hj
    rw [h2] at hj
    match j with
    | 0 | 1 | 5 => cases hj
    | 2 | 3 | 4 => cases hy; decide
    | j + 6 => simp at hj

end Sampo.C95
