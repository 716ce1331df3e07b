import Verif.Lemmas.Deadline
import Verif.Spec.Deadline
import Verif.Props.C30_DeadlineSearch
import Verif.Props.C103_ExclusiveWorks

/-!
# C104: the deadline-driven search returns valid schedules, and keeps deadlines it has seen to be kept
-/

namespace Sampo.C104

open DeadlineRun Scheduler
open C22 (WorkGraph)
open C89 (OnlyDependencies GivesGoodOrders)

variable {σ : Type} {J : Job}

private theorem sound (hJ : SoundJob J) {S : Type} {k : Rat} (hk : 1 ≤ k) (indep : List Nat) :
    Generic.Sound (setup (S := S) J k indep) where
  contractors := hJ.contractors
  reqs := hJ.reqs
  kinds := hJ.kinds
  free _ := rfl
  opt _ _ _ := by
    have h0 : (0 : Int) < k.den := by exact_mod_cast k.den_pos
    have h1 : (k.den : Int) ≤ k.num := by
      have h2 : (0 : ℚ) < (k.den : ℚ) := by exact_mod_cast k.den_pos
      have h3 : (1 : ℚ) ≤ (k.num : ℚ) / (k.den : ℚ) := by rw [Rat.num_div_den]; exact hk
      rw [one_le_div h2] at h3
      exact_mod_cast h3
    exact ⟨(C16.optimizers_stay_within fun _ => 0).2.2 _ _ h0 h1, (C54.optimizers_answer fun _ => 0).2.2 _ _ h0 h1⟩
  able v := by
    obtain ⟨c, hc, h⟩ := hJ.able v
    exact ⟨c, hc, .inl rfl, h⟩
  start := hJ.start

private theorem feasible_mono {g : Graph} {nodes : List Nat} {pool : AgentId → Option Int} {p q : Nat → List Worker → Nat → Prop}
    {s : Sched} (h : Feasible g nodes pool p s) (hpq : ∀ v t c, p v t c → q v t c) : Feasible g nodes pool q s :=
  ⟨h.works, h.times, h.precedence, h.chains, fun k v hk hv => by
    obtain ⟨x, hx, hs⟩ := h.staffed k v hk hv
    exact ⟨x, hx, hpq _ _ _ hs⟩, h.capacity⟩

/-- The search over any base scheduler that gives schedules before infinity. -/
private theorem searched {call : Rat → List Nat → Option Sched} {B : Int} (hB : B < TIME_INF) (hB0 : 0 ≤ B)
    (hcall : ∀ k l, 1 ≤ k → ∃ s, call k l = some s ∧ EndsBy s B) (nodes : List Nat) {deadline : Int} (h0 : 0 ≤ deadline)
    (h1 : deadline < TIME_INF) :
    ∃ o s, Deadline.search (fitness call) nodes deadline = some (some o) ∧ 1 ≤ o.k ∧ (∀ v ∈ o.indep, v ∈ nodes) ∧
      call o.k o.indep = some s ∧ schedule call nodes deadline = some (some (s, o.indep)) ∧
      (((∃ s₀, call 10000 [] = some s₀ ∧ 0 < deadline ∧ EndsBefore s₀ deadline) ∨
        ∃ k ∈ o.probes, 1 ≤ k ∧ k ≠ 10000 ∧ ∃ s', call k [] = some s' ∧ EndsBy s' deadline) → EndsBy s deadline) := by
  classical
  let run' : Rat → List Nat → Option Int := fun k l => if 1 ≤ k then fitness call k l else some 0
  have hrun : ∀ k l, 1 ≤ k → fitness call k l = run' k l := fun k l hk => (if_pos hk).symm
  have hans : ∀ k l, ∃ t, run' k l = some t := by
    intro k l
    by_cases hk : 1 ≤ k
    · obtain ⟨s, hs, -⟩ := hcall k l hk
      exact ⟨_, by rw [← hrun k l hk, fitness, hs]; rfl⟩
    · exact ⟨0, if_neg hk⟩
  have hsane : C30.SaneTimes run' := by
    intro k l t ht
    by_cases hk : 1 ≤ k
    · obtain ⟨s, hs, hb⟩ := hcall k l hk
      rw [← hrun k l hk, fitness, hs, Option.map_some, Option.some.injEq] at ht
      subst ht
      refine ⟨AutoPipeline.executionTime_nonneg s, ?_⟩
      have : AutoPipeline.executionTime s ≤ B := AutoPipeline.executionTime_le.2 ⟨hB0, hb⟩
      exact lt_of_le_of_lt this hB
    · rw [show run' k l = some 0 from if_neg hk, Option.some.injEq] at ht
      subst ht
      exact ⟨Int.le_refl _, by decide⟩
  obtain ⟨o, ho⟩ := C30.search_succeeds run' hans nodes deadline
  have ho' : Deadline.search (fitness call) nodes deadline = some (some o) := by rw [Deadline.search_congr hrun]; exact ho
  have hk := Deadline.search_level ho
  obtain ⟨s, hs, -⟩ := hcall o.k o.indep hk
  refine ⟨o, s, ho', hk, Deadline.search_indep ho, hs, by simp [schedule, ho', hs], fun hmet => ?_⟩
  obtain ⟨t, ht, hle⟩ := C30.probed_deadline_met_partial run' hsane nodes deadline h0 h1 o ho (by
    rcases hmet with ⟨s₀, h2, hpos, h3⟩ | ⟨k, hkp, hk1, hne, s', h2, h3⟩
    · refine .inl ⟨_, by rw [← hrun 10000 [] (by norm_num), fitness, h2]; rfl, ?_⟩
      have : AutoPipeline.executionTime s₀ ≤ deadline - 1 :=
        AutoPipeline.executionTime_le.2 ⟨by omega, fun e he => by have := h3 e he; omega⟩
      omega
    · exact .inr ⟨k, hkp, hne, _, by rw [← hrun k [] hk1, fitness, h2]; rfl, AutoPipeline.executionTime_le.2 ⟨h0, h3⟩⟩)
  rw [← hrun _ _ hk, fitness, hs, Option.map_some, Option.some.injEq] at ht
  subst ht
  exact (AutoPipeline.executionTime_le.1 hle).2

private theorem jit_call (hJ : SoundJob J) (hpos : ∀ v, ∀ e ∈ J.graph.edgesTo v, e.type = .inseparable → 0 ≤ e.lag) (site : Env σ)
    (hsite : NoSiteLimits site) (hsite0 : ∀ s v t d, 0 ≤ t → 0 ≤ site.matTime s v t ∧ 0 ≤ site.zoneTime s v t d) (rule : Rule)
    (hrule : GivesGoodOrders rule J.graph J.nodes) (hans : ∃ order, orderWorks rule J.graph J.nodes = some order) (L D : Int)
    (hL : 0 ≤ L) (hD : 0 ≤ D) (hest : ∀ v team, 0 ≤ site.estimate v team ∧ site.estimate v team ≤ D)
    (hlag : ∀ v, ∀ e ∈ J.graph.edgesTo v, e.lag ≤ L) (hhor : 2 * (J.parentTime + J.nodes.length * (L + D)) < TIME_INF) (env : σ)
    (fuel : Nat) (hf : 1 ≤ fuel) (k : Rat) (hk : 1 ≤ k) (l : List Nat) :
    ∃ s, callJIT J site rule env fuel k l = some s ∧ EndsBy s (J.parentTime + J.nodes.length * (L + D)) ∧
      Feasible J.graph J.nodes (LFT.agents J.contractors) (Staffs J) s ∧ Exclusive J.graph J.nodes (fun v => decide (v ∈ l)) s := by
  obtain ⟨st, h1, h2, h3⟩ := C89.generic_jit_schedules hJ.graph hJ.deps hpos site hsite hsite0 rule hrule hans _ (sound hJ hk l) L D hL hD hest
    hlag hhor env
  refine ⟨st.sched, ?_, h3, feasible_mono h2 fun v t c ⟨k, hk, hc, _, hm⟩ => ⟨k, hk, hc, hm⟩, ?_⟩
  · have h : scheduleJIT site rule J.graph J.nodes (Generic.planJIT (onGraph site J.graph J.nodes) (setup J k l) fuel)
        (LFT.agents J.contractors) env fuel = some (some st) := h1 fuel hf
    unfold callJIT
    rw [h]
  · exact C103.generic_independent_exclusive hJ.graph site (fun v team => (hest v team).1) rule hrule _ (sound hJ hk l) env fuel st (h1 fuel hf)

/-- HEFT or a topological scheduler on a just-in-time timeline as base: for every deadline a schedule is returned.  It is valid, and the
works which the returned specification marks as independent are works of the graph and do not share their workers with other works at the
same time. -/
theorem jit_valid_for_every_deadline (hJ : SoundJob J) (hpos : ∀ v, ∀ e ∈ J.graph.edgesTo v, e.type = .inseparable → 0 ≤ e.lag)
    (site : Env σ) (hsite : NoSiteLimits site)
    (hsite0 : ∀ s v t d, 0 ≤ t → 0 ≤ site.matTime s v t ∧ 0 ≤ site.zoneTime s v t d) (rule : Rule)
    (hrule : GivesGoodOrders rule J.graph J.nodes) (hans : ∃ order, orderWorks rule J.graph J.nodes = some order) (L D : Int)
    (hL : 0 ≤ L) (hD : 0 ≤ D) (hest : ∀ v team, 0 ≤ site.estimate v team ∧ site.estimate v team ≤ D)
    (hlag : ∀ v, ∀ e ∈ J.graph.edgesTo v, e.lag ≤ L) (hhor : 2 * (J.parentTime + J.nodes.length * (L + D)) < TIME_INF) (env : σ)
    (fuel : Nat) (hf : 1 ≤ fuel) (deadline : Int) (h0 : 0 ≤ deadline) (h1 : deadline < TIME_INF) :
    ∃ s indep, schedule (callJIT J site rule env fuel) J.nodes deadline = some (some (s, indep)) ∧
      Feasible J.graph J.nodes (LFT.agents J.contractors) (Staffs J) s ∧ (∀ v ∈ indep, v ∈ J.nodes) ∧
      Exclusive J.graph J.nodes (fun v => decide (v ∈ indep)) s := by
  have hn : 0 ≤ (J.nodes.length : Int) * (L + D) := Int.mul_nonneg (by omega) (by omega)
  have hst := hJ.start
  have hc := jit_call hJ hpos site hsite hsite0 rule hrule hans L D hL hD hest hlag hhor env fuel hf
  obtain ⟨o, s, -, hk, hi, hs, h, -⟩ := searched (B := J.parentTime + J.nodes.length * (L + D)) (by omega) (by omega)
    (fun k l hk => by obtain ⟨s, h1, h2, -⟩ := hc k hk l; exact ⟨s, h1, h2⟩) J.nodes h0 h1
  obtain ⟨s', hs', -, hf', he⟩ := hc o.k hk o.indep
  obtain rfl : s = s' := Option.some.inj (hs.symm.trans hs')
  exact ⟨s, o.indep, h, hf', hi, he⟩

/-- The deadline is kept if the schedule with the minimum of resources (level 10000, no work marked) ends before it. -/
theorem jit_minimum_keeps_deadline (hJ : SoundJob J) (hpos : ∀ v, ∀ e ∈ J.graph.edgesTo v, e.type = .inseparable → 0 ≤ e.lag)
    (site : Env σ) (hsite : NoSiteLimits site)
    (hsite0 : ∀ s v t d, 0 ≤ t → 0 ≤ site.matTime s v t ∧ 0 ≤ site.zoneTime s v t d) (rule : Rule)
    (hrule : GivesGoodOrders rule J.graph J.nodes) (hans : ∃ order, orderWorks rule J.graph J.nodes = some order) (L D : Int)
    (hL : 0 ≤ L) (hD : 0 ≤ D) (hest : ∀ v team, 0 ≤ site.estimate v team ∧ site.estimate v team ≤ D)
    (hlag : ∀ v, ∀ e ∈ J.graph.edgesTo v, e.lag ≤ L) (hhor : 2 * (J.parentTime + J.nodes.length * (L + D)) < TIME_INF) (env : σ)
    (fuel : Nat) (hf : 1 ≤ fuel) (deadline : Int) (h0 : 0 < deadline) (h1 : deadline < TIME_INF) (s₀ : Sched)
    (hs₀ : callJIT J site rule env fuel 10000 [] = some s₀) (hb : EndsBefore s₀ deadline) :
    ∃ s indep, schedule (callJIT J site rule env fuel) J.nodes deadline = some (some (s, indep)) ∧ EndsBy s deadline := by
  have hn : 0 ≤ (J.nodes.length : Int) * (L + D) := Int.mul_nonneg (by omega) (by omega)
  have hst := hJ.start
  have hc := jit_call hJ hpos site hsite hsite0 rule hrule hans L D hL hD hest hlag hhor env fuel hf
  obtain ⟨o, s, -, -, -, -, h, hmet⟩ := searched (B := J.parentTime + J.nodes.length * (L + D)) (by omega) (by omega)
    (fun k l hk => by obtain ⟨s, h1, h2, -⟩ := hc k hk l; exact ⟨s, h1, h2⟩) J.nodes (le_of_lt h0) h1
  exact ⟨s, o.indep, h, hmet (.inl ⟨s₀, hs₀, h0, hb⟩)⟩

/-- The deadline is kept if one of the levels tried by the binary search keeps it.  Missing compared to the full property: levels that
are not tried (`reachable_deadline_missed`). -/
theorem jit_tried_level_keeps_deadline_partial (hJ : SoundJob J)
    (hpos : ∀ v, ∀ e ∈ J.graph.edgesTo v, e.type = .inseparable → 0 ≤ e.lag)
    (site : Env σ) (hsite : NoSiteLimits site)
    (hsite0 : ∀ s v t d, 0 ≤ t → 0 ≤ site.matTime s v t ∧ 0 ≤ site.zoneTime s v t d) (rule : Rule)
    (hrule : GivesGoodOrders rule J.graph J.nodes) (hans : ∃ order, orderWorks rule J.graph J.nodes = some order) (L D : Int)
    (hL : 0 ≤ L) (hD : 0 ≤ D) (hest : ∀ v team, 0 ≤ site.estimate v team ∧ site.estimate v team ≤ D)
    (hlag : ∀ v, ∀ e ∈ J.graph.edgesTo v, e.lag ≤ L) (hhor : 2 * (J.parentTime + J.nodes.length * (L + D)) < TIME_INF) (env : σ)
    (fuel : Nat) (hf : 1 ≤ fuel) (deadline : Int) (h0 : 0 ≤ deadline) (h1 : deadline < TIME_INF) :
    ∃ o s, Deadline.search (fitness (callJIT J site rule env fuel)) J.nodes deadline = some (some o) ∧
      schedule (callJIT J site rule env fuel) J.nodes deadline = some (some (s, o.indep)) ∧
      ((∃ k ∈ o.probes, 1 ≤ k ∧ k ≠ 10000 ∧ ∃ s', callJIT J site rule env fuel k [] = some s' ∧ EndsBy s' deadline) →
        EndsBy s deadline) := by
  have hn : 0 ≤ (J.nodes.length : Int) * (L + D) := Int.mul_nonneg (by omega) (by omega)
  have hst := hJ.start
  have hc := jit_call hJ hpos site hsite hsite0 rule hrule hans L D hL hD hest hlag hhor env fuel hf
  obtain ⟨o, s, ho, -, -, -, h, hmet⟩ := searched (B := J.parentTime + J.nodes.length * (L + D)) (by omega) (by omega)
    (fun k l hk => by obtain ⟨s, h1, h2, -⟩ := hc k hk l; exact ⟨s, h1, h2⟩) J.nodes h0 h1
  exact ⟨o, s, ho, h, fun hh => hmet (.inr hh)⟩

/-- With any base scheduler: if the schedule with the minimum of resources ends before the deadline, a schedule that is returned keeps
the deadline, however many works have been made independent. -/
theorem minimum_keeps_deadline (call : Rat → List Nat → Option Sched) (nodes : List Nat) (deadline : Int) (h0 : 0 < deadline)
    (s₀ : Sched) (hs₀ : call 10000 [] = some s₀) (hb : EndsBefore s₀ deadline) (s : Sched) (indep : List Nat)
    (h : schedule call nodes deadline = some (some (s, indep))) : EndsBy s deadline := by
  have ht : AutoPipeline.executionTime s₀ ≤ deadline - 1 :=
    AutoPipeline.executionTime_le.2 ⟨by omega, fun e he => by have := hb e he; omega⟩
  simp only [schedule, Option.map_eq_some_iff] at h
  obtain ⟨r, hr, hrs⟩ := h
  obtain ⟨o, rfl, h⟩ := Option.bind_eq_some_iff.1 hrs
  obtain ⟨s', hs', he⟩ := Option.map_eq_some_iff.1 h
  obtain ⟨rfl, -⟩ := Prod.mk.inj he
  unfold Deadline.search at hr
  simp only [fitness, hs₀, Option.map_some] at hr
  rw [if_pos (by omega)] at hr
  simp only [Option.some.injEq, Option.map_eq_some_iff] at hr
  obtain ⟨l, hl, rfl⟩ := hr
  obtain ⟨t, ht', hle⟩ := Deadline.indepLoop_meets ⟨AutoPipeline.executionTime s₀, by simp only [fitness, hs₀, Option.map_some], by omega⟩ hl
  simp only at hs'
  rw [fitness, hs', Option.map_some, Option.some.injEq] at ht'
  subst ht'
  exact (AutoPipeline.executionTime_le.1 hle).2

/-- A generic scheduler on a momentum timeline as base: a schedule that is returned is valid, if lags between works of one chain are not
positive and its times stay in the range of `Time`. -/
theorem momentum_valid_partial (hJ : SoundJob J) (site : Env σ) (hest : ∀ v team, 0 ≤ site.estimate v team) (rule : Rule)
    (hrule : GivesGoodOrders rule J.graph J.nodes)
    (hlag : ∀ k v, ∀ e ∈ J.graph.edgesTo v, J.graph.InChain k v → J.graph.InChain k e.start → e.lag ≤ 0) (env : σ) (inf : Int)
    (hinf : J.parentTime ≤ inf) (fuelIn fuel : Nat) (deadline : Int) (s : Sched) (indep : List Nat)
    (h : schedule (callMomentum J site rule env inf fuelIn fuel) J.nodes deadline = some (some (s, indep)))
    (hrange : ∀ x ∈ s, ∀ v, ∀ e ∈ J.graph.edgesTo v, e.start = x.1 → x.2.finish + e.lag ≤ inf) :
    Feasible J.graph J.nodes (LFT.agents J.contractors) (Staffs J) s ∧ ∀ v x, s.get v = some x → J.parentTime ≤ x.start := by
  simp only [schedule, Option.map_eq_some_iff] at h
  obtain ⟨r, hr, hrs⟩ := h
  obtain ⟨o, rfl, h⟩ := Option.bind_eq_some_iff.1 hrs
  obtain ⟨s', hs', he⟩ := Option.map_eq_some_iff.1 h
  obtain ⟨rfl, -⟩ := Prod.mk.inj he
  have hk := Deadline.search_level hr
  unfold callMomentum at hs'
  split at hs'
  · rename_i st hst
    simp only [Option.some.injEq] at hs'
    subst hs'
    have hG := sound (S := Momentum.State σ) hJ hk o.indep
    exact C89.momentum_feasible_partial hJ.graph hJ.deps site hest rule hrule hlag
      (Generic.planMomentum (onGraph site J.graph J.nodes) (setup J o.k o.indep) inf fuelIn fuel) (fun v => rfl) inf hJ.start hinf _ (Staffs J)
      (fun v team c ⟨k, hk, _, hm⟩ => (meets_ok hJ.contractors hk (hJ.reqs v) (hJ.kinds v) hm).1)
      (fun s v team c hc => by
        obtain ⟨s', f, k, hr, rfl⟩ := Generic.choose_search hc
        obtain ⟨h1, -, h3⟩ := C16.chosen_team_meets_requirements _ hG.contractors _ _ (hG.reqs v) _ (hG.free v) _
          (fun c => (hG.opt s v c).1) _ (fun c t s' f hf => Generic.momentum_time _ _ _ _ _ hf) s' f k team hr
        exact ⟨k, h1, rfl, h3⟩) env fuelIn fuel st hst hrange
  · simp at hs'

/-- With an LFT scheduler as base the search achieves nothing: if the plain schedule does not end before the deadline, it is returned as
it is, whatever resources there are. -/
theorem lft_not_accelerated (site : Env σ) (rule : Rule) (env : σ) (index : Nat → Nat → Nat) (fuel : Nat) (deadline : Int)
    (s : Sched) (hs : callLFT J site rule env index fuel 1 [] = some s) (hlate : ∃ e ∈ s, deadline ≤ e.2.finish) :
    schedule (callLFT J site rule env index fuel) J.nodes deadline = some (some (s, [])) := by
  have hsame : ∀ k, callLFT J site rule env index fuel k [] = some s := fun _ => hs
  have ht : deadline ≤ AutoPipeline.executionTime s := by
    obtain ⟨e, he, hle⟩ := hlate
    exact le_trans hle ((AutoPipeline.executionTime_le.1 (Int.le_refl _)).2 e he)
  obtain ⟨o, ho⟩ := C30.search_succeeds (fun _ _ => some (AutoPipeline.executionTime s)) (fun _ _ => ⟨_, rfl⟩) J.nodes deadline
  have ho' : Deadline.search (fitness (callLFT J site rule env index fuel)) J.nodes deadline = some (some o) ∧ o.indep = [] := by
    unfold Deadline.search at ho ⊢
    simp only [fitness, hsame, Option.map_some] at ho ⊢
    rw [if_neg (by omega)] at ho ⊢
    rw [Deadline.binLoop_congr (run' := fun _ _ => some (AutoPipeline.executionTime s)) (fun k _ => by simp [fitness, hsame])
      (by norm_num) (by norm_num)]
    refine ⟨ho, ?_⟩
    simp only [Option.map_eq_some_iff] at ho
    obtain ⟨r, -, s', rfl, rfl⟩ := ho
    split <;> rfl
  simp only [schedule, ho'.1, Option.map_some, Option.bind_some, ho'.2, hsame]

/-! ### A concrete project: six works of the same kind between start 0 and finish 7, and 25 workers -/

private def works : List Nat := [0, 1, 2, 3, 4, 5, 6, 7]
private def edges : List Edge := [1, 2, 3, 4, 5, 6].flatMap fun v => [⟨0, v, 0, .finishStart⟩, ⟨v, 7, 0, .finishStart⟩]
private def reqs (v : Nat) : List WorkerReq := if 1 ≤ v ∧ v ≤ 6 then [⟨0, 1, 25⟩] else []
/-- A work takes 60 hours of one worker. -/
private def site : Env Unit :=
  { Demo.env with kinds := fun v => (reqs v).map (·.kind), service := fun v => v == 0 || v == 7,
                  estimate := fun _ team => match team with
                    | [] => 0
                    | w :: _ => if 0 < w.count then (60 + w.count - 1) / w.count else 0 }
private def job : Job := ⟨Graph.ofEdges edges, works, [⟨7, [(0, 25)]⟩], reqs, 0⟩
private def rule : Rule := heftRule (fun v => (v : Int)) fun _ => 1

private theorem job_edge {v : Nat} {e : Edge} (h : e ∈ job.graph.edgesTo v) : e ∈ edges := by
  unfold job at h
  simp only [Graph.ofEdges_to] at h
  exact (List.mem_filter.1 h).1

private theorem job_lag {v : Nat} {e : Edge} (h : e ∈ job.graph.edgesTo v) : e.lag = 0 ∧ e.type = .finishStart :=
  (by decide : ∀ e ∈ edges, e.lag = 0 ∧ e.type = .finishStart) e (job_edge h)

private theorem job_graph : WorkGraph job.graph job.nodes where
  once := by decide
  linked := Graph.linked_ofEdges _
  closed := Graph.closed_ofEdges (by decide)
  chains := Graph.chains_ofEdges (by decide)
  acyclic := Graph.acyclic_ofEdges (fun v => v) (by decide)

private theorem job_sound : SoundJob job where
  graph := job_graph
  deps _ _ he := .inl (job_lag he).2
  contractors := by unfold C16.SoundContractors; decide
  reqs v := by
    show C16.SoundReqs (reqs v)
    unfold reqs
    split <;> simp [C16.SoundReqs]
  kinds v := by
    show ((reqs v).map (·.kind)).Nodup
    unfold reqs
    split <;> simp
  able v := by
    refine ⟨⟨7, [(0, 25)]⟩, List.mem_cons_self, ?_⟩
    intro r hr
    change r ∈ reqs v at hr
    unfold reqs at hr
    split at hr
    · rw [List.mem_singleton] at hr
      subst hr
      exact ⟨25, by decide, by decide⟩
    · simp at hr
  start := Int.le_refl _

private theorem job_rule : GivesGoodOrders rule job.graph job.nodes :=
  C89.heft_order job_graph _ (fun v => Int.natCast_nonneg v) _ fun _ _ _ => Int.le_refl _

private theorem job_est (v : Nat) (team : List Worker) : 0 ≤ site.estimate v team ∧ site.estimate v team ≤ 60 := by
  simp only [site]
  split
  · decide
  · split
    · rename_i w _ h
      exact ⟨Int.ediv_nonneg (by omega) (by omega), Int.ediv_le_of_le_mul h (by omega)⟩
    · decide

private instance (s : Sched) (d : Int) : Decidable (EndsBy s d) := by unfold EndsBy; infer_instance
private instance (s : Sched) (d : Int) : Decidable (EndsBefore s d) := by unfold EndsBefore; infer_instance

private theorem job_site : NoSiteLimits site :=
  ⟨fun _ _ _ => Int.le_refl _, fun _ _ _ _ => Int.le_refl _, fun s _ t => ⟨s, t, rfl, Int.le_refl _⟩, fun s _ _ _ => ⟨s, rfl⟩,
    fun s => ⟨s, 0, rfl, Int.le_refl _⟩⟩

/-- Deadline 130: a valid schedule, in which work 1 does not overlap with the others. -/
example : ∃ s indep, schedule (callJIT job site rule () 20) job.nodes 130 = some (some (s, indep)) ∧
    Feasible job.graph job.nodes (LFT.agents job.contractors) (Staffs job) s ∧ (∀ v ∈ indep, v ∈ job.nodes) ∧
    Exclusive job.graph job.nodes (fun v => decide (v ∈ indep)) s :=
  jit_valid_for_every_deadline job_sound (fun v e he _ => by rw [(job_lag he).1]) site job_site (fun _ _ _ _ h => ⟨h, h⟩) rule job_rule
    ⟨[0, 6, 5, 4, 3, 2, 1, 7], by decide +kernel⟩ 0 60 (by decide) (by decide) job_est (fun v e he => by rw [(job_lag he).1]) (by decide) ()
    20 (by decide) 130 (by decide) (by decide)

example : (schedule (callJIT job site rule () 20) works 130).map (·.map fun r =>
    (r.1.map fun e => (e.1, e.2.start, e.2.finish), r.2)) = some (some ([(7, 120, 120), (1, 60, 120), (2, 0, 60), (3, 0, 60), (4, 0, 60),
      (5, 0, 60), (6, 0, 60), (0, 0, 0)], [1, 0])) := by decide +kernel

/-- Deadline 61 is kept with the minimum of resources. -/
example : ∃ s indep, schedule (callJIT job site rule () 20) job.nodes 61 = some (some (s, indep)) ∧ EndsBy s 61 := by
  have h : (callJIT job site rule () 20 10000 []).map (fun s => decide (EndsBefore s 61)) = some true := by decide +kernel
  obtain ⟨s₀, hs, hb⟩ := Option.map_eq_some_iff.1 h
  exact jit_minimum_keeps_deadline job_sound (fun v e he _ => by rw [(job_lag he).1]) site job_site (fun _ _ _ _ h => ⟨h, h⟩) rule job_rule
    ⟨[0, 6, 5, 4, 3, 2, 1, 7], by decide +kernel⟩ 0 60 (by decide) (by decide) job_est (fun v e he => by rw [(job_lag he).1]) (by decide) ()
    20 (by decide) 61 (by decide) (by decide) s₀ hs (of_decide_eq_true hb)

/-- Not proved because false: "if some level of resources keeps the deadline, the returned schedule does".  With four workers for each
work (level 8) all works are done side by side in 15 hours.  The search tries other levels, which give teams that do not fit beside
each other; its schedule takes 18 hours.  All resources (level 1) take 18 hours, too: more resources may be slower. -/
theorem reachable_deadline_missed : ∃ (J : Job) (site : Env Unit) (rule : Rule) (deadline : Int), SoundJob J ∧ NoSiteLimits site ∧
    (∀ v team, 0 ≤ site.estimate v team) ∧ GivesGoodOrders rule J.graph J.nodes ∧
    (∃ k s, 1 < k ∧ k < 10000 ∧ callJIT J site rule () 20 k [] = some s ∧ EndsBy s deadline) ∧
    (∃ s, callJIT J site rule () 20 1 [] = some s ∧ ¬ EndsBy s deadline) ∧
    ∃ s indep, schedule (callJIT J site rule () 20) J.nodes deadline = some (some (s, indep)) ∧ ¬ EndsBy s deadline := by
  refine ⟨job, site, rule, 15, job_sound, job_site, fun v team => (job_est v team).1, job_rule, ?_, ?_, ?_⟩
  · have h : (callJIT job site rule () 20 8 []).map (fun s => decide (EndsBy s 15)) = some true := by decide +kernel
    obtain ⟨s, hs, hb⟩ := Option.map_eq_some_iff.1 h
    exact ⟨8, s, by norm_num, by norm_num, hs, of_decide_eq_true hb⟩
  · have h : (callJIT job site rule () 20 1 []).map (fun s => decide (EndsBy s 15)) = some false := by decide +kernel
    obtain ⟨s, hs, hb⟩ := Option.map_eq_some_iff.1 h
    exact ⟨s, hs, of_decide_eq_false hb⟩
  · have h : (schedule (callJIT job site rule () 20) works 15).map (·.map fun r => decide (EndsBy r.1 15)) =
      some (some false) := by decide +kernel
    obtain ⟨r, hr, hb⟩ := Option.map_eq_some_iff.1 h
    obtain ⟨⟨s, indep⟩, rfl, hb'⟩ := Option.map_eq_some_iff.1 hb
    exact ⟨s, indep, hr, of_decide_eq_false hb'⟩

/-- Deadline 20 is kept by one of the levels tried, and by the schedule. -/
example : (Deadline.search (fitness (callJIT job site rule () 20)) works 20).map (·.map fun o =>
    (o.probes.any fun k => decide (1 ≤ k ∧ k ≠ 10000) && (callJIT job site rule () 20 k []).any fun s => decide (EndsBy s 20),
      (callJIT job site rule () 20 o.k o.indep).map AutoPipeline.executionTime)) = some (some (true, some 20)) := by decide +kernel

/-- With LFT as base and deadline 10 the plain schedule comes back. -/
example : (schedule (callLFT job site (lftRule (fun v => v) fun _ => 1) () (fun _ _ => 0) 20) works 10).map (·.map fun r =>
    (AutoPipeline.executionTime r.1, r.2)) = some (some (18, [])) := by decide +kernel

/-- On a momentum timeline. -/
example : (schedule (callMomentum job site rule () 100000 30 30) works 20).map (·.map fun r =>
    (AutoPipeline.executionTime r.1, r.2)) = some (some (20, [])) := by decide +kernel

end Sampo.C104
