import Verif.Lemmas.SchedLive
import Verif.Lemmas.Demo
import Verif.Model.LFTPlan
import Verif.Props.C16_Teams
import Verif.Lemmas.GenericLive

/-! # C54: a project that can be staffed gets a schedule

For a project without material and zone requirements and without assigned durations, in which every work gets a team that
the pool can provide, the list schedulers end with a complete schedule: no exception, no endless loop.  `Momentum.Fits`
spells out what such a team is; `lft_delivers_*` derives it from the contractors' staff. -/

namespace Sampo.C54

variable {σ : Type}

/-- The order lists every work after its predecessors. -/
private theorem topo_from {preds : Nat → List Nat} {l : List Nat} (h : TopoList preds l) : TopoFrom preds [] l :=
  topoFrom_iff.mpr fun l₁ v l₂ hl p hp => by simpa using h l₁ v l₂ hl p hp

/-- Just-in-time timeline: whenever each work is given a team within the pool, a schedule with all works is returned; one
round of each search loop is enough. -/
theorem jit_delivers (E : Env σ) (hsite : NoSiteLimits E) (hce : ChainEdges E) (P : Plan (JIT.State σ))
    (pool : AgentId → Option Int) (env : σ) (order : List Nat)
    (hest : ∀ v team, 0 ≤ E.estimate v team) (hts : ∀ v ts, P.assignedTimes v = some ts → NonNegTimes ts)
    (hchain : ∀ v, v ∈ E.chain v) (hP : 0 ≤ P.parentTime)
    (hsome : ∀ st, ∀ v ∈ order, ∃ team c, P.choose st v = some (team, c))
    (hteam : ∀ st v team c, P.choose st v = some (team, c) → WellFormedTeam team ∧ WithinPool pool team)
    (htopo : TopoList (fun v => (E.edgesTo v).map (·.1)) (order.flatMap E.chain)) :
    ∃ st, (∀ fuel, 1 ≤ fuel → JIT.build E P pool env fuel order = some (some st)) ∧
      ∀ v ∈ order.flatMap E.chain, ∃ x, st.sched.get v = some x := by
  obtain ⟨st, h⟩ := JIT.buildFrom_some (first := true) (st := ⟨JIT.init pool, env, []⟩) hsite hce hest hts hchain hP hsome
    hteam (.inl ⟨rfl, rfl, rfl⟩) (topo_from htopo)
  refine ⟨st, fun fuel hf => ?_, fun v hv => ?_⟩
  · obtain ⟨n, rfl⟩ : ∃ n, fuel = n + 1 := ⟨fuel - 1, by omega⟩
    exact h n
  · rw [get_isSome_iff, (JIT.buildFrom_run hest hts (h 0)).works]
    simpa [Sched.works] using hv

/-- Momentum timeline: whenever each work is given a team within the pool that matches its requirements, a schedule with
all works is returned. -/
theorem momentum_delivers (E : Env σ) (hsite : NoSiteLimits E) (P : Plan (Momentum.State σ))
    (pool : AgentId → Option Int) (env : σ) (inf : Int) (order : List Nat)
    (hest : ∀ v team, 0 ≤ E.estimate v team) (hts : ∀ v, P.assignedTimes v = none)
    (hnd : ∀ v ∈ order, (E.chain v).Nodup) (hP : 0 ≤ P.parentTime) (hinf : P.parentTime ≤ inf)
    (hteam : ∀ st, ∀ v ∈ order, ∃ team c, P.choose st v = some (team, c) ∧ Momentum.Fits E pool v team) :
    ∃ N st, (∀ fuelIn fuel, N ≤ fuelIn → 1 ≤ fuel →
        Momentum.build E P pool env inf fuelIn fuel order = some (some st)) ∧
      ∀ v ∈ order.flatMap E.chain, ∃ x, st.sched.get v = some x := by
  obtain ⟨N, st, h⟩ := Momentum.buildFrom_some (inf := inf) (first := true) (st := ⟨Momentum.init pool, env, []⟩) hsite hest hP
    (fun v _ => hts v) hnd hteam (.inl ⟨rfl, .fresh⟩)
  refine ⟨N, st, fun fuelIn fuel hN hf => ?_, fun v hv => ?_⟩
  · obtain ⟨n, rfl⟩ : ∃ n, fuel = n + 1 := ⟨fuel - 1, by omega⟩
    exact h fuelIn n hN
  · rw [get_isSome_iff, (Momentum.buildFrom_run hest (fun v ts hv => by simp [hts] at hv) hP hinf (h N 0 (Nat.le_refl _))).works]
    simpa [Sched.works] using hv

/-! ### The LFT scheduler, from the contractors' staff -/

/-- A work that can be staffed: sound requirements of different types, fixed counts within them, and an enabled contractor
that owns enough workers of every required type. -/
def Staffable (contractors : List Contractor) (spec : WorkSpec) (reqs : List WorkerReq) : Prop :=
  C16.SoundReqs reqs ∧ (reqs.map (·.kind)).Nodup ∧
  (∀ r ∈ reqs, ∀ n, spec.assigned.lookup r.kind = some n → r.minCount ≤ n ∧ n ≤ r.maxCount) ∧
  ∃ c ∈ contractors, C14.Admissible spec c ∧ ∀ r ∈ reqs, ∃ have_, c.workers.lookup r.kind = some have_ ∧
    r.minCount ≤ have_ ∧ ∀ n, spec.assigned.lookup r.kind = some n → n ≤ have_

/-- LFT finds a contractor and a team for a work that can be staffed. -/
theorem lft_chooses_team (contractors : List Contractor) (hcs : C16.SoundContractors contractors) (spec : Nat → WorkSpec)
    (hneg : ∀ v k n, (spec v).assigned.lookup k = some n → n ≠ -1) (reqs : Nat → List WorkerReq) (index : Nat → Nat → Nat)
    (hidx : ∀ v n, 0 < n → index v n < n) (v : Nat) (hv : Staffable contractors (spec v) (reqs v)) :
    ∃ team c, LFT.choose contractors spec reqs index v = some (team, c.id) ∧ c ∈ contractors ∧
      C16.Meets c (reqs v) team := by
  obtain ⟨h1, h2, h3, h4⟩ := hv
  obtain ⟨l, hl⟩ := (C16.lft_accepts_iff contractors hcs (spec v) (hneg v) (reqs v) h1).mpr ⟨h3, h4⟩
  have hlen : 0 < l.length := by
    unfold LFT.contractorsAndAmounts at hl
    split at hl
    · cases hl
    · split at hl
      · cases hl
      · split at hl
        · cases hl
        · rename_i hany
          simp only [Except.ok.injEq] at hl
          subst hl
          simp only [Bool.not_eq_true, Bool.not_eq_false', List.any_eq_true, Bool.not_eq_eq_eq_not, Bool.not_true, Bool.not_eq_false] at hany
          obtain ⟨c, hc, ha⟩ := hany
          rw [List.length_map]
          exact List.length_pos_of_mem (List.mem_filter.mpr ⟨hc, ha⟩)
  obtain ⟨ca, hca⟩ : ∃ ca, l[index v l.length]? = some ca :=
    ⟨_, List.getElem?_eq_getElem (hidx v l.length hlen)⟩
  have has : LFT.assign contractors (spec v) (reqs v) (index v) =
      .ok (some (ca.1, ((reqs v).zip ca.2).map fun x => ⟨ca.1.id, x.1.kind, x.2⟩)) := by
    simp only [LFT.assign, hl, hca, Option.map_some]
  obtain ⟨h5, _, h6, _⟩ := C16.lft_team_meets_requirements contractors hcs (spec v) (hneg v) (reqs v) h1 (index v) _ _ has
  exact ⟨_, ca.1, by simp only [LFT.choose, has], h5, h6⟩

/-- LFT on a just-in-time timeline: if every work can be staffed, a schedule with all works is returned. -/
theorem lft_delivers_jit (E : Env σ) (hsite : NoSiteLimits E) (hce : ChainEdges E) (contractors : List Contractor)
    (hcs : C16.SoundContractors contractors) (spec : Nat → WorkSpec)
    (hneg : ∀ v k n, (spec v).assigned.lookup k = some n → n ≠ -1) (reqs : Nat → List WorkerReq) (index : Nat → Nat → Nat)
    (hidx : ∀ v n, 0 < n → index v n < n) (independent : Nat → Bool) (parentTime : Int) (hP : 0 ≤ parentTime) (env : σ)
    (order : List Nat) (hest : ∀ v team, 0 ≤ E.estimate v team) (hchain : ∀ v, v ∈ E.chain v)
    (hstaff : ∀ v, Staffable contractors (spec v) (reqs v))
    (htopo : TopoList (fun v => (E.edgesTo v).map (·.1)) (order.flatMap E.chain)) :
    ∃ st, (∀ fuel, 1 ≤ fuel → JIT.build E (LFT.plan _ contractors spec reqs index independent parentTime)
        (LFT.agents contractors) env fuel order = some (some st)) ∧
      ∀ v ∈ order.flatMap E.chain, ∃ x, st.sched.get v = some x := by
  refine jit_delivers E hsite hce _ _ env order hest (fun v ts h => by simp [LFT.plan] at h) hchain hP
    (fun st v _ => ?_) (fun st v team c h => ?_) htopo
  · obtain ⟨team, c, h, _⟩ := lft_chooses_team contractors hcs spec hneg reqs index hidx v (hstaff v)
    exact ⟨team, c.id, h⟩
  · obtain ⟨team', c', h', hc, hm⟩ := lft_chooses_team contractors hcs spec hneg reqs index hidx v (hstaff v)
    simp only [LFT.plan, h', Option.some.injEq, Prod.mk.injEq] at h
    obtain ⟨rfl, _⟩ := h
    exact meets_ok hcs hc (hstaff v).1 (hstaff v).2.1 hm

/-- LFT on a momentum timeline: if every work can be staffed and the works of a chain ask for the same worker types as its
head (or for none), a schedule with all works is returned. -/
theorem lft_delivers_momentum (E : Env σ) (hsite : NoSiteLimits E) (contractors : List Contractor)
    (hcs : C16.SoundContractors contractors) (spec : Nat → WorkSpec)
    (hneg : ∀ v k n, (spec v).assigned.lookup k = some n → n ≠ -1) (reqs : Nat → List WorkerReq) (index : Nat → Nat → Nat)
    (hidx : ∀ v n, 0 < n → index v n < n) (independent : Nat → Bool) (parentTime inf : Int) (hP : 0 ≤ parentTime)
    (hinf : parentTime ≤ inf) (env : σ) (order : List Nat) (hest : ∀ v team, 0 ≤ E.estimate v team)
    (hkinds : ∀ v, E.kinds v = (reqs v).map (·.kind)) (hserv : ∀ v, reqs v ≠ [] → E.service v = false)
    (hchain : ∀ v ∈ order, ∃ l, E.chain v = v :: l) (hnd : ∀ v ∈ order, (E.chain v).Nodup)
    (hsame : ∀ v ∈ order, ∀ u ∈ E.chain v, E.kinds u = E.kinds v ∨ E.kinds u = [])
    (hstaff : ∀ v ∈ order, Staffable contractors (spec v) (reqs v)) :
    ∃ N st, (∀ fuelIn fuel, N ≤ fuelIn → 1 ≤ fuel →
        Momentum.build E (LFT.plan _ contractors spec reqs index independent parentTime) (LFT.agents contractors) env inf
          fuelIn fuel order = some (some st)) ∧
      ∀ v ∈ order.flatMap E.chain, ∃ x, st.sched.get v = some x := by
  refine momentum_delivers E hsite _ _ env inf order hest (fun v => rfl) hnd hP hinf fun st v hv => ?_
  obtain ⟨team, c, h, hc, hm⟩ := lft_chooses_team contractors hcs spec hneg reqs index hidx v (hstaff v hv)
  obtain ⟨h1, h2⟩ := meets_ok hcs hc (hstaff v hv).1 (hstaff v hv).2.1 hm
  obtain ⟨h3, h4⟩ := meets_names hm
  refine ⟨team, c.id, h, h1, h2, fun w hw w' hw' => by rw [h4 w hw, h4 w' hw'], fun hne => ?_⟩
  have hk : E.kinds v = team.map (·.name) := by rw [hkinds, h3]
  refine ⟨hchain v hv, hk, hserv v fun he => hne ?_, fun u hu => hk ▸ hsame v hv u hu⟩
  have := congrArg List.length h3
  rw [he] at this
  simpa using this

/-! ### The generic scheduler (HEFT and the topological scheduler) -/

/-- The optimizers of the schedulers answer when no count is fixed. -/
theorem optimizers_answer (fitness : List Int → Int) :
    Answers (Optimize.descentOptimize Optimize.dichotomyInt fitness) ∧ Answers (Optimize.fullScan fitness) ∧
    ∀ kn kd : Int, 0 < kd → kd ≤ kn → Answers (Optimize.averageReq kn kd) :=
  ⟨fun down up counts _ ho hl => (C29.coordinate_descent_within_borders fitness down up counts ho hl).1,
   fun down up counts _ ho hl => (C29.full_scan_within_borders fitness down up counts ho hl).1,
   fun kn kd h1 h2 down up counts hd ho hl => (C29.average_within_borders kn kd h1 h2 down up counts hd ho hl).1⟩

/-- Generic scheduler on a just-in-time timeline, whatever the optimizer asks and answers: if every work can be staffed and
the project surely ends before half of infinity, a schedule with all works is returned, and it ends by then. -/
theorem generic_delivers_jit (E : Env σ) (hsite : NoSiteLimits E)
    (hsite0 : ∀ s v t d, 0 ≤ t → 0 ≤ E.matTime s v t ∧ 0 ≤ E.zoneTime s v t d) (hce : ChainEdges E)
    (G : Generic.Setup (JIT.State σ)) (hG : Generic.Sound G) (order : List Nat) (L D : Int)
    (hbd : Generic.Bounded E G order L D) (env : σ) (hchain : ∀ v, v ∈ E.chain v)
    (hhor : 2 * (G.parentTime + (order.flatMap E.chain).length * (L + D)) < TIME_INF)
    (htopo : TopoList (fun v => (E.edgesTo v).map (·.1)) (order.flatMap E.chain)) :
    ∃ st, (∀ fuel, 1 ≤ fuel → JIT.build E (Generic.planJIT E G fuel) (LFT.agents G.contractors) env fuel order =
        some (some st)) ∧
      (∀ v ∈ order.flatMap E.chain, ∃ x, st.sched.get v = some x) ∧
      ∀ e ∈ st.sched, e.2.finish ≤ G.parentTime + (order.flatMap E.chain).length * (L + D) := by
  have h0 := hG.start
  obtain ⟨st, hb, h⟩ := Generic.jit_run (first := true) (st := ⟨JIT.init (LFT.agents G.contractors), env, []⟩) hG hsite hsite0 hce
    hbd hchain (order := order) (M := G.parentTime) (fun _ h => h)
    ⟨by
      intro a q hq r hr
      simp only [JIT.init, Option.map_eq_some_iff] at hq
      obtain ⟨c, _, rfl⟩ := hq
      simp at hr
      subst hr
      exact h0, by simp⟩ (Int.le_refl _) hhor (.inl ⟨rfl, rfl, rfl⟩) (topo_from htopo)
  refine ⟨st, fun fuel hf => ?_, fun v hv => ?_, hb.2⟩
  · obtain ⟨n, rfl⟩ : ∃ n, fuel = n + 1 := ⟨fuel - 1, by omega⟩
    exact h n
  · rw [get_isSome_iff, (JIT.buildFrom_run hbd.est0 (fun v ts hv => by simp [Generic.planJIT] at hv) (h 0)).works]
    simpa [Sched.works] using hv

/-- Generic scheduler on a momentum timeline: the same, if moreover the works of a chain ask for the same worker types as its
head, or for none. -/
theorem generic_delivers_momentum (E : Env σ) (hsite : NoSiteLimits E) (G : Generic.Setup (Momentum.State σ))
    (hG : Generic.Sound G) (order : List Nat) (L D : Int) (hbd : Generic.Bounded E G order L D) (env : σ) (inf : Int)
    (hinf : G.parentTime ≤ inf) (hty : Generic.Typed E G order)
    (hhor : 2 * (G.parentTime + (order.flatMap E.chain).length * (L + D)) < TIME_INF) :
    ∃ N st, (∀ fuelIn fuel, N ≤ fuelIn → 1 ≤ fuel →
        Momentum.build E (Generic.planMomentum E G inf fuelIn fuel) (LFT.agents G.contractors) env inf fuelIn fuel order =
          some (some st)) ∧
      ∀ v ∈ order.flatMap E.chain, ∃ x, st.sched.get v = some x := by
  have h0 := hG.start
  obtain ⟨N, st, -, h⟩ := Generic.momentum_run (first := true) (inf := inf)
    (st := ⟨Momentum.init (LFT.agents G.contractors), env, []⟩) hG hsite hbd hty (M := G.parentTime) (fun _ h => h)
    ⟨by
      intro a q hq r hr
      simp only [Momentum.init, Option.map_eq_some_iff] at hq
      obtain ⟨c, _, rfl⟩ := hq
      simp at hr
      subst hr
      exact h0, by simp⟩ (Int.le_refl _) hhor (.inl ⟨rfl, .fresh⟩)
  refine ⟨N, st, fun fuelIn fuel hN hf => ?_, fun v hv => ?_⟩
  · obtain ⟨n, rfl⟩ : ∃ n, fuel = n + 1 := ⟨fuel - 1, by omega⟩
    exact h fuelIn n hN
  · rw [get_isSome_iff, (Momentum.buildFrom_run hbd.est0 (fun v ts hv => by simp [Generic.planMomentum] at hv) h0 hinf
      (h N 0 (Nat.le_refl _))).works]
    simpa [Sched.works] using hv

/-! ### The restrictions matter -/

private def demoReqs (v : Nat) : List WorkerReq := if v = 0 ∨ v = 4 then [] else [⟨0, 1, 2⟩]

private def demoSetup (S : Type) : Generic.Setup S :=
  ⟨[⟨7, [(0, 3)]⟩, ⟨8, [(0, 1)]⟩], fun _ => ⟨[], []⟩, demoReqs, fun _ _ _ => Optimize.averageReq 1 1, fun _ => false, 5⟩

private def endlessEnv : Env Unit := { Demo.env with estimate := fun v _ => if v = 3 then 2000000000 else 1 }

/-- Not true without the bound on the horizon: if a work takes as long as `Time.inf()`, every contractor counts as unable and
the generic scheduler raises, while LFT, which does not ask for the finish, delivers. -/
theorem endless_work_fails :
    (JIT.build endlessEnv (Generic.planJIT endlessEnv (demoSetup _) 20) (LFT.agents (demoSetup Unit).contractors) () 20
      Demo.order).map Option.isSome = some false ∧
    (JIT.build endlessEnv (LFT.plan _ (demoSetup Unit).contractors (fun _ => ⟨[], []⟩) demoReqs (fun _ _ => 0) (fun _ => false) 5)
      (LFT.agents (demoSetup Unit).contractors) () 20 Demo.order).map Option.isSome = some true := by
  constructor <;> decide +kernel

/-- Not true without the condition on chain edges: if the edge inside an inseparable chain has a negative lag, the
just-in-time timeline raises. -/
theorem negative_chain_lag_fails :
    ∃ E : Env Unit, NoSiteLimits E ∧ E.chain 1 = [1, 2] ∧ E.insepParent 2 = some 1 ∧ (1, -1) ∈ E.edgesTo 2 ∧
      JIT.build E (Demo.plan _) Demo.pool () 20 [0, 1, 3, 4] = some none :=
  ⟨{ Demo.env with edgesTo := fun v => if v = 2 then [(1, -1)] else Demo.edges v },
    ⟨fun _ _ _ => Int.le_refl _, fun _ _ _ _ => Int.le_refl _, fun s _ t => ⟨s, t, rfl, Int.le_refl _⟩,
      fun s _ _ _ => ⟨s, rfl⟩, fun s => ⟨s, 0, rfl, Int.le_refl _⟩⟩, rfl, rfl, by simp, by rfl⟩

private def gapEnv : Env Unit where
  edgesTo := fun v => if v = 0 then [] else if v = 2 then [(0, 20)] else [(0, 0)]
  insepParent := fun _ => none
  chain := fun v => [v]
  service := fun v => v == 0
  kinds := fun v => if v = 0 then [] else [0]
  estimate := fun v _ => if v = 0 then 0 else if v = 3 then 5 else 10
  matTime := fun _ _ t => t
  zoneTime := fun _ _ t _ => t
  deliver := fun s _ t => some (s, t)
  occupy := fun s _ _ _ => some s
  finishZones := fun s => some (s, 0)

private def gapPlan (d : Int) : Plan (Momentum.State Unit) :=
  ⟨fun _ v => some (if v = 0 then [] else [⟨0, 0, 1⟩], 0), fun _ => false,
    fun v => if v = 3 then some fun _ => some (0, d) else none, 0⟩

/-- Not true with assigned durations: on a momentum timeline the slot is searched with the estimated duration; a longer
assigned duration does not fit into it and the scheduler raises.  With the estimate itself (5) the same project is
scheduled. -/
theorem assigned_duration_fails :
    ∃ (E : Env Unit) (P : Int → Plan (Momentum.State Unit)) (pool : AgentId → Option Int) (order : List Nat),
      NoSiteLimits E ∧ (∀ v team, 0 ≤ E.estimate v team) ∧
      (∃ st, Momentum.build E (P 5) pool () 1000 20 20 order = some (some st)) ∧
      Momentum.build E (P 15) pool () 1000 20 20 order = some none :=
  ⟨gapEnv, gapPlan, fun a => if a = (0, 0) then some 1 else none, [0, 1, 2, 3],
    ⟨fun _ _ _ => Int.le_refl _, fun _ _ _ _ => Int.le_refl _, fun s _ t => ⟨s, t, rfl, Int.le_refl _⟩,
      fun s _ _ _ => ⟨s, rfl⟩, fun s => ⟨s, 0, rfl, Int.le_refl _⟩⟩,
    by intro v team; simp only [gapEnv]; split <;> [skip; split] <;> omega, ⟨_, rfl⟩, by rfl⟩

/-! ### The demo project meets the hypotheses -/

private theorem demo_site : NoSiteLimits Demo.env :=
  ⟨fun _ _ _ => Int.le_refl _, fun _ _ _ _ => Int.le_refl _, fun s _ t => ⟨s, t, rfl, Int.le_refl _⟩,
    fun s _ _ _ => ⟨s, rfl⟩, fun s => ⟨s, 0, rfl, Int.le_refl _⟩⟩

private theorem demo_edges : ChainEdges Demo.env := by
  intro v p h
  simp only [Demo.env] at h
  split at h
  · rename_i hv
    subst hv
    simp at h
    exact ⟨0, Int.le_refl _, by subst h; simp [Demo.env, Demo.edges]⟩
  · simp at h

private theorem demo_staff (v : Nat) : Staffable [⟨7, [(0, 3)]⟩] ⟨[], []⟩ (demoReqs v) := by
  unfold demoReqs
  split
  · exact ⟨by simp [C16.SoundReqs], by simp, by simp, _, List.mem_cons_self .., .inl rfl, by simp⟩
  · refine ⟨by simp [C16.SoundReqs], by simp, by simp, _, List.mem_cons_self .., .inl rfl, ?_⟩
    intro r hr
    simp at hr
    subst hr
    exact ⟨3, rfl, by decide, by simp⟩

example : ∃ st, (∀ fuel, 1 ≤ fuel → JIT.build Demo.env (LFT.plan _ [⟨7, [(0, 3)]⟩] (fun _ => ⟨[], []⟩) demoReqs (fun _ _ => 0)
      (fun _ => false) 5) (LFT.agents [⟨7, [(0, 3)]⟩]) () fuel Demo.order = some (some st)) ∧
    ∀ v ∈ Demo.order.flatMap Demo.env.chain, ∃ x, st.sched.get v = some x :=
  lft_delivers_jit Demo.env demo_site demo_edges _ (by simp [C16.SoundContractors]) _ (by simp) _ _ (fun _ _ h => h) _ _
    (by decide) _ _ Demo.estimate_nonneg Demo.chain_self demo_staff Demo.topo

example : ∃ N st, (∀ fuelIn fuel, N ≤ fuelIn → 1 ≤ fuel →
      Momentum.build Demo.env (LFT.plan _ [⟨7, [(0, 3)]⟩] (fun _ => ⟨[], []⟩) demoReqs (fun _ _ => 0)
      (fun v => v == 3) 5) (LFT.agents [⟨7, [(0, 3)]⟩]) () 1000 fuelIn fuel Demo.order = some (some st)) ∧
    ∀ v ∈ Demo.order.flatMap Demo.env.chain, ∃ x, st.sched.get v = some x :=
  lft_delivers_momentum Demo.env demo_site _ (by simp [C16.SoundContractors]) _ (by simp) _ _ (fun _ _ h => h) _ _ _
    (by decide) (by decide) _ _ Demo.estimate_nonneg
    (by intro v; simp only [Demo.env, demoReqs]; split <;> rfl)
    (by
      intro v hv
      simp only [demoReqs] at hv
      simp only [Demo.env]
      by_cases h : v = 0 ∨ v = 4
      · simp [h] at hv
      · simp only [not_or] at h; simp [h.1, h.2])
    (by intro v _; simp only [Demo.env]; unfold Demo.chain; split <;> exact ⟨_, rfl⟩) (by decide) (by decide) (fun v _ => demo_staff v)

private theorem demo_sound (S : Type) : Generic.Sound (demoSetup S) where
  contractors := by simp [C16.SoundContractors, demoSetup]
  reqs := fun v => by simp only [demoSetup, demoReqs]; split <;> simp [C16.SoundReqs]
  kinds := fun v => by simp only [demoSetup, demoReqs]; split <;> simp
  free := fun _ => rfl
  opt := fun _ _ _ => ⟨(C16.optimizers_stay_within fun _ => 0).2.2 1 1 (by decide) (by decide),
    (optimizers_answer fun _ => 0).2.2 1 1 (by decide) (by decide)⟩
  able := fun v => by
    refine ⟨_, List.mem_cons_self .., .inl rfl, ?_⟩
    simp only [demoSetup, demoReqs, Generic.Able]
    split
    · simp
    · simp
  start := by simp [demoSetup]

private theorem demo_bounded (S : Type) : Generic.Bounded Demo.env (demoSetup S) Demo.order 2 40 where
  lag0 := by decide
  dur0 := by decide
  est0 := Demo.estimate_nonneg
  est := fun v hv c _ team _ u hu => by
    have : u ≤ 4 := by
      simp only [Demo.order, List.mem_cons, List.not_mem_nil, or_false] at hv
      rcases hv with rfl | rfl | rfl | rfl <;> simp [Demo.env, Demo.chain] at hu <;> omega
    simp only [Demo.env]
    split <;> omega
  lag := by decide

example : ∃ st, (∀ fuel, 1 ≤ fuel → JIT.build Demo.env (Generic.planJIT Demo.env (demoSetup _) fuel)
      (LFT.agents (demoSetup Unit).contractors) () fuel Demo.order = some (some st)) ∧
    (∀ v ∈ Demo.order.flatMap Demo.env.chain, ∃ x, st.sched.get v = some x) ∧
    ∀ e ∈ st.sched, e.2.finish ≤ 5 + 5 * (2 + 40) :=
  generic_delivers_jit Demo.env demo_site (fun _ _ _ _ h => ⟨h, h⟩) demo_edges _ (demo_sound _) Demo.order 2 40 (demo_bounded _) ()
    Demo.chain_self (by decide) Demo.topo

example : ∃ N st, (∀ fuelIn fuel, N ≤ fuelIn → 1 ≤ fuel →
      Momentum.build Demo.env (Generic.planMomentum Demo.env (demoSetup _) 1000 fuelIn fuel)
        (LFT.agents (demoSetup Unit).contractors) () 1000 fuelIn fuel Demo.order = some (some st)) ∧
    ∀ v ∈ Demo.order.flatMap Demo.env.chain, ∃ x, st.sched.get v = some x :=
  generic_delivers_momentum Demo.env demo_site _ (demo_sound _) Demo.order 2 40 (demo_bounded _) () 1000 (by decide)
    ⟨by intro v; simp only [Demo.env, demoSetup, demoReqs]; split <;> rfl,
     by
      intro v hv
      simp only [demoSetup, demoReqs] at hv
      simp only [Demo.env]
      by_cases h : v = 0 ∨ v = 4
      · simp [h] at hv
      · simp only [not_or] at h; simp [h.1, h.2],
     by intro v _; simp only [Demo.env]; unfold Demo.chain; split <;> exact ⟨_, rfl⟩, by decide, by decide⟩ (by decide)

end Sampo.C54
