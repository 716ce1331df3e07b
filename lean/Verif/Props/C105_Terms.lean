import Verif.Lemmas.Terms
import Verif.Props.C103_ExclusiveWorks

/-!
# C105: the terms a user gives are kept in the whole schedule
-/

namespace Sampo.C105
open Scheduler OnGraph ScheduleSpec
open C22 (WorkGraph)
open C89 (OnlyDependencies GivesGoodOrders GoodOrder)

variable {σ : Type} {g : Graph} {nodes : List Nat}

/-! ### What the calls on a specification say -/

private theorem get_change (s : ScheduleSpec) (w v : Nat) (f : WorkTerms → WorkTerms) :
    (s.change w f).get v = if v = w then f (s.get w) else s.get v := by
  unfold change ScheduleSpec.get
  rw [List.lookup_cons]
  by_cases h : v = w
  · simp [h]
  · have : (v == w) = false := by simpa using h
    rw [this, if_neg h]

private theorem ofCalls_append (a b : List Call) : ofCalls (a ++ b) = b.foldl apply (ofCalls a) := List.foldl_append

private theorem keep {α : Type} (field : WorkTerms → α) (sets : Call → Prop) (w : Nat)
    (hstep : ∀ s c, ¬ sets c → field ((apply s c).get w) = field (s.get w)) :
    ∀ (post : List Call) (s : ScheduleSpec), (∀ c ∈ post, ¬ sets c) → field ((post.foldl apply s).get w) = field (s.get w)
  | [], _, _ => rfl
  | c :: post, s, h => by
    rw [List.foldl_cons, keep field sets w hstep post _ fun c hc => h c (List.mem_cons_of_mem _ hc)]
    exact hstep s c (h c List.mem_cons_self)

private theorem keep_time (w : Nat) (s : ScheduleSpec) (c : Call) (h : ¬ c.setsTime w) :
    ((apply s c).get w).time = (s.get w).time := by
  cases c <;> simp only [apply, get_change] <;> split <;> simp_all [Call.setsTime]

private theorem keep_workers (w : Nat) (s : ScheduleSpec) (c : Call) (h : ¬ c.setsWorkers w) :
    ((apply s c).get w).workers = (s.get w).workers := by
  cases c <;> simp only [apply, get_change] <;> split <;> simp_all [Call.setsWorkers]

private theorem keep_contractors (w : Nat) (s : ScheduleSpec) (c : Call) (h : ¬ c.setsContractors w) :
    ((apply s c).get w).contractors = (s.get w).contractors := by
  cases c <;> simp only [apply, get_change] <;> split <;> simp_all [Call.setsContractors]

private theorem keep_independent (w : Nat) (s : ScheduleSpec) (c : Call) (h : ¬ c.setsIndependent w) :
    ((apply s c).get w).independent = (s.get w).independent := by
  cases c <;> simp only [apply, get_change] <;> split <;> simp_all [Call.setsIndependent]

/-- A work nobody spoke about has no terms: any contractor, any team, no time, not independent; more precisely each field is
untouched by calls that do not set it. -/
theorem untouched_terms (calls : List Call) (w : Nat) :
    ((∀ c ∈ calls, ¬ c.setsTime w) → ((ofCalls calls).get w).time = none) ∧
    ((∀ c ∈ calls, ¬ c.setsWorkers w) → ((ofCalls calls).get w).workers = []) ∧
    ((∀ c ∈ calls, ¬ c.setsContractors w) → ((ofCalls calls).get w).contractors = []) ∧
    ((∀ c ∈ calls, ¬ c.setsIndependent w) → ((ofCalls calls).get w).independent = false) :=
  ⟨keep (·.time) _ w (keep_time w) calls [], keep (·.workers) _ w (keep_workers w) calls [],
   keep (·.contractors) _ w (keep_contractors w) calls [], keep (·.independent) _ w (keep_independent w) calls []⟩

/-- The last call that sets a field of a work decides it, whatever was called before, and whatever is called later for other works
or other fields. -/
theorem last_call_decides (pre post : List Call) (w : Nat) :
    (∀ t, (∀ c ∈ post, ¬ c.setsTime w) → ((ofCalls (pre ++ .setExecTime w t :: post)).get w).time = some t) ∧
    (∀ d, (∀ c ∈ post, ¬ c.setsWorkers w) → ((ofCalls (pre ++ .assignWorkersDict w d :: post)).get w).workers = d) ∧
    (∀ team, (∀ c ∈ post, ¬ c.setsWorkers w) →
      ((ofCalls (pre ++ .assignWorkers w team :: post)).get w).workers = countsOf team) ∧
    (∀ l, (∀ c ∈ post, ¬ c.setsContractors w) → ((ofCalls (pre ++ .assignContractors w l :: post)).get w).contractors = l) ∧
    (∀ b, (∀ c ∈ post, ¬ c.setsIndependent w) → ((ofCalls (pre ++ .setIndependent w b :: post)).get w).independent = b) := by
  simp only [ofCalls_append, List.foldl_cons]
  refine ⟨fun t h => ?_, fun t h => ?_, fun t h => ?_, fun t h => ?_, fun t h => ?_⟩
  · rw [keep (·.time) _ w (keep_time w) post _ h]; simp [apply, get_change]
  · rw [keep (·.workers) _ w (keep_workers w) post _ h]; simp [apply, get_change]
  · rw [keep (·.workers) _ w (keep_workers w) post _ h]; simp [apply, get_change]
  · rw [keep (·.contractors) _ w (keep_contractors w) post _ h]; simp [apply, get_change]
  · rw [keep (·.independent) _ w (keep_independent w) post _ h]; simp [apply, get_change]

private theorem dictSet_spec (k : Nat) (n : Int) : ∀ d : List (Nat × Int),
    (∀ k', (dictSet d k n).lookup k' = if k' = k then some n else d.lookup k') ∧
    (∀ k', k' ∈ (dictSet d k n).map (·.1) ↔ k' = k ∨ k' ∈ d.map (·.1)) ∧
    ((d.map (·.1)).Nodup → ((dictSet d k n).map (·.1)).Nodup)
  | [] => by
    refine ⟨fun k' => ?_, by simp [dictSet], by simp [dictSet]⟩
    by_cases h : k' = k
    · simp [dictSet, h]
    · have : (k' == k) = false := by simpa using h
      simp [dictSet, List.lookup_cons, this, h]
  | (a, b) :: d => by
    obtain ⟨h1, h2, h3⟩ := dictSet_spec k n d
    unfold dictSet
    split
    · rename_i h
      subst h
      refine ⟨fun k' => ?_, fun k' => by simp, fun h => h⟩
      simp only [List.lookup_cons]
      by_cases h : k' = a
      · simp [h]
      · have : (k' == a) = false := by simpa using h
        simp [this, h]
    · rename_i h
      refine ⟨fun k' => ?_, fun k' => ?_, fun hnd => ?_⟩
      · simp only [List.lookup_cons]
        by_cases h' : k' = a
        · subst h'; simp [show ¬ k' = k from h]
        · have : (k' == a) = false := by simpa using h'
          rw [this, h1]
      · simp only [List.map_cons, List.mem_cons, h2]
        tauto
      · simp only [List.map_cons, List.nodup_cons] at hnd ⊢
        refine ⟨fun hm => ?_, h3 hnd.2⟩
        rcases (h2 a).1 hm with hm | hm
        · exact h hm
        · exact hnd.1 hm

/-- A team given as a list of workers becomes one number per worker type: that of the last worker entry of the type. -/
theorem team_as_counts (team : List Worker) : ((countsOf team).map (·.1)).Nodup ∧
    ∀ k, (countsOf team).lookup k = (team.reverse.find? fun w => w.name = k).map (·.count) := by
  suffices h : ∀ (d : List (Nat × Int)), (d.map (·.1)).Nodup →
      ((team.foldl (fun d w => dictSet d w.name w.count) d).map (·.1)).Nodup ∧
      ∀ k, (team.foldl (fun d w => dictSet d w.name w.count) d).lookup k =
        ((team.reverse.find? fun w => w.name = k).map (·.count)).or (d.lookup k) by
    obtain ⟨h1, h2⟩ := h [] (by simp)
    exact ⟨h1, fun k => by rw [countsOf, h2 k]; simp⟩
  induction team with
  | nil => intro d h; exact ⟨h, by simp⟩
  | cons w team ih =>
    intro d h
    obtain ⟨s1, s2, s3⟩ := dictSet_spec w.name w.count d
    obtain ⟨h1, h2⟩ := ih _ (s3 h)
    refine ⟨h1, fun k => ?_⟩
    rw [List.foldl_cons, h2 k, s1, List.reverse_cons, List.find?_append]
    cases team.reverse.find? fun w => w.name = k with
    | some x => simp
    | none =>
      by_cases hk : k = w.name
      · subst hk; simp
      · simp [hk, Ne.symm hk]

/-! ### Schedules keep the terms -/

/-- The contractor and the team are as the terms of the work say. -/
private def Suits (reqs : Nat → List WorkerReq) (terms : Nat → WorkTerms) (v : Nat) (team : List Worker)
    (cid : Nat) : Prop :=
  ((terms v).contractors ≠ [] → cid ∈ (terms v).contractors) ∧ team.map (·.name) = (reqs v).map (·.kind) ∧
    (∀ w ∈ team, w.contractor = cid) ∧ ∀ w ∈ team, ∀ n, (terms v).workers.lookup w.name = some n → w.count = n

private theorem keeps_of {site : Env σ} (hw : WorkGraph g nodes) {reqs : Nat → List WorkerReq} {s : ScheduleSpec} {sw : Sched}
    {share : Int → Int → Int → Int} {volume : Nat → Int} {order : List Nat} (ho : GoodOrder g nodes order)
    (hst : ∀ v ∈ order, ∀ u ∈ (onGraph site g nodes).chain v, ∃ x, sw.get u = some x ∧ Suits reqs s.get v x.team x.contractor)
    (hdur : ∀ v ∈ order, ∀ ts, Assigned.ofSpec share volume (onGraph site g nodes).chain s v = some ts →
      ∀ u ∈ (onGraph site g nodes).chain v, ∀ l d, ts u = some (l, d) → ∃ x, sw.get u = some x ∧ x.finish = x.start + d) :
    KeepsTerms g nodes reqs s.get sw := by
  have hnd : (order.flatMap (onGraph site g nodes).chain).Nodup := (Expand.perm hw ho.1 ho.2.1).nodup_iff.2 hw.once
  refine ⟨fun k v x hk hv hx => ?_, fun k v x hk hv hx => ?_, fun k T hk hT l hl hm => ?_⟩
  · obtain ⟨y, hy, h, -⟩ := hst k ((ho.2.1 k).2 hk) v ((Heads.mem_chain hw.ok hk).2 hv)
    rw [hx, Option.some.injEq] at hy
    subst hy
    exact h
  · obtain ⟨y, hy, -, h⟩ := hst k ((ho.2.1 k).2 hk) v ((Heads.mem_chain hw.ok hk).2 hv)
    rw [hx, Option.some.injEq] at hy
    subst hy
    exact h
  · have hko := (ho.2.1 k).2 hk
    have hc : ((onGraph site g nodes).chain k).Nodup := by rw [List.nodup_flatMap] at hnd; exact hnd.1 k hko
    have hp : l.Perm ((onGraph site g nodes).chain k) := by
      rw [List.perm_ext_iff_of_nodup hl hc]
      exact fun v => (hm v).trans (Heads.mem_chain hw.ok hk).symm
    rw [(hp.map sw.duration).sum_eq]
    exact durations_sum (share := share) (volume := volume) hc (List.ne_nil_of_mem (Expand.head_mem_chain k))
      (hdur k hko _ (by simp only [Assigned.ofSpec, hT, Option.map_some]))

private theorem times_ok {share : Int → Int → Int → Int} (hs : C13.FairShare share) {volume : Nat → Int} (hv : ∀ v, 0 ≤ volume v)
    {s : ScheduleSpec} (hT : ∀ v T, (s.get v).time = some T → 0 ≤ T) {chain : Nat → List Nat} (v : Nat) (ts : ExecTimes)
    (h : Assigned.ofSpec share volume chain s v = some ts) : NonNegTimes ts := by
  simp only [Assigned.ofSpec, Option.map_eq_some_iff] at h
  obtain ⟨T, h, rfl⟩ := h
  exact Assigned.timesFor_nonneg hs hv (hT v T h) _

private theorem lft_suits {contractors : List Contractor} (hcs : C16.SoundContractors contractors) {s : ScheduleSpec}
    (hneg : ∀ v k n, (s.get v).workers.lookup k = some n → n ≠ -1) {reqs : Nat → List WorkerReq}
    (hreqs : ∀ v, C16.SoundReqs (reqs v)) {index : Nat → Nat → Nat} {v : Nat} {team : List Worker} {cid : Nat}
    (h : LFT.choose contractors (fun v => (s.get v).spec) reqs index v = some (team, cid)) :
    Suits reqs s.get v team cid := by
  unfold LFT.choose at h
  split at h
  · rename_i ct hct
    simp only [Option.some.injEq, Prod.mk.injEq] at h
    obtain ⟨rfl, rfl⟩ := h
    obtain ⟨-, h2, h3, h4⟩ := C16.lft_team_meets_requirements contractors hcs _ (hneg v) (reqs v) (hreqs v) (index v) ct.1 ct.2 hct
    obtain ⟨n1, n2⟩ := meets_names h3
    exact ⟨fun hne => h2.resolve_left hne, n1, n2, h4⟩
  · simp at h

/-- LFT on a just-in-time timeline: whatever the graph, order, landscape, contractors and specification, a schedule that is returned
is valid, keeps the terms, and independent works have their workers for themselves. -/
theorem lft_jit_keeps_terms (hw : WorkGraph g nodes) (hdep : OnlyDependencies g) (site : Env σ)
    (hest : ∀ v team, 0 ≤ site.estimate v team) (rule : Rule) (hrule : GivesGoodOrders rule g nodes) (contractors : List Contractor)
    (hcs : C16.SoundContractors contractors) (s : ScheduleSpec) (hneg : ∀ v k n, (s.get v).workers.lookup k = some n → n ≠ -1)
    (hT : ∀ v T, (s.get v).time = some T → 0 ≤ T)
    (reqs : Nat → List WorkerReq) (hreqs : ∀ v, C16.SoundReqs (reqs v)) (hkinds : ∀ v, ((reqs v).map (·.kind)).Nodup)
    (index : Nat → Nat → Nat) (parentTime : Int) (hP : 0 ≤ parentTime) (share : Int → Int → Int → Int) (hs : C13.FairShare share)
    (volume : Nat → Int) (hv : ∀ v, 0 ≤ volume v) (env : σ) (fuel : Nat) (st : JIT.State σ)
    (h : scheduleJIT site rule g nodes (LFT.planWith _ contractors s reqs index parentTime share volume (onGraph site g nodes).chain)
      (LFT.agents contractors) env fuel = some (some st)) :
    KeepsTerms g nodes reqs s.get st.sched ∧ Exclusive g nodes (fun v => (s.get v).independent) st.sched ∧
    Feasible g nodes (LFT.agents contractors) (C89.Staffs contractors (fun v => (s.get v).spec) reqs) st.sched := by
  have hts : ∀ v ts, (LFT.planWith (JIT.State σ) contractors s reqs index parentTime share volume
      (onGraph site g nodes).chain).assignedTimes v = some ts → NonNegTimes ts := fun v ts => times_ok hs hv hT v ts
  have hch : ∀ (st : JIT.State σ) v team c, (LFT.planWith (JIT.State σ) contractors s reqs index parentTime share volume
      (onGraph site g nodes).chain).choose st v = some (team, c) →
      C89.Staffs contractors (fun v => (s.get v).spec) reqs v team c :=
    fun _ v team c hc => lft_staffs contractors hcs (fun v => (s.get v).spec) hneg reqs hreqs index hc
  refine ⟨?_, C103.jit_independent_exclusive hw site hest rule hrule _ hts hP _
    (fun s' v team c hc => staffs_ok hcs hreqs hkinds v team c (hch s' v team c hc)) env fuel st h,
    C89.jit_feasible hw hdep site hest rule hrule _ hts hP _ _ (staffs_ok hcs hreqs hkinds) hch env fuel st h⟩
  unfold scheduleJIT at h
  split at h
  · simp at h
  · rename_i order horder
    have ho := hrule order horder
    have hnd : (order.flatMap (onGraph site g nodes).chain).Nodup := (Expand.perm hw ho.1 ho.2.1).nodup_iff.2 hw.once
    exact keeps_of hw ho
      (JIT.buildFrom_staffed (E := onGraph site g nodes) (fun _ v team c hc => lft_suits hcs hneg hreqs hc) hest hts hnd h)
      (JIT.buildFrom_durations (E := onGraph site g nodes) hest hts hnd h)

/-- If moreover every work can be staffed, chains do not depend on each other in a cycle and there are no limits of materials and
zones, a schedule is returned, whatever times are given. -/
theorem lft_jit_schedules_to_terms (hw : WorkGraph g nodes) (hdep : OnlyDependencies g)
    (hpos : ∀ v, ∀ e ∈ g.edgesTo v, e.type = .inseparable → 0 ≤ e.lag) (site : Env σ) (hsite : NoSiteLimits site)
    (hest : ∀ v team, 0 ≤ site.estimate v team) (rule : Rule) (hrule : GivesGoodOrders rule g nodes)
    (hans : ∃ order, orderWorks rule g nodes = some order) (contractors : List Contractor)
    (hcs : C16.SoundContractors contractors) (s : ScheduleSpec) (hneg : ∀ v k n, (s.get v).workers.lookup k = some n → n ≠ -1)
    (hT : ∀ v T, (s.get v).time = some T → 0 ≤ T) (reqs : Nat → List WorkerReq)
    (hstaff : ∀ v, C54.Staffable contractors (s.get v).spec (reqs v)) (index : Nat → Nat → Nat)
    (hidx : ∀ v n, 0 < n → index v n < n) (parentTime : Int) (hP : 0 ≤ parentTime) (share : Int → Int → Int → Int)
    (hs : C13.FairShare share) (volume : Nat → Int) (hv : ∀ v, 0 ≤ volume v) (env : σ) :
    ∃ st, (∀ fuel, 1 ≤ fuel → scheduleJIT site rule g nodes
        (LFT.planWith _ contractors s reqs index parentTime share volume (onGraph site g nodes).chain)
        (LFT.agents contractors) env fuel = some (some st)) ∧
      KeepsTerms g nodes reqs s.get st.sched ∧ Exclusive g nodes (fun v => (s.get v).independent) st.sched ∧
      Feasible g nodes (LFT.agents contractors) (C89.Staffs contractors (fun v => (s.get v).spec) reqs) st.sched := by
  obtain ⟨order, horder⟩ := hans
  have ho := hrule order horder
  obtain ⟨-, e2, -⟩ := expand hw hdep site ho
  obtain ⟨st, h, -⟩ := C54.jit_delivers (onGraph site g nodes) (noSite hsite) (chainEdges site hpos)
    (LFT.planWith _ contractors s reqs index parentTime share volume (onGraph site g nodes).chain) (LFT.agents contractors) env order
    hest (fun v ts => times_ok hs hv hT v ts) (fun v => Expand.head_mem_chain v) hP
    (fun st v _ => by
      obtain ⟨team, c, h, -⟩ := C54.lft_chooses_team contractors hcs (fun v => (s.get v).spec) hneg reqs index hidx v (hstaff v)
      exact ⟨team, c.id, h⟩)
    (fun st v team c hc => staffs_ok hcs (fun v => (hstaff v).1) (fun v => (hstaff v).2.1) v team c
      (lft_staffs contractors hcs (fun v => (s.get v).spec) hneg reqs (fun v => (hstaff v).1) index hc)) e2
  have hs' : ∀ fuel, 1 ≤ fuel → scheduleJIT site rule g nodes
      (LFT.planWith _ contractors s reqs index parentTime share volume (onGraph site g nodes).chain)
      (LFT.agents contractors) env fuel = some (some st) := by
    intro fuel hf
    simp only [scheduleJIT, horder]
    exact h fuel hf
  exact ⟨st, hs', lft_jit_keeps_terms hw hdep site hest rule hrule contractors hcs s hneg hT reqs (fun v => (hstaff v).1)
    (fun v => (hstaff v).2.1) index parentTime hP share hs volume hv env 1 st (hs' 1 (Nat.le_refl _))⟩

/-- LFT on a momentum timeline: a schedule that is returned keeps the terms. -/
theorem lft_momentum_keeps_terms (hw : WorkGraph g nodes) (site : Env σ)
    (hest : ∀ v team, 0 ≤ site.estimate v team) (rule : Rule) (hrule : GivesGoodOrders rule g nodes) (contractors : List Contractor)
    (hcs : C16.SoundContractors contractors) (s : ScheduleSpec) (hneg : ∀ v k n, (s.get v).workers.lookup k = some n → n ≠ -1)
    (hT : ∀ v T, (s.get v).time = some T → 0 ≤ T) (reqs : Nat → List WorkerReq) (hreqs : ∀ v, C16.SoundReqs (reqs v))
    (index : Nat → Nat → Nat) (parentTime inf : Int) (hP : 0 ≤ parentTime) (hinf : parentTime ≤ inf)
    (share : Int → Int → Int → Int) (hs : C13.FairShare share) (volume : Nat → Int) (hv : ∀ v, 0 ≤ volume v) (env : σ)
    (fuelIn fuel : Nat) (st : Momentum.State σ)
    (h : scheduleMomentum site rule g nodes
      (LFT.planWith _ contractors s reqs index parentTime share volume (onGraph site g nodes).chain)
      (LFT.agents contractors) env inf fuelIn fuel = some (some st)) : KeepsTerms g nodes reqs s.get st.sched := by
  have hts : ∀ v ts, (LFT.planWith (Momentum.State σ) contractors s reqs index parentTime share volume
      (onGraph site g nodes).chain).assignedTimes v = some ts → NonNegTimes ts := fun v ts => times_ok hs hv hT v ts
  unfold scheduleMomentum at h
  split at h
  · simp at h
  · rename_i order horder
    have ho := hrule order horder
    have hnd : (order.flatMap (onGraph site g nodes).chain).Nodup := (Expand.perm hw ho.1 ho.2.1).nodup_iff.2 hw.once
    exact keeps_of hw ho
      (Momentum.buildFrom_staffed (E := onGraph site g nodes) (fun _ v team c hc => lft_suits hcs hneg hreqs hc) hest hts hP hinf hnd h)
      (Momentum.buildFrom_durations (E := onGraph site g nodes) hest hts hP hinf hnd h)

private theorem generic_suits {S : Type} {G : Generic.Setup S} (hcs : C16.SoundContractors G.contractors)
    (hreqs : ∀ v, C16.SoundReqs (G.reqs v)) (hopt : ∀ st v c, StaysWithin (G.opt st v c)) {s : ScheduleSpec}
    (hfix : ∀ v, (s.get v).workers = [] ∨ (s.get v).workers.length = (G.reqs v).length)
    {find : S → Nat → List Worker → Option (Int × Int)} (hfind : ∀ st v t a f, find st v t = some (a, f) → IsTime f)
    {st : S} {v : Nat} {team : List Worker} {cid : Nat}
    (h : Generic.choose (Generic.setupWith G s) find st v = some (team, cid)) : Suits G.reqs s.get v team cid := by
  obtain ⟨a, f, k, hr, rfl⟩ := Generic.choose_search h
  rcases hfix v with hf | hf
  · obtain ⟨-, h2, h3⟩ := C16.chosen_team_meets_requirements G.contractors hcs _ _ (hreqs v) (s.get v).spec hf _
      (fun c => hopt st v c) _ (fun c t a f h => hfind st v t a f h) a f k team hr
    obtain ⟨n1, n2⟩ := meets_names h3
    exact ⟨fun hne => h2.resolve_left hne, n1, n2, fun w _ n hn => by rw [hf] at hn; simp at hn⟩
  · obtain ⟨-, h2, h3, h4⟩ := C16.fully_fixed_team_partial G.contractors _ _ (s.get v).spec hf _ _
      (fun c t a f h => hfind st v t a f h) a f k team hr
    have hn : ∀ {l : List WorkerReq} {t : List Worker}, List.Forall₂ (fun (r : WorkerReq) (w : Worker) => w.name = r.kind ∧
        w.contractor = k.id ∧ (s.get v).spec.assigned.lookup r.kind = some w.count) l t →
        t.map (·.name) = l.map (·.kind) ∧ ∀ w ∈ t, w.contractor = k.id := by
      intro l t h
      induction h with
      | nil => simp
      | cons hd _ ih => simp [hd.1, hd.2.1, ih.1]; exact ih.2
    obtain ⟨n1, n2⟩ := hn h4
    exact ⟨fun hne => h2.resolve_left hne, n1, n2, h3⟩

/-- HEFT and the topological schedulers on a just-in-time timeline: a schedule that is returned keeps the terms, if for each work
either all numbers of workers are given or none.  (If only some are given, given numbers can be overwritten:
`C16.fixed_count_overwritten`.) -/
theorem generic_jit_keeps_terms_partial (hw : WorkGraph g nodes) (site : Env σ)
    (hest : ∀ v team, 0 ≤ site.estimate v team) (rule : Rule) (hrule : GivesGoodOrders rule g nodes)
    (G : Generic.Setup (JIT.State σ)) (hcs : C16.SoundContractors G.contractors) (hreqs : ∀ v, C16.SoundReqs (G.reqs v))
    (hopt : ∀ st v c, StaysWithin (G.opt st v c)) (s : ScheduleSpec)
    (hfix : ∀ v, (s.get v).workers = [] ∨ (s.get v).workers.length = (G.reqs v).length)
    (hT : ∀ v T, (s.get v).time = some T → 0 ≤ T) (share : Int → Int → Int → Int) (hs : C13.FairShare share) (volume : Nat → Int)
    (hv : ∀ v, 0 ≤ volume v) (pool : AgentId → Option Int) (env : σ) (fuel : Nat) (st : JIT.State σ)
    (h : scheduleJIT site rule g nodes (Generic.planJITWith (onGraph site g nodes) G s fuel share volume) pool env fuel =
      some (some st)) : KeepsTerms g nodes G.reqs s.get st.sched := by
  have hts : ∀ v ts, (Generic.planJITWith (onGraph site g nodes) G s fuel share volume).assignedTimes v = some ts →
      NonNegTimes ts := fun v ts => times_ok hs hv hT v ts
  unfold scheduleJIT at h
  split at h
  · simp at h
  · rename_i order horder
    have ho := hrule order horder
    have hnd : (order.flatMap (onGraph site g nodes).chain).Nodup := (Expand.perm hw ho.1 ho.2.1).nodup_iff.2 hw.once
    exact keeps_of hw ho
      (JIT.buildFrom_staffed (E := onGraph site g nodes) (fun st v team c hc => generic_suits hcs hreqs hopt hfix
        (fun st v t a f hf => Generic.jit_time st v t a f hf) hc) hest hts hnd h)
      (JIT.buildFrom_durations (E := onGraph site g nodes) hest hts hnd h)

/-- HEFT and the topological schedulers on a just-in-time timeline, if no numbers of workers are given: a schedule that is returned is
moreover valid, and independent works have their workers for themselves.  (Given numbers are not compared with what the contractor
owns: `C16.fixed_counts_ignore_limits`.) -/
theorem generic_jit_valid_partial (hw : WorkGraph g nodes) (hdep : OnlyDependencies g) (site : Env σ)
    (hest : ∀ v team, 0 ≤ site.estimate v team) (rule : Rule) (hrule : GivesGoodOrders rule g nodes)
    (G : Generic.Setup (JIT.State σ)) (hcs : C16.SoundContractors G.contractors) (hreqs : ∀ v, C16.SoundReqs (G.reqs v))
    (hkinds : ∀ v, ((G.reqs v).map (·.kind)).Nodup) (hopt : ∀ st v c, StaysWithin (G.opt st v c)) (hP : 0 ≤ G.parentTime)
    (s : ScheduleSpec) (hfix : ∀ v, (s.get v).workers = [])
    (hT : ∀ v T, (s.get v).time = some T → 0 ≤ T) (share : Int → Int → Int → Int) (hs : C13.FairShare share) (volume : Nat → Int)
    (hv : ∀ v, 0 ≤ volume v) (env : σ) (fuel : Nat) (st : JIT.State σ)
    (h : scheduleJIT site rule g nodes (Generic.planJITWith (onGraph site g nodes) G s fuel share volume) (LFT.agents G.contractors) env
      fuel = some (some st)) :
    Exclusive g nodes (fun v => (s.get v).independent) st.sched ∧
    Feasible g nodes (LFT.agents G.contractors) (C89.Staffs G.contractors (fun v => (s.get v).spec) G.reqs) st.sched := by
  have hts : ∀ v ts, (Generic.planJITWith (onGraph site g nodes) G s fuel share volume).assignedTimes v = some ts →
      NonNegTimes ts := fun v ts => times_ok hs hv hT v ts
  have hch : ∀ (st : JIT.State σ) v team c, (Generic.planJITWith (onGraph site g nodes) G s fuel share volume).choose st v =
      some (team, c) → C89.Staffs G.contractors (fun v => (s.get v).spec) G.reqs v team c := by
    intro st v team c hc
    obtain ⟨a, f, k, hr, rfl⟩ := Generic.choose_search hc
    obtain ⟨h1, h2, h3⟩ := C16.chosen_team_meets_requirements G.contractors hcs _ _ (hreqs v) (s.get v).spec (hfix v) _
      (fun c => hopt st v c) _ (fun c t a f h => Generic.jit_time st v t a f h) a f k team hr
    exact ⟨k, h1, rfl, h2, h3⟩
  exact ⟨C103.jit_independent_exclusive hw site hest rule hrule _ hts hP _
    (fun s' v team c hc => staffs_ok hcs hreqs hkinds v team c (hch s' v team c hc)) env fuel st h,
    C89.jit_feasible hw hdep site hest rule hrule _ hts hP _ _ (staffs_ok hcs hreqs hkinds) hch env fuel st h⟩

/-- The same on a momentum timeline. -/
theorem generic_momentum_keeps_terms_partial (hw : WorkGraph g nodes) (site : Env σ)
    (hest : ∀ v team, 0 ≤ site.estimate v team) (rule : Rule) (hrule : GivesGoodOrders rule g nodes)
    (G : Generic.Setup (Momentum.State σ)) (hcs : C16.SoundContractors G.contractors) (hreqs : ∀ v, C16.SoundReqs (G.reqs v))
    (hopt : ∀ st v c, StaysWithin (G.opt st v c)) (hP : 0 ≤ G.parentTime) (s : ScheduleSpec)
    (hfix : ∀ v, (s.get v).workers = [] ∨ (s.get v).workers.length = (G.reqs v).length)
    (hT : ∀ v T, (s.get v).time = some T → 0 ≤ T) (share : Int → Int → Int → Int) (hs : C13.FairShare share) (volume : Nat → Int)
    (hv : ∀ v, 0 ≤ volume v) (pool : AgentId → Option Int) (env : σ) (inf : Int) (hinf : G.parentTime ≤ inf) (fuelIn fuel : Nat)
    (st : Momentum.State σ)
    (h : scheduleMomentum site rule g nodes (Generic.planMomentumWith (onGraph site g nodes) G s inf fuelIn fuel share volume) pool env
      inf fuelIn fuel = some (some st)) : KeepsTerms g nodes G.reqs s.get st.sched := by
  have hts : ∀ v ts, (Generic.planMomentumWith (onGraph site g nodes) G s inf fuelIn fuel share volume).assignedTimes v = some ts →
      NonNegTimes ts := fun v ts => times_ok hs hv hT v ts
  unfold scheduleMomentum at h
  split at h
  · simp at h
  · rename_i order horder
    have ho := hrule order horder
    have hnd : (order.flatMap (onGraph site g nodes).chain).Nodup := (Expand.perm hw ho.1 ho.2.1).nodup_iff.2 hw.once
    exact keeps_of hw ho
      (Momentum.buildFrom_staffed (E := onGraph site g nodes) (fun st v team c hc => generic_suits hcs hreqs hopt hfix
        (fun st v t a f hf => Generic.momentum_time st v t a f hf) hc) hest hts hP hinf
        hnd h)
      (Momentum.buildFrom_durations (E := onGraph site g nodes) hest hts hP hinf hnd h)

/-! ### A concrete project: start 0, the inseparable works 1 and 2, work 3, finish 4 -/

private def edges : List Edge := [⟨0, 1, 0, .finishStart⟩, ⟨1, 2, 0, .inseparable⟩, ⟨0, 3, 0, .finishStart⟩, ⟨2, 4, 0, .finishStart⟩,
  ⟨3, 4, 0, .finishStart⟩]
private def demo : Graph := Graph.ofEdges edges
private def works : List Nat := [0, 1, 2, 3, 4]
private def reqs (v : Nat) : List WorkerReq := if v = 1 ∨ v = 2 ∨ v = 3 then [⟨0, 1, 4⟩] else []
private def site : Env Unit :=
  { Demo.env with kinds := fun v => (reqs v).map (·.kind), service := fun v => v == 0 || v == 4,
                  estimate := fun _ team => if team = [] then 0 else 5 }
private def contractors : List Contractor := [⟨7, [(0, 5)]⟩, ⟨8, [(0, 5)]⟩]
private def rule : Rule := lftRule (fun v => v) fun _ => 1
/-- Contractor 8 with two workers does works 1 and 2 in 20 units; work 3 is independent; later calls replace earlier ones. -/
private def spec : ScheduleSpec := ofCalls [.setExecTime 1 30, .assignContractors 1 [8], .assignWorkers 1 [⟨8, 0, 2⟩],
  .setExecTime 1 20, .setIndependent 3 true, .assignContractors 3 [8]]
private def volume (v : Nat) : Int := v
private def plan (s : ScheduleSpec) (S : Type) : Plan S :=
  LFT.planWith S contractors s reqs (fun _ _ => 0) 0 Assigned.exactShare volume (onGraph site demo works).chain

private theorem demo_graph : WorkGraph demo works where
  once := by decide
  linked := Graph.linked_ofEdges _
  closed := Graph.closed_ofEdges (by decide)
  chains := Graph.chains_ofEdges (by decide)
  acyclic := Graph.acyclic_ofEdges (fun v => v) (by decide)

private theorem demo_deps : OnlyDependencies demo := by
  intro v e he
  unfold demo at he
  rw [Graph.ofEdges_to] at he
  exact (by decide : ∀ e ∈ edges, e.type = .finishStart ∨ e.type = .lagFinishStart ∨ e.type = .inseparable) e (List.mem_filter.1 he).1

private theorem demo_lags : ∀ v, ∀ e ∈ demo.edgesTo v, e.type = .inseparable → 0 ≤ e.lag := by
  intro v e he _
  unfold demo at he
  rw [Graph.ofEdges_to] at he
  exact (by decide : ∀ e ∈ edges, 0 ≤ e.lag) e (List.mem_filter.1 he).1

private theorem demo_order : GivesGoodOrders rule demo works := by
  refine C89.lft_order demo_graph _ (fun v => ?_) _ fun _ _ _ => Int.le_refl _
  exact Int.natCast_nonneg v

private theorem demo_contractors : C16.SoundContractors contractors := by unfold C16.SoundContractors; decide

private theorem demo_site : NoSiteLimits site := 
  ⟨fun _ _ _ => Int.le_refl _, fun _ _ _ _ => Int.le_refl _, fun _ _ t => ⟨(), t, rfl, Int.le_refl _⟩, fun _ _ _ _ => ⟨(), rfl⟩,
   fun _ => ⟨(), 0, rfl, Int.le_refl _⟩⟩

private theorem demo_est (v : Nat) (team : List Worker) : 0 ≤ site.estimate v team := by
  simp only [site]
  split <;> decide

private theorem spec_get (v : Nat) : spec.get v = if v = 1 then ⟨[8], [(0, 2)], some 20, false⟩ else
    if v = 3 then ⟨[8], [], none, true⟩ else WorkTerms.none := by
  simp only [spec, ofCalls, List.foldl_cons, List.foldl_nil, apply, get_change]
  by_cases h1 : v = 1
  · subst h1; rfl
  · by_cases h3 : v = 3
    · subst h3; rfl
    · simp [h1, h3]; rfl

private theorem demo_staff (v : Nat) : C54.Staffable contractors (spec.get v).spec (reqs v) := by
  rw [spec_get]
  unfold reqs
  by_cases h1 : v = 1
  · subst h1
    refine ⟨by simp [C16.SoundReqs], by simp, by simp [WorkTerms.spec], ⟨8, [(0, 5)]⟩, by simp [contractors], .inr (by decide), ?_⟩
    simp [WorkTerms.spec]
  · by_cases h3 : v = 3
    · subst h3
      refine ⟨by simp [C16.SoundReqs], by simp, by simp [WorkTerms.spec], ⟨8, [(0, 5)]⟩, by simp [contractors], .inr (by decide), ?_⟩
      simp [WorkTerms.spec]
    · simp only [h1, h3, if_false, false_or, or_false]
      split
      · refine ⟨by simp [C16.SoundReqs], by simp, by simp [WorkTerms.spec, WorkTerms.none], ⟨7, [(0, 5)]⟩, by simp [contractors],
          .inl rfl, ?_⟩
        simp [WorkTerms.spec, WorkTerms.none]
      · exact ⟨by simp [C16.SoundReqs], by simp, by simp, ⟨7, [(0, 5)]⟩, by simp [contractors], .inl rfl, by simp⟩

private theorem demo_time (v : Nat) (T : Int) (h : (spec.get v).time = some T) : 0 ≤ T := by
  rw [spec_get] at h
  split at h
  · simp only [Option.some.injEq] at h; omega
  · split at h <;> simp [WorkTerms.none] at h

private theorem demo_neg (v k : Nat) (n : Int) (h : (spec.get v).workers.lookup k = some n) : n ≠ -1 := by
  rw [spec_get] at h
  split at h
  · rw [List.lookup_cons] at h
    split at h
    · simp only [Option.some.injEq] at h; omega
    · simp at h
  · split at h <;> simp [WorkTerms.none] at h

/-- All hypotheses hold in the project; the chain of works 1 and 2 lasts 20 units, one third for work 1, and the independent work 3
waits for its end. -/
example : ∃ st, scheduleJIT site rule demo works (plan spec _) (LFT.agents contractors) () 20 = some (some st) ∧
    (st.sched.map fun e => (e.1, e.2.start, e.2.finish, e.2.contractor)) =
      [(4, 25, 25, 7), (3, 20, 25, 8), (2, 6, 20, 8), (1, 0, 6, 8), (0, 0, 0, 7)] ∧
    KeepsTerms demo works reqs spec.get st.sched ∧ Exclusive demo works (fun v => (spec.get v).independent) st.sched := by
  obtain ⟨st, hs, h1, h2, -⟩ := lft_jit_schedules_to_terms demo_graph demo_deps demo_lags site demo_site demo_est rule demo_order
    ⟨_, rfl⟩ contractors demo_contractors spec demo_neg demo_time reqs demo_staff (fun _ _ => 0) (fun _ _ h => h) 0 (Int.le_refl _)
    Assigned.exactShare C13.exactShare_fair volume (fun v => Int.natCast_nonneg v) ()
  refine ⟨st, hs 20 (by decide), ?_, h1, h2⟩
  have h : (scheduleJIT site rule demo works (plan spec _) (LFT.agents contractors) () 20).map (·.map fun st =>
      st.sched.map fun e => (e.1, e.2.start, e.2.finish, e.2.contractor)) =
      some (some [(4, 25, 25, 7), (3, 20, 25, 8), (2, 6, 20, 8), (1, 0, 6, 8), (0, 0, 0, 7)]) := by decide +kernel
  have h' := hs 20 (by decide)
  unfold plan at h
  rw [h'] at h
  simpa using h

/-- The momentum timeline gives the same schedule here. -/
example : ∃ st, scheduleMomentum site rule demo works (plan spec _) (LFT.agents contractors) () 1000 20 20 = some (some st) ∧
    KeepsTerms demo works reqs spec.get st.sched := by
  have h : ((scheduleMomentum site rule demo works (plan spec _) (LFT.agents contractors) () 1000 20 20).map (·.isSome)) =
      some true := by decide +kernel
  obtain ⟨o, ho, h⟩ := Option.map_eq_some_iff.1 h
  obtain ⟨st, rfl⟩ := Option.isSome_iff_exists.1 h
  exact ⟨st, ho, lft_momentum_keeps_terms demo_graph site demo_est rule demo_order contractors demo_contractors spec demo_neg demo_time
    reqs (fun v => (demo_staff v).1) _ 0 1000 (by decide) (by decide) _ C13.exactShare_fair volume (fun v => Int.natCast_nonneg v) ()
    20 20 st ho⟩

private def setup (S : Type) : Generic.Setup S := ⟨contractors, fun _ => ⟨[], []⟩, reqs, fun _ _ _ => Optimize.averageReq 1 1, fun _ => false, 0⟩

/-- The generic scheduler with the same terms. -/
example : ∃ st, scheduleJIT site rule demo works (Generic.planJITWith (onGraph site demo works) (setup _) spec 20 Assigned.exactShare
      volume) (LFT.agents contractors) () 20 = some (some st) ∧ KeepsTerms demo works reqs spec.get st.sched := by
  have h : ((scheduleJIT site rule demo works (Generic.planJITWith (onGraph site demo works) (setup _) spec 20 Assigned.exactShare
      volume) (LFT.agents contractors) () 20).map (·.isSome)) = some true := by decide +kernel
  obtain ⟨o, ho, h⟩ := Option.map_eq_some_iff.1 h
  obtain ⟨st, rfl⟩ := Option.isSome_iff_exists.1 h
  refine ⟨st, ho, generic_jit_keeps_terms_partial demo_graph site demo_est rule demo_order (setup _) demo_contractors
    (fun v => (demo_staff v).1) (fun _ _ _ => (C16.optimizers_stay_within fun _ => 0).2.2 1 1 (by decide) (by decide)) spec (fun v => ?_)
    demo_time _ C13.exactShare_fair volume (fun v => Int.natCast_nonneg v) _ () 20 st ho⟩
  rw [spec_get]
  by_cases h1 : v = 1
  · subst h1; exact .inr rfl
  · left
    rw [if_neg h1]
    split <;> rfl

private def spec' : ScheduleSpec := ofCalls [.setExecTime 1 20, .assignContractors 1 [8], .setIndependent 3 true]

private theorem spec'_get (v : Nat) : spec'.get v = if v = 1 then ⟨[8], [], some 20, false⟩ else
    if v = 3 then ⟨[], [], none, true⟩ else WorkTerms.none := by
  simp only [spec', ofCalls, List.foldl_cons, List.foldl_nil, apply, get_change]
  by_cases h1 : v = 1
  · subst h1; rfl
  · by_cases h3 : v = 3
    · subst h3; rfl
    · simp [h1, h3]; rfl

/-- The generic scheduler without numbers of workers. -/
example : ∃ st, scheduleJIT site rule demo works (Generic.planJITWith (onGraph site demo works) (setup _) spec' 20 Assigned.exactShare
      volume) (LFT.agents contractors) () 20 = some (some st) ∧ Exclusive demo works (fun v => (spec'.get v).independent) st.sched := by
  have h : ((scheduleJIT site rule demo works (Generic.planJITWith (onGraph site demo works) (setup _) spec' 20 Assigned.exactShare
      volume) (LFT.agents contractors) () 20).map (·.isSome)) = some true := by decide +kernel
  obtain ⟨o, ho, h⟩ := Option.map_eq_some_iff.1 h
  obtain ⟨st, rfl⟩ := Option.isSome_iff_exists.1 h
  refine ⟨st, ho, (generic_jit_valid_partial demo_graph demo_deps site demo_est rule demo_order (setup _) demo_contractors
    (fun v => (demo_staff v).1) (fun v => (demo_staff v).2.1)
    (fun _ _ _ => (C16.optimizers_stay_within fun _ => 0).2.2 1 1 (by decide) (by decide)) (Int.le_refl _) spec' (fun v => ?_)
    (fun v T hT => ?_) _ C13.exactShare_fair volume (fun v => Int.natCast_nonneg v) () 20 st ho).1⟩
  · rw [spec'_get]
    split
    · rfl
    · split <;> rfl
  · rw [spec'_get] at hT
    split at hT
    · simp only [Option.some.injEq] at hT; omega
    · split at hT <;> simp [WorkTerms.none] at hT

/-! ### What is not kept -/

private theorem jit_congr {E : Env σ} {P P' : Plan (JIT.State σ)} {fuel : Nat} (hp : P.parentTime = P'.parentTime) :
    ∀ {order : List Nat} {first : Bool} {st : JIT.State σ}, (∀ v ∈ order, (∀ st, P.choose st v = P'.choose st v) ∧
      P.independent v = P'.independent v ∧ P.assignedTimes v = P'.assignedTimes v) →
    JIT.buildFrom E P fuel first order st = JIT.buildFrom E P' fuel first order st
  | [], _, _, _ => rfl
  | v :: vs, first, st, h => by
    have ⟨h1, h2, h3⟩ := h v List.mem_cons_self
    have hs : ∀ last, JIT.step E P fuel first last st v = JIT.step E P' fuel first last st v := by
      intro last
      unfold JIT.step JIT.startFor
      rw [h1, h2, h3, hp]
    simp only [JIT.buildFrom, hs]
    split
    · rfl
    · rfl
    · exact jit_congr hp fun v hv => h v (List.mem_cons_of_mem _ hv)

/-- Terms given for a work that follows another one inseparably have no effect at all: specifications that agree on the heads of
chains give the same schedule. -/
theorem follower_terms_have_no_effect (site : Env σ) (rule : Rule) (hrule : GivesGoodOrders rule g nodes)
    (contractors : List Contractor) (s s' : ScheduleSpec) (hss : ∀ k, g.IsHead nodes k → s.get k = s'.get k)
    (reqs : Nat → List WorkerReq) (index : Nat → Nat → Nat) (parentTime : Int) (share : Int → Int → Int → Int) (volume : Nat → Int)
    (env : σ) (fuel : Nat) :
    scheduleJIT site rule g nodes (LFT.planWith _ contractors s reqs index parentTime share volume (onGraph site g nodes).chain)
      (LFT.agents contractors) env fuel =
    scheduleJIT site rule g nodes (LFT.planWith _ contractors s' reqs index parentTime share volume (onGraph site g nodes).chain)
      (LFT.agents contractors) env fuel := by
  unfold scheduleJIT
  split
  · rfl
  · rename_i order horder
    have ho := hrule order horder
    unfold JIT.build
    refine jit_congr (P := LFT.planWith _ contractors s reqs index parentTime share volume (onGraph site g nodes).chain)
      (P' := LFT.planWith _ contractors s' reqs index parentTime share volume (onGraph site g nodes).chain) rfl fun v hv => ?_
    have := hss v ((ho.2.1 v).1 hv)
    simp only [LFT.planWith, LFT.plan, LFT.choose, Assigned.ofSpec, this]
    exact ⟨fun _ => trivial, trivial, trivial⟩

/-- Not proved because false: the terms of every work are kept.  Contractor 7 and 3 units of time are given for work 2 and 20 units
for work 1; work 2 follows work 1 inseparably.  In the schedule work 2 is done by contractor 8 and lasts 14, and work 1 lasts 6. -/
theorem follower_terms_not_kept : ∃ (g : Graph) (nodes : List Nat) (site : Env Unit) (rule : Rule) (contractors : List Contractor)
    (s : ScheduleSpec) (reqs : Nat → List WorkerReq) (volume : Nat → Int) (st : JIT.State Unit), WorkGraph g nodes ∧
    NoSiteLimits site ∧ GivesGoodOrders rule g nodes ∧ C16.SoundContractors contractors ∧
    scheduleJIT site rule g nodes (LFT.planWith _ contractors s reqs (fun _ _ => 0) 0 Assigned.exactShare volume
      (onGraph site g nodes).chain) (LFT.agents contractors) () 20 = some (some st) ∧
    (s.get 2).contractors = [7] ∧ (s.get 2).time = some 3 ∧ (∃ x, st.sched.get 2 = some x ∧ x.contractor = 8 ∧
      st.sched.duration 2 = 14) ∧ (s.get 1).time = some 20 ∧ st.sched.duration 1 = 6 := by
  have h : (scheduleJIT site rule demo works (plan (ofCalls [.assignContractors 1 [8], .setExecTime 1 20, .assignContractors 2 [7],
      .setExecTime 2 3]) _) (LFT.agents contractors) () 20).map (·.map fun st =>
      ((st.sched.get 2).map (·.contractor), st.sched.duration 2, st.sched.duration 1)) = some (some (some 8, 14, 6)) := by
    decide +kernel
  obtain ⟨o, ho, h⟩ := Option.map_eq_some_iff.1 h
  obtain ⟨st, rfl, h'⟩ := Option.map_eq_some_iff.1 h
  obtain ⟨h1, h2⟩ := Prod.mk.inj h'
  obtain ⟨h2, h3⟩ := Prod.mk.inj h2
  obtain ⟨x, hx, hc⟩ := Option.map_eq_some_iff.1 h1
  exact ⟨demo, works, site, rule, contractors, _, reqs, volume, st, demo_graph, demo_site, demo_order, demo_contractors, ho, rfl, rfl,
    ⟨x, hx, hc, h2⟩, rfl, h3⟩

private def edges' : List Edge := [⟨0, 1, 0, .finishStart⟩, ⟨1, 2, 10, .lagFinishStart⟩, ⟨2, 5, 0, .finishStart⟩, ⟨5, 4, 0, .finishStart⟩,
  ⟨0, 3, 0, .finishStart⟩, ⟨3, 4, 0, .finishStart⟩]
private def works' : List Nat := [0, 1, 2, 3, 4, 5]
private def demo' : Graph := Graph.ofEdges edges'
private def contractors' : List Contractor := [⟨7, [(0, 1)]⟩]
private def rule' : Rule := lftRule (fun _ => 5) fun _ => 1

private theorem demo'_graph : WorkGraph demo' works' where
  once := by decide
  linked := Graph.linked_ofEdges _
  closed := Graph.closed_ofEdges (by decide)
  chains := Graph.chains_ofEdges (by decide)
  acyclic := Graph.acyclic_ofEdges (fun v => if v = 4 then 9 else v) (by decide)

/-- Not proved because false: on the momentum timeline a project that can be staffed gets a schedule also if times are given.  The
search for a start estimates the duration of work 3 (5 units fit between works 1 and 2, which use the only worker), and placing it
with the given 20 units fails. -/
theorem momentum_given_time_fails : ∃ (g : Graph) (nodes : List Nat) (site : Env Unit) (rule : Rule) (contractors : List Contractor)
    (s : ScheduleSpec) (reqs : Nat → List WorkerReq) (volume : Nat → Int) (st : Momentum.State Unit), WorkGraph g nodes ∧
    NoSiteLimits site ∧ GivesGoodOrders rule g nodes ∧ C16.SoundContractors contractors ∧ (∀ v, 0 ≤ volume v) ∧
    (∀ v, C54.Staffable contractors (s.get v).spec (reqs v)) ∧ (∀ v T, (s.get v).time = some T → 0 ≤ T) ∧
    scheduleMomentum site rule g nodes (LFT.planWith _ contractors [] reqs (fun _ _ => 0) 0 Assigned.exactShare volume
      (onGraph site g nodes).chain) (LFT.agents contractors) () 1000 20 20 = some (some st) ∧
    scheduleMomentum site rule g nodes (LFT.planWith _ contractors s reqs (fun _ _ => 0) 0 Assigned.exactShare volume
      (onGraph site g nodes).chain) (LFT.agents contractors) () 1000 20 20 = some none := by
  have h : (scheduleMomentum site rule' demo' works' (LFT.planWith _ contractors' [] reqs (fun _ _ => 0) 0 Assigned.exactShare volume
      (onGraph site demo' works').chain) (LFT.agents contractors') () 1000 20 20).map (·.isSome) = some true := by decide +kernel
  have h' : (scheduleMomentum site rule' demo' works' (LFT.planWith _ contractors' (ofCalls [.setExecTime 3 20]) reqs (fun _ _ => 0) 0
      Assigned.exactShare volume (onGraph site demo' works').chain) (LFT.agents contractors') () 1000 20 20).map (·.isSome) =
      some false := by decide +kernel
  obtain ⟨o, ho, h⟩ := Option.map_eq_some_iff.1 h
  obtain ⟨st, rfl⟩ := Option.isSome_iff_exists.1 h
  obtain ⟨o', ho', h'⟩ := Option.map_eq_some_iff.1 h'
  rw [Option.isSome_eq_false_iff, Option.isNone_iff_eq_none] at h'
  subst h'
  have hget : ∀ v, (ofCalls [.setExecTime 3 20]).get v = if v = 3 then ⟨[], [], some 20, false⟩ else WorkTerms.none := by
    intro v
    simp only [ofCalls, List.foldl_cons, List.foldl_nil, apply, get_change]
    split <;> rfl
  have hspec : ∀ v, ((ofCalls [.setExecTime 3 20]).get v).spec = ⟨[], []⟩ := by
    intro v
    rw [hget]
    split <;> rfl
  refine ⟨demo', works', site, rule', contractors', _, reqs, volume, st, demo'_graph, demo_site,
    C89.lft_order demo'_graph _ (fun v => by decide) _ fun _ _ _ => Int.le_refl _, by unfold C16.SoundContractors; decide,
    fun v => Int.natCast_nonneg v, fun v => ?_, fun v T hT => ?_, ho, ho'⟩
  · rw [hspec]
    unfold reqs
    split
    · exact ⟨by simp [C16.SoundReqs], by simp, by simp, ⟨7, [(0, 1)]⟩, by simp [contractors'], .inl rfl, by simp⟩
    · exact ⟨by simp [C16.SoundReqs], by simp, by simp, ⟨7, [(0, 1)]⟩, by simp [contractors'], .inl rfl, by simp⟩
  · rw [hget] at hT
    split at hT
    · simp only [Option.some.injEq] at hT; omega
    · simp [WorkTerms.none] at hT

end Sampo.C105
