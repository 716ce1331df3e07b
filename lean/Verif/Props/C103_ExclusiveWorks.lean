import Verif.Lemmas.Exclusive
import Verif.Spec.Exclusive
import Verif.Props.C89_Schedulers

/-!
# C103: independent works have their workers for themselves in the whole schedule
-/

namespace Sampo.C103
open Scheduler OnGraph
open C22 (WorkGraph)
open C89 (OnlyDependencies GivesGoodOrders GoodOrder)

variable {σ : Type} {g : Graph} {nodes : List Nat}

/-- Just-in-time timeline: in every schedule that is returned, whatever the landscape, the order and the choice of teams, works of
independent chains never overlap with other works that use workers of the same type of the same contractor. -/
theorem jit_independent_exclusive (hw : WorkGraph g nodes) (site : Env σ)
    (hest : ∀ v team, 0 ≤ site.estimate v team) (rule : Rule) (hrule : GivesGoodOrders rule g nodes)
    (P : Plan (JIT.State σ)) (hts : ∀ v ts, P.assignedTimes v = some ts → NonNegTimes ts) (hP : 0 ≤ P.parentTime)
    (pool : AgentId → Option Int)
    (hch : ∀ st v team c, P.choose st v = some (team, c) → WellFormedTeam team ∧ WithinPool pool team) (env : σ) (fuel : Nat)
    (st : JIT.State σ) (h : scheduleJIT site rule g nodes P pool env fuel = some (some st)) :
    Exclusive g nodes P.independent st.sched := by
  unfold scheduleJIT at h
  split at h
  · simp at h
  · rename_i order horder
    have ho := hrule order horder
    have howned := JIT.buildFrom_owned (E := onGraph site g nodes) (heads := []) hest hts (fun v => Expand.head_mem_chain v) hch hP
      (.inl ⟨rfl, rfl, rfl, rfl⟩) h
    rw [List.append_nil] at howned
    intro k k' u v x y hk hk' hne hu hv hind hx hy a hxa hya
    have head : ∀ j ∈ order.reverse, ∀ i w, g.IsHead nodes i → g.InChain i w → w ∈ (onGraph site g nodes).chain j → j = i := by
      intro j hj i w hi hw' hwj
      have hjh := (ho.2.1 j).1 (List.mem_reverse.1 hj)
      exact Graph.head_unique hw.chains hjh hi ((Heads.mem_chain hw.ok hjh).1 hwj) hw'
    refine JIT.owned_exclusive (List.nodup_reverse.2 ho.1) howned (e := (u, x)) (f := (v, y)) (mem_of_get hx) (mem_of_get hy) ?_
      (.inl ?_) hxa hya
    · intro j hj hju hjv
      exact hne ((head j hj k u hk hu hju).symm.trans (head j hj k' v hk' hv hjv))
    · intro j hj hju
      rw [head j hj k u hk hu hju]
      exact hind

/-- In particular for LFT, which uses contractors and requirements as they are. -/
theorem lft_independent_exclusive (hw : WorkGraph g nodes) (site : Env σ)
    (hest : ∀ v team, 0 ≤ site.estimate v team) (rule : Rule) (hrule : GivesGoodOrders rule g nodes) (contractors : List Contractor)
    (hcs : C16.SoundContractors contractors) (spec : Nat → WorkSpec) (hneg : ∀ v k n, (spec v).assigned.lookup k = some n → n ≠ -1)
    (reqs : Nat → List WorkerReq) (hreqs : ∀ v, C16.SoundReqs (reqs v)) (hkinds : ∀ v, ((reqs v).map (·.kind)).Nodup)
    (index : Nat → Nat → Nat) (independent : Nat → Bool) (parentTime : Int) (hP : 0 ≤ parentTime) (env : σ) (fuel : Nat)
    (st : JIT.State σ) (h : scheduleJIT site rule g nodes (LFT.plan _ contractors spec reqs index independent parentTime)
      (LFT.agents contractors) env fuel = some (some st)) : Exclusive g nodes independent st.sched :=
  jit_independent_exclusive hw site hest rule hrule _ (fun v ts h => by simp [LFT.plan] at h) hP _
    (fun _ v team c hc => staffs_ok hcs hreqs hkinds v team c (lft_staffs contractors hcs spec hneg reqs hreqs index hc)) env fuel st h

/-- In particular for HEFT and the topological schedulers. -/
theorem generic_independent_exclusive (hw : WorkGraph g nodes) (site : Env σ)
    (hest : ∀ v team, 0 ≤ site.estimate v team) (rule : Rule) (hrule : GivesGoodOrders rule g nodes)
    (G : Generic.Setup (JIT.State σ)) (hG : Generic.Sound G) (env : σ) (fuel : Nat)
    (st : JIT.State σ) (h : scheduleJIT site rule g nodes (Generic.planJIT (onGraph site g nodes) G fuel)
      (LFT.agents G.contractors) env fuel = some (some st)) : Exclusive g nodes G.independent st.sched := by
  refine jit_independent_exclusive hw site hest rule hrule (Generic.planJIT (onGraph site g nodes) G fuel)
    (fun v ts h => by simp [Generic.planJIT] at h) hG.start _ (fun s v team c hc => ?_) env fuel st h
  obtain ⟨s', f, k, hr, rfl⟩ := Generic.choose_search hc
  obtain ⟨h1, h2, h3⟩ := C16.chosen_team_meets_requirements G.contractors hG.contractors _ _ (hG.reqs v) _ (hG.free v) _
    (fun c => (hG.opt s v c).1) _ (fun c t s' f hf => Generic.jit_time _ _ _ _ _ hf) s' f k team hr
  exact meets_ok hG.contractors h1 (hG.reqs v) (hG.kinds v) h3

/-! ### A concrete project: works 1 and 2 between start 0 and finish 3; work 1 is independent -/

private def edges : List Edge := [⟨0, 1, 0, .finishStart⟩, ⟨0, 2, 0, .finishStart⟩, ⟨1, 3, 0, .finishStart⟩, ⟨2, 3, 0, .finishStart⟩]
private def demo : Graph := Graph.ofEdges edges
private def works : List Nat := [0, 1, 2, 3]
private def reqs (v : Nat) : List WorkerReq := if v = 1 ∨ v = 2 then [⟨0, 1, 2⟩] else []
private def site : Env Unit :=
  { Demo.env with kinds := fun v => (reqs v).map (·.kind), service := fun v => v == 0 || v == 3,
                  estimate := fun v team => if team = [] then 0 else if v = 1 then 10 else 5 }
private def contractors : List Contractor := [⟨7, [(0, 5)]⟩]
private def rule : Rule := lftRule (fun v => v) fun _ => 1
private def plan (S : Type) : Plan S := LFT.plan S contractors (fun _ => ⟨[], []⟩) reqs (fun _ _ => 0) (fun v => v == 1) 0

private theorem demo_graph : WorkGraph demo works where
  once := by decide
  linked := Graph.linked_ofEdges _
  closed := Graph.closed_ofEdges (by decide)
  chains := Graph.chains_ofEdges (by decide)
  acyclic := Graph.acyclic_ofEdges (fun v => v) (by decide)

private theorem demo_order : GivesGoodOrders rule demo works := by
  refine C89.lft_order demo_graph _ (fun v => ?_) _ fun _ _ _ => Int.le_refl _
  exact Int.natCast_nonneg v

private theorem demo_contractors : C16.SoundContractors contractors := by unfold C16.SoundContractors; decide

private theorem demo_reqs (v : Nat) : C16.SoundReqs (reqs v) ∧ ((reqs v).map (·.kind)).Nodup := by
  unfold reqs
  split
  · exact ⟨by simp [C16.SoundReqs], by simp⟩
  · exact ⟨by simp [C16.SoundReqs], by simp⟩

/-- On the just-in-time timeline work 2 waits for work 1, although there are workers for both. -/
example : ∃ st, scheduleJIT site rule demo works (plan _) (LFT.agents contractors) () 20 = some (some st) ∧
    (st.sched.map fun e => (e.1, e.2.start, e.2.finish)) = [(3, 15, 15), (2, 10, 15), (1, 0, 10), (0, 0, 0)] ∧
    Exclusive demo works (fun v => v == 1) st.sched := by
  have h : (scheduleJIT site rule demo works (plan _) (LFT.agents contractors) () 20).map (·.map fun st =>
      st.sched.map fun e => (e.1, e.2.start, e.2.finish)) = some (some [(3, 15, 15), (2, 10, 15), (1, 0, 10), (0, 0, 0)]) := by
    decide +kernel
  obtain ⟨o, ho, h⟩ := Option.map_eq_some_iff.1 h
  obtain ⟨st, rfl, h'⟩ := Option.map_eq_some_iff.1 h
  refine ⟨st, ho, h', lft_independent_exclusive demo_graph site (fun v team => ?_) rule demo_order contractors demo_contractors _
    (fun v k n h => by simp at h) reqs (fun v => (demo_reqs v).1) (fun v => (demo_reqs v).2) _ _ 0 (Int.le_refl _) () 20 st ho⟩
  simp only [site]
  split
  · exact Int.le_refl _
  · split <;> decide

private theorem demo_single {k v : Nat} (h : demo.InChain k v) : v = k := by
  induction h with
  | refl => rfl
  | tail _ hf _ =>
    exfalso
    obtain ⟨e, he, -, ht⟩ := hf
    unfold demo at he
    rw [Graph.ofEdges_to] at he
    exact (by decide : ∀ e ∈ edges, e.type ≠ .inseparable) e (List.mem_filter.1 he).1 ht

private theorem demo_head {v : Nat} (h : v ∈ works) : demo.IsHead works v := by
  refine ⟨h, fun a hf => ?_⟩
  have := demo_single (k := a) (.single hf)
  obtain ⟨e, he, -, ht⟩ := hf
  unfold demo at he
  rw [Graph.ofEdges_to] at he
  exact (by decide : ∀ e ∈ edges, e.type ≠ .inseparable) e (List.mem_filter.1 he).1 ht

/-- Not proved because false: the same for the momentum timeline.  Work 2, placed after the independent work 1, runs at the same
time with workers of the same type of the same contractor. -/
theorem momentum_not_exclusive : ∃ (g : Graph) (nodes : List Nat) (site : Env Unit) (rule : Rule) (contractors : List Contractor)
    (reqs : Nat → List WorkerReq) (independent : Nat → Bool) (st : Momentum.State Unit), WorkGraph g nodes ∧
    (∀ v team, 0 ≤ site.estimate v team) ∧ GivesGoodOrders rule g nodes ∧ C16.SoundContractors contractors ∧
    (∀ v, C16.SoundReqs (reqs v) ∧ ((reqs v).map (·.kind)).Nodup) ∧
    scheduleMomentum site rule g nodes (LFT.plan _ contractors (fun _ => ⟨[], []⟩) reqs (fun _ _ => 0) independent 0)
      (LFT.agents contractors) () 1000 20 20 = some (some st) ∧ ¬ Exclusive g nodes independent st.sched := by
  have h : (scheduleMomentum site rule demo works (plan _) (LFT.agents contractors) () 1000 20 20).map (·.map fun st =>
      (st.sched.get 1, st.sched.get 2)) = some (some (some ⟨0, 10, [⟨7, 0, 2⟩], 7⟩, some ⟨0, 5, [⟨7, 0, 2⟩], 7⟩)) := by
    decide +kernel
  obtain ⟨o, ho, h⟩ := Option.map_eq_some_iff.1 h
  obtain ⟨st, rfl, h'⟩ := Option.map_eq_some_iff.1 h
  obtain ⟨h1, h2⟩ := Prod.mk.inj h'
  refine ⟨demo, works, site, rule, contractors, reqs, fun v => v == 1, st, demo_graph, fun v team => ?_, demo_order, demo_contractors,
    demo_reqs, ho, fun hex => ?_⟩
  · simp only [site]
    split
    · exact Int.le_refl _
    · split <;> decide
  · have := hex 1 2 1 2 _ _ (demo_head (by decide)) (demo_head (by decide)) (by decide) .refl .refl rfl h1 h2 (7, 0)
      ⟨⟨7, 0, 2⟩, by simp, rfl, by decide⟩ ⟨⟨7, 0, 2⟩, by simp, rfl, by decide⟩
    revert this
    decide

end Sampo.C103
