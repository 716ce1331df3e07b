import Verif.Lemmas.ZoneLive
import Verif.Props.C89_Schedulers

/-!
# C96: zones in complete schedules

The list schedulers as in C89, on a site with the zones of C40.
-/

namespace Sampo.C96
open Scheduler OnGraph ZoneSite C89
open C22 (WorkGraph)
open Zone (Incompatible)

variable {τ : Type} {g : Graph} {nodes : List Nat}

/-- Just-in-time timeline: if changes of status cost nothing, works that need a zone in different statuses are never done at the
same time, whatever the graph, order, teams and materials.  The zones of a chain are those of its first work. -/
theorem jit_zones_partial (hw : WorkGraph g nodes) (hdep : OnlyDependencies g) (base : Env τ) (cfg : Zone.Config)
    (hcost : ∀ a b, cfg.costs a b = 0) (reqs : Nat → List Zone.Req) (hreqs : ∀ v, ((reqs v).map (·.zone)).Nodup)
    (hest : ∀ v team, 0 ≤ base.estimate v team) (rule : Rule) (hrule : GivesGoodOrders rule g nodes)
    (P : Plan (JIT.State (State τ))) (hts : ∀ v ts, P.assignedTimes v = some ts → NonNegTimes ts) (hP : 0 ≤ P.parentTime)
    (pool : AgentId → Option Int) (mat : τ) (fuel : Nat) (st : JIT.State (State τ))
    (h : scheduleJIT (site base cfg reqs) rule g nodes P pool (fresh mat cfg) fuel = some (some st)) {k l v w : Nat} {x y : SWork}
    (hk : g.IsHead nodes k) (hl : g.IsHead nodes l) (hv : g.InChain k v) (hw' : g.InChain l w)
    (hi : Incompatible (reqs k) (reqs l)) (hx : st.sched.get v = some x) (hy : st.sched.get w = some y) : ¬ x.Together y := by
  unfold scheduleJIT at h
  split at h
  · simp at h
  · rename_i order horder
    have ho := hrule order horder
    obtain ⟨-, -, e3⟩ := expand hw hdep (site base cfg reqs) ho
    have hh := jit_buildFrom_held (base := onGraph base g nodes) hcost hreqs (fun v => Expand.head_mem_chain v) hest hts hP
      (.inl ⟨rfl, rfl⟩) (held_fresh mat _) h
    exact hh.apart hcost e3 ((ho.2.1 k).2 hk) ((ho.2.1 l).2 hl) ((Heads.mem_chain hw.ok hk).2 hv) ((Heads.mem_chain hw.ok hl).2 hw')
      hi hx hy

/-- Momentum timeline: the same, if works without workers do not wait for materials. -/
theorem momentum_zones_partial (hw : WorkGraph g nodes) (hdep : OnlyDependencies g) (base : Env τ) (cfg : Zone.Config)
    (hcost : ∀ a b, cfg.costs a b = 0) (reqs : Nat → List Zone.Req) (hreqs : ∀ v, ((reqs v).map (·.zone)).Nodup)
    (hest : ∀ v team, 0 ≤ base.estimate v team) (rule : Rule) (hrule : GivesGoodOrders rule g nodes)
    (P : Plan (Momentum.State (State τ))) (hts : ∀ v ts, P.assignedTimes v = some ts → NonNegTimes ts) (inf : Int)
    (hP : 0 ≤ P.parentTime) (hinf : P.parentTime ≤ inf)
    (hmat : ∀ st v c, P.choose st v = some ([], c) → ∀ s t, base.matTime s v t ≤ t) (pool : AgentId → Option Int) (mat : τ)
    (fuelIn fuel : Nat) (st : Momentum.State (State τ))
    (h : scheduleMomentum (site base cfg reqs) rule g nodes P pool (fresh mat cfg) inf fuelIn fuel = some (some st))
    {k l v w : Nat} {x y : SWork} (hk : g.IsHead nodes k) (hl : g.IsHead nodes l) (hv : g.InChain k v) (hw' : g.InChain l w)
    (hi : Incompatible (reqs k) (reqs l)) (hx : st.sched.get v = some x) (hy : st.sched.get w = some y) : ¬ x.Together y := by
  unfold scheduleMomentum at h
  split at h
  · simp at h
  · rename_i order horder
    have ho := hrule order horder
    obtain ⟨-, -, e3⟩ := expand hw hdep (site base cfg reqs) ho
    have hh := momentum_buildFrom_held (base := onGraph base g nodes) hcost hreqs (fun v => Expand.head_mem_chain v) hest hts hP
      hinf hmat (fun _ => rfl) (held_fresh mat _) h
    exact hh.apart hcost e3 ((ho.2.1 k).2 hk) ((ho.2.1 l).2 hl) ((Heads.mem_chain hw.ok hk).2 hv) ((Heads.mem_chain hw.ok hl).2 hw')
      hi hx hy

/-- LFT on a just-in-time timeline: if works can be staffed, zones can be used freely and materials do not limit, then a
schedule with all works is returned; it is valid and respects the zones. -/
theorem lft_jit_schedules_with_zones (hw : WorkGraph g nodes) (hdep : OnlyDependencies g)
    (hpos : ∀ v, ∀ e ∈ g.edgesTo v, e.type = .inseparable → 0 ≤ e.lag)
    (hlag : ∀ k v e, e ∈ g.edgesTo v → g.InChain k v → g.InChain k e.start → e.lag ≤ 0) (base : Env τ)
    (hm : NoMaterialLimits base) (cfg : Zone.Config) (zones : Nat → List Zone.Req) (hz : Zone.Usable cfg zones)
    (hest : ∀ v team, 0 ≤ base.estimate v team) (rule : Rule) (hrule : GivesGoodOrders rule g nodes)
    (hans : ∃ order, orderWorks rule g nodes = some order) (contractors : List Contractor)
    (hcs : C16.SoundContractors contractors) (spec : Nat → WorkSpec)
    (hneg : ∀ v k n, (spec v).assigned.lookup k = some n → n ≠ -1) (reqs : Nat → List WorkerReq) (index : Nat → Nat → Nat)
    (hidx : ∀ v n, 0 < n → index v n < n) (independent : Nat → Bool) (parentTime : Int) (hP : 0 ≤ parentTime) (mat : τ)
    (hstaff : ∀ v, C54.Staffable contractors (spec v) (reqs v)) :
    ∃ N st, (∀ fuel, N ≤ fuel → scheduleJIT (site base cfg zones) rule g nodes
        (LFT.plan _ contractors spec reqs index independent parentTime) (LFT.agents contractors) (fresh mat cfg) fuel =
          some (some st)) ∧
      Feasible g nodes (LFT.agents contractors) (Staffs contractors spec reqs) st.sched ∧
      ∀ k l v w x y, g.IsHead nodes k → g.IsHead nodes l → g.InChain k v → g.InChain l w → Incompatible (zones k) (zones l) →
        st.sched.get v = some x → st.sched.get w = some y → ¬ x.Together y := by
  obtain ⟨order, horder⟩ := hans
  have ho := hrule order horder
  obtain ⟨e1, e2, e3⟩ := expand hw hdep base ho
  obtain ⟨N, st, h⟩ : ∃ N st, ∀ fuel, N ≤ fuel → JIT.buildFrom (site (onGraph base g nodes) cfg zones)
      (LFT.plan _ contractors spec reqs index independent parentTime) fuel true order
      ⟨JIT.init (LFT.agents contractors), fresh mat cfg, []⟩ = some (some st) := by
    refine jit_buildFrom_some (base := onGraph base g nodes) (cfg := cfg) (reqs := zones) (order := order)
      (pool := LFT.agents contractors) (P := LFT.plan _ contractors spec reqs index independent parentTime) (first := true)
      (st := ⟨JIT.init (LFT.agents contractors), fresh mat cfg, []⟩) (done := [])
      ⟨hm.material, hm.deliver⟩ hz (chainEdges base hpos) hest (fun _ => rfl) (fun v => Expand.head_mem_chain v) hP
      (fun k hk u hu e he hc => ?_) (fun _ v _ => ?_) (fun _ v team c hc => ?_) (.inl ⟨rfl, rfl, rfl, rfl⟩) (held_fresh mat _)
      (topoFrom_iff.mpr fun l₁ v l₂ hl p hp => List.mem_append_right _ (e2 l₁ v l₂ hl p hp))
    · have hk' := (ho.2.1 k).1 hk
      simp only [onGraph, List.mem_map] at he
      obtain ⟨e, he, rfl⟩ := he
      exact hlag k u e he ((Heads.mem_chain hw.ok hk').1 hu) ((Heads.mem_chain hw.ok hk').1 hc)
    · obtain ⟨team, c, h, _⟩ := C54.lft_chooses_team contractors hcs spec hneg reqs index hidx v (hstaff v)
      exact ⟨team, c.id, h⟩
    · obtain ⟨team', c', h', hc', hm⟩ := C54.lft_chooses_team contractors hcs spec hneg reqs index hidx v (hstaff v)
      simp only [LFT.plan, h', Option.some.injEq, Prod.mk.injEq] at hc
      obtain ⟨rfl, _⟩ := hc
      exact meets_ok hcs hc' (hstaff v).1 (hstaff v).2.1 hm
  have hs : ∀ fuel, N ≤ fuel → scheduleJIT (site base cfg zones) rule g nodes
      (LFT.plan _ contractors spec reqs index independent parentTime) (LFT.agents contractors) (fresh mat cfg) fuel =
        some (some st) := by
    intro fuel hf
    simp only [scheduleJIT, horder]
    exact h fuel hf
  refine ⟨N, st, hs, jit_feasible hw hdep (site base cfg zones) hest rule hrule _ (fun v ts hv => by simp [LFT.plan] at hv) hP _ _
    (staffs_ok hcs (fun v => (hstaff v).1) fun v => (hstaff v).2.1)
    (fun s v team c hc => lft_staffs contractors hcs spec hneg reqs (fun v => (hstaff v).1) index hc) _ N st
    (hs N (Nat.le_refl _)), fun k l v w x y hk hl hv hw' hi hx hy => ?_⟩
  exact jit_zones_partial hw hdep base cfg hz.free zones hz.once hest rule hrule _ (fun v ts hv => by simp [LFT.plan] at hv) hP _
    mat N st (hs N (Nat.le_refl _)) hk hl hv hw' hi hx hy

/-! ### A concrete project: works 1 and 2 are one chain, work 3 goes beside them -/

def demoEdges : List Edge := [⟨0, 1, 0, .finishStart⟩, ⟨0, 3, 0, .finishStart⟩, ⟨1, 2, 0, .inseparable⟩,
  ⟨2, 4, 0, .finishStart⟩, ⟨3, 4, 0, .finishStart⟩]
def demo : Graph := Graph.ofEdges demoEdges
def works : List Nat := [0, 1, 3, 2, 4]
def demoBase : Env Unit where
  edgesTo _ := []
  insepParent _ := none
  chain _ := []
  service v := v == 0 || v == 4
  kinds v := if v = 0 ∨ v = 4 then [] else [0]
  estimate v team := if team = [] then 0 else if v = 3 then 20 else 10
  matTime _ _ t := t
  zoneTime _ _ t _ := t
  deliver s _ t := some (s, t)
  occupy s _ _ _ := some s
  finishZones s := some (s, 0)
def demoWorkers (v : Nat) : List WorkerReq := if v = 0 ∨ 4 ≤ v then [] else [⟨0, 1, 2⟩]
def demoContractors : List Contractor := [⟨7, [(0, 6)]⟩]
def demoPlan (S : Type) : Plan S :=
  LFT.plan S demoContractors (fun _ => ⟨[], []⟩) demoWorkers (fun _ _ => 0) (fun _ => false) 5
def demoRule : Rule := topologicalRule (fun _ => 1) id
/-- One zone, in status 1 at the beginning. -/
def demoZones (costs : Int → Int → Int) : Zone.Config := ⟨fun z => if z = 0 then some 1 else none, [], costs⟩
/-- Works 1 and 3 need the zone in statuses 2 and 1. -/
def demoReqs (v : Nat) : List Zone.Req := if v = 1 then [⟨0, 2⟩] else if v = 3 then [⟨0, 1⟩] else []
/-- Works 2 and 3 do. -/
def innerReqs (v : Nat) : List Zone.Req := if v = 2 then [⟨0, 2⟩] else if v = 3 then [⟨0, 1⟩] else []

/-- A run of the just-in-time scheduler on the project. -/
def runJIT (costs : Int → Int → Int) (reqs : Nat → List Zone.Req) : Option (Option (JIT.State (State Unit))) :=
  scheduleJIT (site demoBase (demoZones costs) reqs) demoRule demo works (demoPlan _) (LFT.agents demoContractors)
    (fresh () (demoZones costs)) 50
/-- A run of the momentum scheduler. -/
def runMomentum (costs : Int → Int → Int) (reqs : Nat → List Zone.Req) : Option (Option (Momentum.State (State Unit))) :=
  scheduleMomentum (site demoBase (demoZones costs) reqs) demoRule demo works (demoPlan _) (LFT.agents demoContractors)
    (fresh () (demoZones costs)) 1000 50 50
def someCosts (a _ : Int) : Int := if a = 1 then 3 else 1


private theorem demo_edge {v : Nat} {e : Edge} (h : e ∈ demo.edgesTo v) : e ∈ demoEdges ∧ e.finish = v := by
  unfold demo at h
  rw [Graph.ofEdges_to] at h
  exact ⟨(List.mem_filter.1 h).1, by simpa using (List.mem_filter.1 h).2⟩

private theorem demo_chain : demo.InChain 1 2 := by
  refine .tail .refl ⟨⟨1, 2, 0, .inseparable⟩, ?_, rfl, rfl⟩
  unfold demo
  rw [Graph.ofEdges_to]
  decide
private theorem demo_head : demo.IsHead works 1 ∧ demo.IsHead works 3 := by
  have key : ∀ e ∈ demoEdges, e.type = .inseparable → e.finish = 2 := by decide
  constructor <;> refine ⟨by decide, ?_⟩ <;> rintro p ⟨e, he, -, ht⟩
  · have := key e (demo_edge he).1 ht
    have := (demo_edge he).2
    omega
  · have := key e (demo_edge he).1 ht
    have := (demo_edge he).2
    omega

-- changes of status are free: work 3 waits for the end of the chain
example : (runJIT (fun _ _ => 0) demoReqs).map (·.map (·.sched.map fun e => (e.1, e.2.start, e.2.finish))) =
    some (some [(4, 45, 45), (3, 25, 45), (2, 15, 25), (1, 5, 15), (0, 5, 5)]) := by decide +kernel
example : (runMomentum (fun _ _ => 0) demoReqs).map (·.map (·.sched.map fun e => (e.1, e.2.start, e.2.finish))) =
    some (some [(4, 45, 45), (3, 25, 45), (2, 15, 25), (1, 5, 15), (0, 5, 5)]) := by decide +kernel

/-- Not proved because false: if changes of status take time, works that need a zone in different statuses can be done at the same
time.  Work 3 starts at 23, while the chain of works 1 and 2 is going on until 25. -/
theorem costs_break_zones_jit : ∃ st x y, runJIT someCosts demoReqs = some (some st) ∧ st.sched.get 2 = some x ∧
    st.sched.get 3 = some y ∧ Incompatible (demoReqs 1) (demoReqs 3) ∧ demo.InChain 1 2 ∧ x.Together y := by
  have h : ((runJIT someCosts demoReqs).join.map fun st => ((st.sched.get 2).map fun x => (x.start, x.finish),
      (st.sched.get 3).map fun x => (x.start, x.finish))) = some (some (15, 25), some (23, 43)) := by decide +kernel
  simp only [Option.map_eq_some_iff, Option.join_eq_some_iff, Prod.mk.injEq] at h
  obtain ⟨st, hst, ⟨x, hx, rx, ry⟩, ⟨y, hy, sx, sy⟩⟩ := h
  exact ⟨st, x, y, hst, hx, hy, ⟨⟨0, 2⟩, by decide, ⟨0, 1⟩, by decide, by decide, by decide, by decide, by decide⟩, demo_chain,
    23, by omega, by omega, by omega, by omega⟩

theorem costs_break_zones_momentum : ∃ st x y, runMomentum someCosts demoReqs = some (some st) ∧ st.sched.get 2 = some x ∧
    st.sched.get 3 = some y ∧ Incompatible (demoReqs 1) (demoReqs 3) ∧ demo.InChain 1 2 ∧ x.Together y := by
  have h : ((runMomentum someCosts demoReqs).join.map fun st => ((st.sched.get 2).map fun x => (x.start, x.finish),
      (st.sched.get 3).map fun x => (x.start, x.finish))) = some (some (15, 25), some (23, 43)) := by decide +kernel
  simp only [Option.map_eq_some_iff, Option.join_eq_some_iff, Prod.mk.injEq] at h
  obtain ⟨st, hst, ⟨x, hx, rx, ry⟩, ⟨y, hy, sx, sy⟩⟩ := h
  exact ⟨st, x, y, hst, hx, hy, ⟨⟨0, 2⟩, by decide, ⟨0, 1⟩, by decide, by decide, by decide, by decide, by decide⟩, demo_chain,
    23, by omega, by omega, by omega, by omega⟩

/-- Not proved because false: the requirements of a work that is not the first of its chain are ignored, even if changes of status
are free.  Works 2 and 3 need the zone in different statuses, and both are done from 15 to 25, on both timelines. -/
theorem chain_requirements_ignored : Incompatible (innerReqs 2) (innerReqs 3) ∧
    (∃ st x y, runJIT (fun _ _ => 0) innerReqs = some (some st) ∧ st.sched.get 2 = some x ∧ st.sched.get 3 = some y ∧
      x.Together y) ∧
    ∃ st x y, runMomentum (fun _ _ => 0) innerReqs = some (some st) ∧ st.sched.get 2 = some x ∧ st.sched.get 3 = some y ∧
      x.Together y := by
  refine ⟨⟨⟨0, 2⟩, by decide, ⟨0, 1⟩, by decide, by decide, by decide, by decide, by decide⟩, ?_, ?_⟩
  · have h : ((runJIT (fun _ _ => 0) innerReqs).join.map fun st => ((st.sched.get 2).map fun x => (x.start, x.finish),
        (st.sched.get 3).map fun x => (x.start, x.finish))) = some (some (15, 25), some (5, 25)) := by decide +kernel
    simp only [Option.map_eq_some_iff, Option.join_eq_some_iff, Prod.mk.injEq] at h
    obtain ⟨st, hst, ⟨x, hx, rx, ry⟩, ⟨y, hy, sx, sy⟩⟩ := h
    exact ⟨st, x, y, hst, hx, hy, 15, by omega, by omega, by omega, by omega⟩
  · have h : ((runMomentum (fun _ _ => 0) innerReqs).join.map fun st => ((st.sched.get 2).map fun x => (x.start, x.finish),
        (st.sched.get 3).map fun x => (x.start, x.finish))) = some (some (15, 25), some (5, 25)) := by decide +kernel
    simp only [Option.map_eq_some_iff, Option.join_eq_some_iff, Prod.mk.injEq] at h
    obtain ⟨st, hst, ⟨x, hx, rx, ry⟩, ⟨y, hy, sx, sy⟩⟩ := h
    exact ⟨st, x, y, hst, hx, hy, 15, by omega, by omega, by omega, by omega⟩

-- the project meets the assumptions
private theorem demo_graph : WorkGraph demo works where
  once := by decide
  linked := Graph.linked_ofEdges _
  closed := Graph.closed_ofEdges (by decide)
  chains := Graph.chains_ofEdges (by decide)
  acyclic := Graph.acyclic_ofEdges (fun v => v) (by decide)

private theorem demo_deps : OnlyDependencies demo := fun _ e he =>
  (by decide : ∀ e ∈ demoEdges, e.type = .finishStart ∨ e.type = .lagFinishStart ∨ e.type = .inseparable) e (demo_edge he).1

private theorem demo_lag {v : Nat} {e : Edge} (h : e ∈ demo.edgesTo v) : e.lag = 0 :=
  (by decide : ∀ e ∈ demoEdges, e.lag = 0) e (demo_edge h).1

private theorem demo_order : GivesGoodOrders demoRule demo works :=
  topological_order demo_graph _ (fun _ _ _ => Int.le_refl _) _ fun _ => List.Perm.refl _

private theorem demo_zones : Zone.Usable (demoZones fun _ _ => 0) demoReqs where
  free _ _ := rfl
  final := rfl
  once v := by unfold demoReqs; split <;> [skip; split] <;> decide
  known v q hq := by
    have : q.zone = 0 := by
      unfold demoReqs at hq
      split at hq <;> [skip; split at hq] <;> simp at hq <;> subst hq <;> rfl
    rw [this]
    decide

private theorem demo_contractors : C16.SoundContractors demoContractors := by unfold C16.SoundContractors; decide

private theorem demo_staff (v : Nat) : C54.Staffable demoContractors ⟨[], []⟩ (demoWorkers v) := by
  unfold demoWorkers
  split
  · exact ⟨by simp [C16.SoundReqs], by simp, by simp, _, List.mem_cons_self, .inl rfl, by simp⟩
  · refine ⟨by simp [C16.SoundReqs], by simp, by simp, _, List.mem_cons_self, .inl rfl, ?_⟩
    intro r hr
    rw [List.mem_singleton] at hr
    subst hr
    exact ⟨6, by decide, by decide, by simp⟩

example : ∃ N st, (∀ fuel, N ≤ fuel → scheduleJIT (site demoBase (demoZones fun _ _ => 0) demoReqs) demoRule demo works (demoPlan _)
      (LFT.agents demoContractors) (fresh () (demoZones fun _ _ => 0)) fuel = some (some st)) ∧
    Feasible demo works (LFT.agents demoContractors) (Staffs demoContractors (fun _ => ⟨[], []⟩) demoWorkers) st.sched :=
  let ⟨N, st, h1, h2, _⟩ := lft_jit_schedules_with_zones demo_graph demo_deps (fun _ _ he _ => by rw [demo_lag he]) (fun _ _ _ he _ _ => by rw [demo_lag he])
    demoBase ⟨fun _ _ _ => Int.le_refl _, fun s _ t => ⟨s, t, rfl, Int.le_refl _⟩⟩ _ _ demo_zones
    (fun v team => by simp only [demoBase]; split <;> [skip; split] <;> decide) _ demo_order
    ⟨[0, 1, 3, 4], by decide +kernel⟩ _ demo_contractors _ (by simp) _ _ (fun _ _ h => h) _ _ (by decide) _ demo_staff
  ⟨N, st, h1, h2⟩

-- the theorem about the momentum timeline
example {st : Momentum.State (State Unit)} (h : runMomentum (fun _ _ => 0) demoReqs = some (some st)) {x y : SWork}
    (hx : st.sched.get 2 = some x) (hy : st.sched.get 3 = some y) : ¬ x.Together y :=
  momentum_zones_partial demo_graph demo_deps demoBase (demoZones fun _ _ => 0) (fun _ _ => rfl) demoReqs demo_zones.once
    (fun v team => by simp only [demoBase]; split <;> [skip; split] <;> decide) _ demo_order _ (fun _ _ h => by simp [demoPlan, LFT.plan] at h)
    1000 (by decide) (by decide) (fun _ _ _ _ _ _ => Int.le_refl _) _ () 50 50 st h (k := 1) (l := 3) demo_head.1 demo_head.2
    demo_chain .refl ⟨⟨0, 2⟩, by decide, ⟨0, 1⟩, by decide, by decide, by decide, by decide, by decide⟩ hx hy

end Sampo.C96
