import Verif.Lemmas.MatServe
import Verif.Props.C41_Supply
import Verif.Props.C96_ZoneSchedules

/-!
# C97: materials in complete schedules

The list schedulers as in C89, on a site with the zones of C40 and the supply of C41.
-/

namespace Sampo.C97
open Scheduler OnGraph MatSite C89
open C22 (WorkGraph)
open Supply (Modest Housed InCalendar Served)

variable {τ : Type} {g : Graph} {nodes : List Nat}

/-- Just-in-time timeline: the deliveries of every returned schedule serve it. -/
theorem jit_served (base : Env τ) (land : Supply.Land) (hc : Supply.Clear land)
    (needs : Nat → List Supply.Mat) (hm : ∀ v service, Modest land ⟨v, service, needs v⟩) (cfg : Zone.Config)
    (reqs : Nat → List Zone.Req) (hest : ∀ v team, 0 ≤ base.estimate v team) (rule : Rule)
    (P : Plan (JIT.State (ZoneSite.State (State τ)))) (hts : ∀ v ts, P.assignedTimes v = some ts → NonNegTimes ts)
    (hP : 0 ≤ P.parentTime) (pool : AgentId → Option Int) (other : τ) (fuel : Nat) (st : JIT.State (ZoneSite.State (State τ)))
    (h : scheduleJIT (ZoneSite.site (site base land needs) cfg reqs) rule g nodes P pool (ZoneSite.fresh (fresh other land) cfg) fuel =
      some (some st)) (hcal : InCalendar st.env.mat.log) :
    ServesSchedule land needs st.env.mat.log st.sched := by
  unfold scheduleJIT at h
  split at h
  · simp at h
  · have hs := supplied (land := land) (needs := needs) (onGraph base g nodes) cfg reqs
    exact serves hc hm (jit_buildFrom_kept hs (deliver_le hc.long hs) (fun v => Expand.head_mem_chain v) hest hts hP (.inl rfl)
      ⟨.fresh, rfl⟩ h) hcal

/-- Momentum timeline: the same. -/
theorem momentum_served (base : Env τ) (land : Supply.Land) (hc : Supply.Clear land)
    (needs : Nat → List Supply.Mat) (hm : ∀ v service, Modest land ⟨v, service, needs v⟩) (cfg : Zone.Config)
    (reqs : Nat → List Zone.Req) (hest : ∀ v team, 0 ≤ base.estimate v team) (rule : Rule)
    (P : Plan (Momentum.State (ZoneSite.State (State τ)))) (hts : ∀ v ts, P.assignedTimes v = some ts → NonNegTimes ts) (inf : Int)
    (hP : 0 ≤ P.parentTime) (hinf : P.parentTime ≤ inf) (pool : AgentId → Option Int) (other : τ) (fuelIn fuel : Nat)
    (st : Momentum.State (ZoneSite.State (State τ)))
    (h : scheduleMomentum (ZoneSite.site (site base land needs) cfg reqs) rule g nodes P pool (ZoneSite.fresh (fresh other land) cfg) inf
      fuelIn fuel = some (some st)) (hcal : InCalendar st.env.mat.log) :
    ServesSchedule land needs st.env.mat.log st.sched := by
  unfold scheduleMomentum at h
  split at h
  · simp at h
  · have hs := supplied (land := land) (needs := needs) (onGraph base g nodes) cfg reqs
    exact serves hc hm (momentum_buildFrom_kept hs (deliver_le hc.long hs) hest hts hP hinf ⟨.fresh, rfl⟩ h) hcal

/-- Partial: on a just-in-time timeline the works of a platform that are done one after another get what they need, and the storage
of the platform is not overfilled: what it has received covers, together with what it had, what the works have needed, and is not
more than they have needed.  Missing: works beside each other and works that need several materials, where it is false
(`C41.storage_overdrawn_order`, `C41.storage_overdrawn_part`), and the momentum timeline. -/
theorem jit_needs_covered_partial (hw : WorkGraph g nodes) (hdep : OnlyDependencies g) (hlag : ∀ v, ∀ e ∈ g.edgesTo v, 0 ≤ e.lag)
    (base : Env τ) (land : Supply.Land) (hc : Supply.Clear land) (needs : Nat → List Supply.Mat)
    (hm : ∀ v service, Modest land ⟨v, service, needs v⟩ ∧ Housed land ⟨v, service, needs v⟩) (hone : ∀ v, (needs v).length ≤ 1)
    (hplat : OneByOne land nodes g.DependsOn) (cfg : Zone.Config) (reqs : Nat → List Zone.Req)
    (hest : ∀ v team, 0 ≤ base.estimate v team) (rule : Rule) (hrule : GivesGoodOrders rule g nodes)
    (P : Plan (JIT.State (ZoneSite.State (State τ)))) (hts : ∀ v ts, P.assignedTimes v = some ts → NonNegTimes ts)
    (hP : 0 ≤ P.parentTime) (pool : AgentId → Option Int) (other : τ) (fuel : Nat) (st : JIT.State (ZoneSite.State (State τ)))
    (h : scheduleJIT (ZoneSite.site (site base land needs) cfg reqs) rule g nodes P pool (ZoneSite.fresh (fresh other land) cfg) fuel =
      some (some st)) {platform name : Nat} {c : Int} (hp : platform ∈ land.platforms) (hcap : land.capacity platform name = some c)
    (h0 : 0 ≤ c) :
    Supply.needed land st.env.mat.log platform name ≤ c + Supply.received land st.env.mat.log platform name ∧
      Supply.received land st.env.mat.log platform name ≤ Supply.needed land st.env.mat.log platform name := by
  unfold scheduleJIT at h
  split at h
  · simp at h
  · rename_i order horder
    have ho := hrule order horder
    have hs := supplied (land := land) (needs := needs) (onGraph base g nodes) cfg reqs
    have hk := jit_buildFrom_kept hs (deliver_le hc.long hs) (fun v => Expand.head_mem_chain v) hest hts hP (.inl rfl) ⟨.fresh, rfl⟩ h
    obtain ⟨e1, e2, e3⟩ := expand hw hdep (ZoneSite.site (site base land needs) cfg reqs) ho
    have hperm := C10.jit_every_work_once (onGraph (ZoneSite.site (site base land needs) cfg reqs) g nodes) P pool _ fuel order nodes st
      hest hts e1 h
    have hworks := (JIT.buildFrom_run (E := onGraph (ZoneSite.site (site base land needs) cfg reqs) g nodes) hest hts h).works
    rw [show Sched.works ([] : Sched) = [] from rfl, List.append_nil] at hworks
    have ha : Asked (onGraph (ZoneSite.site (site base land needs) cfg reqs) g nodes) st.env.mat.log st.sched := by
      refine jit_buildFrom_asked (E := onGraph (ZoneSite.site (site base land needs) cfg reqs) g nodes)
        (view := fun s => (s.mat.supply, s.mat.log)) hs hest hts (st := ⟨JIT.init pool, ZoneSite.fresh (fresh other land) cfg, []⟩)
        ⟨by simp [ZoneSite.fresh, fresh], by simp [ZoneSite.fresh, fresh]⟩ e3 (by simp [Sched.works]) ?_ h
      exact topoFrom_iff.mpr fun l₁ v l₂ hl p hp => List.mem_append_right _ (e2 l₁ v l₂ hl p hp)
    have hmem : ∀ s ∈ st.env.mat.log, ∃ v service, s.work = ⟨v, service, needs v⟩ := by
      intro s hs
      have : (s.work, s.time) ∈ st.env.mat.log.map fun s => (s.work, s.time) :=
        List.mem_map_of_mem (f := fun s : Served => (s.work, s.time)) hs
      rw [hk.2, List.mem_map] at this
      obtain ⟨e, -, h⟩ := this
      simp only [Prod.mk.injEq] at h
      exact ⟨_, _, h.1.symm⟩
    refine C41.needs_covered_partial hc.long hk.1 (fun s hs => ?_) ?_ ?_ hp hcap h0
    · obtain ⟨v, service, he⟩ := hmem s hs
      rw [he]
      exact hm v service
    · refine in_order (needs := needs) (g := g) (fun _ => rfl) ha hk.2 (hperm.nodup_iff.2 hw.once) ?_ hlag
        (fun v x hx => C11.jit_finish_after_start (onGraph (ZoneSite.site (site base land needs) cfg reqs) g nodes) P pool _ fuel order st
          hest hts h (v, x) (mem_of_get hx))
        (precedence_of (C11.jit_respects_precedence (onGraph (ZoneSite.site (site base land needs) cfg reqs) g nodes) P pool _ fuel order st
          hest hts e2 e3 h))
        (fun v hv w hw' => hplat v (hperm.mem_iff.1 hv) w (hperm.mem_iff.1 hw'))
      intro l₁ v l₂ hsplit p hp
      rw [hworks] at hsplit
      have := congrArg List.reverse hsplit
      rw [List.reverse_reverse] at this
      simp only [List.reverse_append, List.reverse_cons, List.append_assoc, List.singleton_append] at this
      have h1 := e2 l₂.reverse v l₁.reverse this p ?_
      · simpa using h1
      · obtain ⟨e, he, rfl, -⟩ := hp
        simp only [C11.preds, onGraph, List.map_map, List.mem_map, Function.comp]
        exact ⟨e, he, rfl⟩
    · refine all_or_nothing hk.1 fun s hs => ?_
      obtain ⟨v, service, he⟩ := hmem s hs
      rw [he]
      exact hone v

/-! ### A concrete project: works 1 and 3 are on one platform, works 2 and 4 on another one -/

def demoEdges : List Edge := [⟨0, 1, 0, .finishStart⟩, ⟨0, 2, 0, .finishStart⟩, ⟨1, 3, 0, .finishStart⟩, ⟨2, 4, 0, .finishStart⟩,
  ⟨3, 5, 0, .finishStart⟩, ⟨4, 5, 0, .finishStart⟩]
def demo : Graph := Graph.ofEdges demoEdges
def works : List Nat := [0, 1, 2, 3, 4, 5]
def demoBase : Env Unit where
  edgesTo _ := []
  insepParent _ := none
  chain _ := []
  service v := v == 0 || v == 5
  kinds v := if v = 0 ∨ v = 5 then [] else [0]
  estimate _ team := if team = [] then 0 else 5
  matTime _ _ t := t
  zoneTime _ _ t _ := t
  deliver s _ t := some (s, t)
  occupy s _ _ _ := some s
  finishZones s := some (s, 0)
def demoWorkers (v : Nat) : List WorkerReq := if v = 0 ∨ 5 ≤ v then [] else [⟨0, 1, 2⟩]
def demoContractors : List Contractor := [⟨7, [(0, 6)]⟩]
def demoPlan (S : Type) : Plan S :=
  LFT.plan S demoContractors (fun _ => ⟨[], []⟩) demoWorkers (fun _ _ => 0) (fun _ => false) 0
def demoRule : Rule := topologicalRule (fun _ => 1) id
def noZones : Zone.Config := ⟨fun _ => none, [], fun _ _ => 0⟩

/-- One depot with one vehicle, a road to each platform. -/
def depot : Supply.Depot := ⟨0, 0, 1, [⟨1, 10⟩], [⟨1, 100⟩]⟩
def land : Supply.Land where
  depots := [depot]
  depotsFrom _ := [depot]
  roads := [0, 1]
  bandwidth _ := 2
  overcome _ := 3
  route b x y := if b ≤ 2 then (if x = 2 ∨ y = 2 then [1] else [0]) else []
  platforms := [1, 2]
  platform w := if w % 2 = 1 then 1 else 2
  capacity _ m := if m = 1 then some 10 else none
/-- Each work needs as much as a platform can store. -/
def needs (v : Nat) : List Supply.Mat := if v = 0 ∨ 5 ≤ v then [] else [⟨1, 10⟩]

/-- A run of the just-in-time scheduler. -/
def runJIT (g : Graph) (nodes : List Nat) (needs : Nat → List Supply.Mat) :
    Option (Option (JIT.State (ZoneSite.State (State Unit)))) :=
  scheduleJIT (ZoneSite.site (site demoBase land needs) noZones fun _ => []) demoRule g nodes (demoPlan _)
    (LFT.agents demoContractors) (ZoneSite.fresh (fresh () land) noZones) 50
/-- A run of the momentum scheduler. -/
def runMomentum (g : Graph) (nodes : List Nat) (needs : Nat → List Supply.Mat) :
    Option (Option (Momentum.State (ZoneSite.State (State Unit)))) :=
  scheduleMomentum (ZoneSite.site (site demoBase land needs) noZones fun _ => []) demoRule g nodes (demoPlan _)
    (LFT.agents demoContractors) (ZoneSite.fresh (fresh () land) noZones) 1000 50 50

-- works 3 and 4 start at 5, when their materials arrive
example : (runJIT demo works needs).map (·.map fun s => (s.sched.map fun e => (e.1, e.2.start, e.2.finish), s.env.mat.log.flatMap (·.records))) =
    some (some ([(5, 10, 10), (4, 5, 10), (3, 5, 10), (2, 0, 5), (1, 0, 5), (0, 0, 0)], [⟨1, 10, 2, 5, 0⟩, ⟨1, 10, 2, 5, 0⟩])) := by
  decide +kernel
example : (runMomentum demo works needs).map (·.map fun s => (s.sched.map fun e => (e.1, e.2.start, e.2.finish), s.env.mat.log.flatMap (·.records))) =
    some (some ([(5, 10, 10), (4, 5, 10), (3, 5, 10), (2, 0, 5), (1, 0, 5), (0, 0, 0)], [⟨1, 10, 2, 5, 0⟩, ⟨1, 10, 2, 5, 0⟩])) := by
  decide +kernel

/-- Not proved because false: "a depot never sends more vehicles than it has".  Two deliveries use the only vehicle of the depot at
the same time, on both timelines. -/
theorem fleet_exceeded : (∃ st, runJIT demo works needs = some (some st) ∧ depot ∈ land.depots ∧
      (depot.fleet : Int) < Supply.onTheWay st.env.mat.log depot.id 3) ∧
    ∃ st, runMomentum demo works needs = some (some st) ∧ (depot.fleet : Int) < Supply.onTheWay st.env.mat.log depot.id 3 := by
  have h1 : (runJIT demo works needs).join.map (fun st => Supply.onTheWay st.env.mat.log depot.id 3) = some 2 := by decide +kernel
  have h2 : (runMomentum demo works needs).join.map (fun st => Supply.onTheWay st.env.mat.log depot.id 3) = some 2 := by decide +kernel
  simp only [Option.map_eq_some_iff, Option.join_eq_some_iff] at h1 h2
  obtain ⟨s1, r1, e1⟩ := h1
  obtain ⟨s2, r2, e2⟩ := h2
  exact ⟨⟨s1, r1, by decide, by rw [e1]; decide⟩, s2, r2, by rw [e2]; decide⟩

/-- Works 1 and 3, both on the first platform, go beside each other; work 1 has to wait. -/
def sideEdges : List Edge := [⟨0, 1, 10, .lagFinishStart⟩, ⟨0, 3, 0, .finishStart⟩, ⟨1, 5, 0, .finishStart⟩, ⟨3, 5, 0, .finishStart⟩]
def side : Graph := Graph.ofEdges sideEdges
def sideWorks : List Nat := [0, 1, 3, 5]

/-- Not proved because false: "what a platform has and receives covers what its works need", for works beside each other, on both
timelines.  Works 1 and 3 need 20; the platform had 10 and received nothing. -/
theorem works_beside_each_other_overdraw : land.capacity 1 1 = some 10 ∧
    (∃ st, runJIT side sideWorks needs = some (some st) ∧
      10 + Supply.received land st.env.mat.log 1 1 < Supply.needed land st.env.mat.log 1 1) ∧
    ∃ st, runMomentum side sideWorks needs = some (some st) ∧
      10 + Supply.received land st.env.mat.log 1 1 < Supply.needed land st.env.mat.log 1 1 := by
  have h1 : (runJIT side sideWorks needs).join.map (fun st => (Supply.received land st.env.mat.log 1 1,
      Supply.needed land st.env.mat.log 1 1)) = some (0, 20) := by decide +kernel
  have h2 : (runMomentum side sideWorks needs).join.map (fun st => (Supply.received land st.env.mat.log 1 1,
      Supply.needed land st.env.mat.log 1 1)) = some (0, 20) := by decide +kernel
  simp only [Option.map_eq_some_iff, Option.join_eq_some_iff, Prod.mk.injEq] at h1 h2
  obtain ⟨s1, r1, e1, f1⟩ := h1
  obtain ⟨s2, r2, e2, f2⟩ := h2
  exact ⟨by decide, ⟨s1, r1, by omega⟩, s2, r2, by omega⟩

-- the project meets the assumptions
private theorem demo_edge {v : Nat} {e : Edge} (h : e ∈ demo.edgesTo v) : e ∈ demoEdges ∧ e.finish = v := by
  unfold demo at h
  rw [Graph.ofEdges_to] at h
  exact ⟨(List.mem_filter.1 h).1, by simpa using (List.mem_filter.1 h).2⟩

private theorem demo_graph : WorkGraph demo works where
  once := by decide
  linked := Graph.linked_ofEdges _
  closed := Graph.closed_ofEdges (by decide)
  chains := Graph.chains_ofEdges (by decide)
  acyclic := Graph.acyclic_ofEdges (fun v => v) (by decide)

private theorem demo_deps : OnlyDependencies demo := fun _ e he =>
  (by decide : ∀ e ∈ demoEdges, e.type = .finishStart ∨ e.type = .lagFinishStart ∨ e.type = .inseparable) e (demo_edge he).1

private theorem demo_order : GivesGoodOrders demoRule demo works :=
  topological_order demo_graph _ (fun _ _ _ => Int.le_refl _) _ fun _ => List.Perm.refl _

private theorem land_clear : Supply.Clear land := ⟨fun _ => by simp [land], by decide, by decide⟩

private theorem modest (v : Nat) (service : Bool) : Modest land ⟨v, service, needs v⟩ ∧ Housed land ⟨v, service, needs v⟩ := by
  have hp : land.platform v ∈ land.platforms := by simp only [land]; split <;> simp
  unfold needs
  split
  · exact ⟨⟨by simp, by simp⟩, hp, by simp⟩
  · exact ⟨⟨by simp, by simp [land, Supply.vehicles]⟩, hp, by simp [land]⟩

private theorem depends {v p : Nat} (h : ⟨p, v, 0, .finishStart⟩ ∈ demoEdges) : demo.DependsOn v p := by
  refine ⟨⟨p, v, 0, .finishStart⟩, ?_, rfl, .inl rfl⟩
  unfold demo
  rw [Graph.ofEdges_to]
  exact List.mem_filter.2 ⟨h, by simp⟩

private theorem one_by_one : OneByOne land works demo.DependsOn := by
  have d10 : demo.DependsOn 1 0 := depends (by decide)
  have d20 : demo.DependsOn 2 0 := depends (by decide)
  have d31 : demo.DependsOn 3 1 := depends (by decide)
  have d42 : demo.DependsOn 4 2 := depends (by decide)
  have d53 : demo.DependsOn 5 3 := depends (by decide)
  intro v hv w hw hne hp
  simp only [works, List.mem_cons, List.not_mem_nil, or_false] at hv hw
  rcases hv with rfl | rfl | rfl | rfl | rfl | rfl <;> rcases hw with rfl | rfl | rfl | rfl | rfl | rfl <;>
    first
    | exact absurd rfl hne
    | exact absurd hp (by decide)
    | exact .inl (.single d10)
    | exact .inl (.single d20)
    | exact .inl (.single d31)
    | exact .inl (.single d42)
    | exact .inl (.single d53)
    | exact .inr (.single d10)
    | exact .inr (.single d20)
    | exact .inr (.single d31)
    | exact .inr (.single d42)
    | exact .inr (.single d53)
    | exact .inl (.tail (.single d42) d20)
    | exact .inr (.tail (.single d42) d20)
    | exact .inl (.tail (.single d53) d31)
    | exact .inr (.tail (.single d53) d31)

private theorem demo_estimate (v : Nat) (team : List Worker) : 0 ≤ demoBase.estimate v team := by
  simp only [demoBase]; split <;> decide

example : ∃ st, runJIT demo works needs = some (some st) ∧ InCalendar st.env.mat.log ∧
    ServesSchedule land needs st.env.mat.log st.sched ∧
    Supply.needed land st.env.mat.log 1 1 ≤ 10 + Supply.received land st.env.mat.log 1 1 := by
  have h : (runJIT demo works needs).join.map (fun st => decide (∀ s ∈ st.env.mat.log, ∀ b ∈ s.booked,
      b.start < TIME_INF ∧ (b.key.2 = Supply.vehicles → b.finish < TIME_INF))) = some true := by decide +kernel
  simp only [Option.map_eq_some_iff, Option.join_eq_some_iff, decide_eq_true_eq] at h
  obtain ⟨st, hst, hcal⟩ := h
  exact ⟨st, hst, hcal, jit_served demoBase land land_clear needs (fun v b => (modest v b).1) noZones _ demo_estimate _ _
      (fun _ _ h => by simp [demoPlan, LFT.plan] at h) (Int.le_refl _) _ () 50 st hst hcal,
    (jit_needs_covered_partial demo_graph demo_deps (fun v e he => (by decide : ∀ e ∈ demoEdges, 0 ≤ e.lag) e (demo_edge he).1)
      demoBase land land_clear needs modest (fun v => by unfold needs; split <;> simp) one_by_one noZones _ demo_estimate _ demo_order _
      (fun _ _ h => by simp [demoPlan, LFT.plan] at h) (Int.le_refl _) _ () 50 st hst (by decide) (by decide) (by decide)).1⟩

example : ∃ st, runMomentum demo works needs = some (some st) ∧ InCalendar st.env.mat.log ∧
    ServesSchedule land needs st.env.mat.log st.sched := by
  have h : (runMomentum demo works needs).join.map (fun st => decide (∀ s ∈ st.env.mat.log, ∀ b ∈ s.booked,
      b.start < TIME_INF ∧ (b.key.2 = Supply.vehicles → b.finish < TIME_INF))) = some true := by decide +kernel
  simp only [Option.map_eq_some_iff, Option.join_eq_some_iff, decide_eq_true_eq] at h
  obtain ⟨st, hst, hcal⟩ := h
  exact ⟨st, hst, hcal, momentum_served demoBase land land_clear needs (fun v b => (modest v b).1) noZones _ demo_estimate _ _
      (fun _ _ h => by simp [demoPlan, LFT.plan] at h) 1000 (Int.le_refl _) (by decide) _ () 50 50 st hst hcal⟩

end Sampo.C97
