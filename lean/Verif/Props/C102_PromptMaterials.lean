import Verif.Lemmas.Prompt
import Verif.Props.C99_GeneticOnSite

/-!
# C102: materials do not delay a work that the search has placed

The schedulers on the sites of C97 and C99.  `Supply.Prompt land log v`: work `v` got its materials at the very moment for which they
were ordered, that is, at the start which the search had found for it.
-/

namespace Sampo.C102
open Scheduler OnGraph MatSite C89
open C22 (WorkGraph)
open GeneticRun
open Genetic (Ind Problem)
open GeneticLoop (runFree runDeadline)

variable {τ : Type} {g : Graph} {nodes : List Nat}

private theorem first_idle {needs : Nat → List Supply.Mat}
    (hidle : ∀ v, g.IsHead nodes v → (∀ p, ¬ g.HeadDependsOn nodes v p) → needs v = []) {order : List Nat}
    (ho : GoodOrder g nodes order) {v : Nat} (hv : order.head? = some v) : needs v = [] := by
  obtain ⟨-, h2, h3⟩ := ho
  refine hidle v ((h2 v).1 (List.mem_of_mem_head? hv)) fun p hd => ?_
  have hpm := (h2 p).2 hd.2.1
  cases order with
  | nil => cases hv
  | cons a as =>
    simp only [List.head?_cons, Option.some.injEq] at hv
    subst hv
    rcases List.mem_cons.1 hpm with rfl | hpm
    · exact hd.2.2.1 rfl
    · exact (List.pairwise_cons.1 h3).1 p hpm hd

/-- The list schedulers on a momentum timeline: every work that begins a chain gets its materials at the start found for it, if works
that need materials have workers and do not begin the project. -/
theorem momentum_prompt (base : Env τ) (land : Supply.Land) (hc : Supply.Clear land) (needs : Nat → List Supply.Mat)
    (hidle : ∀ v, g.IsHead nodes v → (∀ p, ¬ g.HeadDependsOn nodes v p) → needs v = []) (cfg : Zone.Config)
    (reqs : Nat → List Zone.Req) (hest : ∀ v team, 0 ≤ base.estimate v team) (rule : Rule) (hrule : GivesGoodOrders rule g nodes)
    (P : Plan (Momentum.State (ZoneSite.State (State τ)))) (hts : ∀ v ts, P.assignedTimes v = some ts → NonNegTimes ts)
    (hlag : ∀ v ts p, P.assignedTimes v = some ts → ts v = some p → p.1 = 0)
    (hteam : ∀ v, needs v ≠ [] → base.service v = false → ∀ st c, P.choose st v = some c → c.1 ≠ []) (inf : Int)
    (hP : 0 ≤ P.parentTime) (hinf : P.parentTime ≤ inf) (pool : AgentId → Option Int) (other : τ) (fuelIn fuel : Nat)
    (st : Momentum.State (ZoneSite.State (State τ)))
    (h : scheduleMomentum (ZoneSite.site (site base land needs) cfg reqs) rule g nodes P pool (ZoneSite.fresh (fresh other land) cfg) inf
      fuelIn fuel = some (some st)) {k : Nat} (hk : g.IsHead nodes k) : Supply.Prompt land st.env.mat.log k := by
  unfold scheduleMomentum at h
  split at h
  · simp at h
  · rename_i order horder
    have ho := hrule order horder
    have hs := supplied (land := land) (needs := needs) (onGraph base g nodes) cfg reqs
    exact (momentum_buildFrom_prompt hs (asks (onGraph base g nodes) cfg reqs) (deliver_le hc.long hs) hest hts hlag hP hinf
      (fun v hv => Expand.chain_head ((ho.2.1 v).1 hv)) (fun _ v hv => first_idle hidle ho hv) (fun v _ => hteam v)
      ⟨.fresh, rfl⟩ h).2 k ((ho.2.1 k).2 hk)

/-- Decoding a valid chromosome: every work that begins a chain and is in the schedule gets its materials at the start found for it. -/
theorem decoded_prompt {J : Project} {m : Nat} (h : Sound J m) (hJ : C92.Plain J) {heads : List Nat} {P : Problem}
    (hp : prepare J = some (heads, P)) {optimize : Bool} {i : Ind} (hi : Good P optimize i) (base : Env τ) {land : Supply.Land}
    (hc : Supply.Clear land) {needs : Nat → List Supply.Mat}
    (hidle : ∀ v, J.graph.IsHead J.nodes v → (∀ p, ¬ J.graph.HeadDependsOn J.nodes v p) → needs v = [])
    {cfg : Zone.Config} {zones : Nat → List Zone.Req} (B : Decode.Input (ZoneSite.State (MatSite.State τ)))
    (hB : Steady (ZoneSite.site (MatSite.site base land needs) cfg zones) B) (inf : Int) (other : τ) (fuel : Nat)
    (L : Decode.Loop (ZoneSite.State (MatSite.State τ)))
    (hL : C99.decoded base land needs cfg zones J heads B inf other fuel i = some (some L)) {k : Nat} (hk : J.graph.IsHead J.nodes k)
    (hin : k ∈ L.st.sched.works) : Supply.Prompt land L.st.env.mat.log k := by
  have hB' : Steady (ZoneSite.site (MatSite.site base land needs) cfg zones) (Decode.onSite B base.service land needs cfg zones) :=
    ⟨hB.estimate, hB.volume, hB.share, hB.assigned, hB.start, hB.independent⟩
  have ho := (prepare_prepared h hp).goodOrder hi.valid
  have hs := sane (J := J) hB' heads i
  have hts := fun idx j (_ : j ∈ i.order) it hit => C28.good_times hs idx j it hit
  obtain ⟨e1, -, e3⟩ := OnGraph.expand h.graph hJ.dependencies (ZoneSite.site (MatSite.site base land needs) cfg zones) ho
  have hsup := MatSite.supplied (land := land) (needs := needs) (Scheduler.onGraph base J.graph J.nodes) cfg zones
  have key := Decode.parallel_prompt (D := input J heads (Decode.onSite B base.service land needs cfg zones) i) hsup
    (fun s v t hm => by simpa [input, Decode.onSite, Scheduler.onGraph, ZoneSite.site, MatSite.site] using hm)
    (fun hr => (asks (land := land) (needs := needs) (Scheduler.onGraph base J.graph J.nodes) cfg zones).finish hr)
    (MatSite.deliver_le hc.long hsup) hB.estimate hB.start hB.independent
    (fun j hj => Expand.chain_head ((ho.2.1 _).1 (List.mem_map_of_mem hj))) hts
    (fun j hj => first_idle hidle ho (v := node heads j) (by
      rw [List.head?_map, show i.order.head? = some j by rw [List.head?_eq_getElem?]; exact hj]; rfl))
    (env := ZoneSite.fresh (MatSite.fresh other land) cfg) ⟨.fresh, rfl⟩ hL
  obtain ⟨j, hj, rfl⟩ := List.mem_map.1 ((ho.2.1 k).2 hk)
  rcases key j hj with hit | hit
  · exfalso
    obtain ⟨w1, -⟩ := C28.parallel_every_work_once _ _ _ inf fuel L hs hL
    rw [works_eq] at w1
    have hn := w1.nodup_iff.2 e3
    rw [List.nodup_append] at hn
    exact hn.2.2 _ hin _ (List.mem_flatMap.2 ⟨_, hit, Expand.head_mem_chain _⟩) rfl
  · exact hit

/-- The whole genetic scheduler without a deadline: the same for every schedule that a member of the hall of fame is decoded to. -/
theorem free_schedules_prompt {J : Project} {m : Nat} (h : Sound J m) (hJ : C92.Plain J) {heads : List Nat} {P : Problem}
    (hp : prepare J = some (heads, P)) (base : Env τ) {land : Supply.Land} (hc : Supply.Clear land) {needs : Nat → List Supply.Mat}
    (hidle : ∀ v, J.graph.IsHead J.nodes v → (∀ p, ¬ J.graph.HeadDependsOn J.nodes v p) → needs v = [])
    {cfg : Zone.Config} {zones : Nat → List Zone.Req} (B : Decode.Input (ZoneSite.State (MatSite.State τ)))
    (hB : Steady (ZoneSite.site (MatSite.site base land needs) cfg zones) B) (inf : Int) (other : τ) (optimize : Bool) (R : Randomness)
    (hR : R.Possible P) (fit : Ind → List Int) (sel : List Ind → List Ind) (hsel : ∀ l, ∀ a ∈ sel l, a ∈ l) (maxPlateau : Option Nat)
    (generations : Nat) (pop : List Ind) (hpop : ∀ i ∈ pop, C92.Converted J heads i) (s : GeneticLoop.State Ind)
    (hs : runFree fit sel (stage P optimize R) maxPlateau generations pop = some s) :
    ∀ i ∈ s.hof, ∀ fuel L, C99.decoded base land needs cfg zones J heads B inf other fuel i = some (some L) →
      ∀ k, J.graph.IsHead J.nodes k → k ∈ L.st.sched.works → Supply.Prompt land L.st.env.mat.log k := fun i hi fuel L hL _ hk hin =>
  decoded_prompt h hJ hp (C92.free_hall_valid h hp optimize R hR fit sel hsel maxPlateau generations pop hpop s hs i hi) base hc hidle B hB
    inf other fuel L hL hk hin

/-- With a deadline: the same. -/
theorem deadline_schedules_prompt {J : Project} {m : Nat} (h : Sound J m) (hJ : C92.Plain J) {heads : List Nat} {P : Problem}
    (hp : prepare J = some (heads, P)) (base : Env τ) {land : Supply.Land} (hc : Supply.Clear land) {needs : Nat → List Supply.Mat}
    (hidle : ∀ v, J.graph.IsHead J.nodes v → (∀ p, ¬ J.graph.HeadDependsOn J.nodes v p) → needs v = [])
    {cfg : Zone.Config} {zones : Nat → List Zone.Req} (B : Decode.Input (ZoneSite.State (MatSite.State τ)))
    (hB : Steady (ZoneSite.site (MatSite.site base land needs) cfg zones) B) (inf : Int) (other : τ) (optimize : Bool) (R R' : Randomness)
    (hR : R.Possible P) (hR' : R'.Possible P) (time : Ind → Int) (res : Ind → List Int) (sel sel' : List Ind → List Ind)
    (hsel : ∀ l, ∀ a ∈ sel l, a ∈ l) (hsel' : ∀ l, ∀ a ∈ sel' l, a ∈ l) (deadline : Int) (fill : List Ind → Nat → List Ind)
    (hfill : ∀ l n, ∀ a ∈ fill l n, a ∈ l) (maxPlateau : Option Nat) (generations size : Nat) (pop : List Ind)
    (hpop : ∀ i ∈ pop, C92.Converted J heads i) (s : GeneticLoop.State Ind)
    (hrun : runDeadline time res sel sel' (stage P optimize R) (stage P true R') deadline fill maxPlateau generations size pop = some s) :
    ∀ i ∈ s.hof, ∀ fuel L, C99.decoded base land needs cfg zones J heads B inf other fuel i = some (some L) →
      ∀ k, J.graph.IsHead J.nodes k → k ∈ L.st.sched.works → Supply.Prompt land L.st.env.mat.log k := fun i hi fuel L hL _ hk hin =>
  decoded_prompt h hJ hp (C92.deadline_hall_valid h hp optimize R R' hR hR' time res sel sel' hsel hsel' deadline fill hfill maxPlateau
    generations size pop hpop s hrun i hi) base hc hidle B hB inf other fuel L hL hk hin

/-! ### Concrete projects: the site of C97 with one narrow road -/

/-- One road on which there is room for one vehicle. -/
private def land1 : Supply.Land :=
  { C97.land with roads := [0], bandwidth := fun _ => 1, route := fun b _ _ => if b ≤ 1 then [0] else [] }
private def base (d : Int) : Env Unit := { C97.demoBase with estimate := fun _ team => if team = [] then 0 else d }
private def contractors : List Contractor := [⟨7, [(0, 60)]⟩]
private def plan (S : Type) : Plan S :=
  LFT.plan S contractors (fun _ => ⟨[], []⟩) C97.demoWorkers (fun _ _ => 0) (fun _ => false) 0
private def runJIT (d : Int) (g : Graph) (nodes : List Nat) : Option (Option (JIT.State (ZoneSite.State (MatSite.State Unit)))) :=
  scheduleJIT (ZoneSite.site (site (base d) land1 C97.needs) C97.noZones fun _ => []) C97.demoRule g nodes (plan _)
    (LFT.agents contractors) (ZoneSite.fresh (fresh () land1) C97.noZones) 50
private def runMomentum (d : Int) (g : Graph) (nodes : List Nat) :
    Option (Option (Momentum.State (ZoneSite.State (MatSite.State Unit)))) :=
  scheduleMomentum (ZoneSite.site (site (base d) land1 C97.needs) C97.noZones fun _ => []) C97.demoRule g nodes (plan _)
    (LFT.agents contractors) (ZoneSite.fresh (fresh () land1) C97.noZones) 1000 50 50

/-- Works 1 and 3 are a chain. -/
private def chainEdges : List Edge := [⟨0, 1, 0, .finishStart⟩, ⟨1, 3, 0, .inseparable⟩, ⟨3, 5, 0, .finishStart⟩]
private def chain : Graph := Graph.ofEdges chainEdges

/-- Not proved because false: "no work waits for its materials".  Nobody asks for the materials of the works of a chain but the first:
work 3 should go on at 2 and has to wait until 3, with its workers, on both timelines. -/
theorem followers_late :
    (∃ st, runMomentum 2 chain [0, 1, 3, 5] = some (some st) ∧ ∃ s ∈ st.env.mat.log, s.work.id = 3 ∧ s.deadline = 2 ∧ s.time = 3) ∧
    ∃ st, runJIT 2 chain [0, 1, 3, 5] = some (some st) ∧ ∃ s ∈ st.env.mat.log, s.work.id = 3 ∧ s.deadline = 2 ∧ s.time = 3 := by
  have h1 : (runMomentum 2 chain [0, 1, 3, 5]).join.map (fun st => st.env.mat.log.map fun s => (s.work.id, s.deadline, s.time)) =
      some [(5, 5, 5), (3, 2, 3), (1, 0, 0), (0, 0, 0)] := by decide +kernel
  have h2 : (runJIT 2 chain [0, 1, 3, 5]).join.map (fun st => st.env.mat.log.map fun s => (s.work.id, s.deadline, s.time)) =
      some [(5, 5, 5), (3, 2, 3), (1, 0, 0), (0, 0, 0)] := by decide +kernel
  simp only [Option.map_eq_some_iff, Option.join_eq_some_iff] at h1 h2
  obtain ⟨s1, r1, e1⟩ := h1
  obtain ⟨s2, r2, e2⟩ := h2
  have m1 : (3, 2, 3) ∈ s1.env.mat.log.map fun s => (s.work.id, s.deadline, s.time) := by rw [e1]; decide
  have m2 : (3, 2, 3) ∈ s2.env.mat.log.map fun s => (s.work.id, s.deadline, s.time) := by rw [e2]; decide
  obtain ⟨a, ha, ea⟩ := List.mem_map.1 m1
  obtain ⟨b, hb, eb⟩ := List.mem_map.1 m2
  simp only [Prod.mk.injEq] at ea eb
  exact ⟨⟨s1, r1, a, ha, ea⟩, s2, r2, b, hb, eb⟩

private theorem demo_edge {v : Nat} {e : Edge} (h : e ∈ C97.demo.edgesTo v) : e ∈ C97.demoEdges ∧ e.finish = v := by
  unfold C97.demo at h
  rw [Graph.ofEdges_to] at h
  exact ⟨(List.mem_filter.1 h).1, by simpa using (List.mem_filter.1 h).2⟩

private theorem demo_heads {v : Nat} (hv : v ∈ C97.works) : C97.demo.IsHead C97.works v := by
  refine ⟨hv, ?_⟩
  rintro p ⟨e, he, -, ht⟩
  exact (by decide : ∀ e ∈ C97.demoEdges, e.type ≠ .inseparable) e (demo_edge he).1 ht

/-- Not proved because false: the list schedulers on a just-in-time timeline keep the promises of the search.  The search looks for a
start without regard to the works before; work 4 is found to start at 3, while the road is free, but has to wait for work 2 until 20,
and then the road is taken: its materials come at 26. -/
theorem jit_late : C97.demo.IsHead C97.works 4 ∧ ∃ st, runJIT 20 C97.demo C97.works = some (some st) ∧
    ∃ s ∈ st.env.mat.log, s.work.id = 4 ∧ s.deadline = 20 ∧ s.time = 26 := by
  have h1 : (runJIT 20 C97.demo C97.works).join.map (fun st => st.env.mat.log.map fun s => (s.work.id, s.deadline, s.time)) =
      some [(5, 46, 46), (4, 20, 26), (3, 20, 20), (2, 0, 0), (1, 0, 0), (0, 0, 0)] := by decide +kernel
  simp only [Option.map_eq_some_iff, Option.join_eq_some_iff] at h1
  obtain ⟨s1, r1, e1⟩ := h1
  have m1 : (4, 20, 26) ∈ s1.env.mat.log.map fun s => (s.work.id, s.deadline, s.time) := by rw [e1]; decide
  obtain ⟨a, ha, ea⟩ := List.mem_map.1 m1
  simp only [Prod.mk.injEq] at ea
  exact ⟨demo_heads (by decide), s1, r1, a, ha, ea⟩

-- the same project on a momentum timeline: work 4 is ordered for 26 and gets its materials at 26
private theorem demo_graph : WorkGraph C97.demo C97.works where
  once := by decide
  linked := Graph.linked_ofEdges _
  closed := Graph.closed_ofEdges (by decide)
  chains := Graph.chains_ofEdges (by decide)
  acyclic := Graph.acyclic_ofEdges (fun v => v) (by decide)

private theorem demo_idle (v : Nat) (hv : C97.demo.IsHead C97.works v) (hd : ∀ p, ¬ C97.demo.HeadDependsOn C97.works v p) :
    C97.needs v = [] := by
  have key : ∀ v ∈ C97.works, v = 0 ∨ ∃ p ∈ C97.works, p ≠ v ∧ ⟨p, v, 0, .finishStart⟩ ∈ C97.demoEdges := by decide
  rcases key v hv.1 with rfl | ⟨p, hp, hne, he⟩
  · rfl
  · refine absurd ⟨hv, demo_heads hp, hne, v, p, .refl, .refl, ⟨p, v, 0, .finishStart⟩, ?_, rfl, .inl rfl⟩ (hd p)
    unfold C97.demo
    rw [Graph.ofEdges_to]
    exact List.mem_filter.2 ⟨he, by simp⟩

example : ∃ st, runMomentum 20 C97.demo C97.works = some (some st) ∧ (∀ k ∈ C97.works, Supply.Prompt land1 st.env.mat.log k) ∧
    st.env.mat.log.map (fun s => (s.work.id, s.deadline, s.time)) =
      [(5, 46, 46), (4, 26, 26), (3, 20, 20), (2, 0, 0), (1, 0, 0), (0, 0, 0)] := by
  have h1 : (runMomentum 20 C97.demo C97.works).join.map (fun st => st.env.mat.log.map fun s => (s.work.id, s.deadline, s.time)) =
      some [(5, 46, 46), (4, 26, 26), (3, 20, 20), (2, 0, 0), (1, 0, 0), (0, 0, 0)] := by decide +kernel
  simp only [Option.map_eq_some_iff, Option.join_eq_some_iff] at h1
  obtain ⟨st, r1, e1⟩ := h1
  refine ⟨st, r1, fun k hk => ?_, e1⟩
  refine momentum_prompt (base 20) land1 ⟨fun _ => by simp [land1, C97.land], by decide, by decide⟩ C97.needs demo_idle C97.noZones _
    (fun v team => by simp only [base]; split <;> decide) C97.demoRule
    (topological_order demo_graph _ (fun _ _ _ => Int.le_refl _) _ fun _ => List.Perm.refl _) (plan _)
    (fun _ _ h => by simp [plan, LFT.plan] at h) (fun _ _ _ h => by simp [plan, LFT.plan] at h) ?_ 1000 (Int.le_refl _) (by decide) _ () 50 50
    st r1 (demo_heads hk)
  intro v hn _ st c hch
  have hv : ¬ (v = 0 ∨ 5 ≤ v) := by
    intro hv
    exact hn (by unfold C97.needs; rw [if_pos hv])
  have key : ∀ v ∈ [1, 2, 3, 4], ((LFT.choose contractors (fun _ => ⟨[], []⟩) C97.demoWorkers (fun _ _ => 0) v).map
      fun c => c.1.isEmpty) = some false := by decide +kernel
  have := key v (by simp only [List.mem_cons, List.not_mem_nil, or_false]; omega)
  rw [show LFT.choose contractors (fun _ => ⟨[], []⟩) C97.demoWorkers (fun _ _ => 0) v = some c from hch] at this
  intro h0
  rw [Option.map_some, h0] at this
  simp at this

-- decoding (the project of `Lemmas/GeneticDemo.lean`): works 1 and 2 are a chain, work 3 goes beside work 1; works 1, 2 and 3 need material
private def input0 : Decode.Input (ZoneSite.State (MatSite.State Unit)) where
  order := []
  chrom := ⟨fun _ _ => 0, fun _ => 0, fun _ _ => 0⟩
  node := id
  reqs := fun _ => []
  spec := fun _ => {}
  independent := fun _ => false
  assignedTime := fun _ => none
  volume := fun _ => 1
  share := Assigned.exactShare
  pool := fun _ _ => none
  kinds := 0
  parentTime := 5
  parents := fun _ => []
  matOk := fun _ _ _ => true
  zoneOk := fun _ _ _ _ => true
private def needs (v : Nat) : List Supply.Mat := if v = 0 ∨ 4 ≤ v then [] else [⟨1, 10⟩]
private def ind : Ind := ⟨[0, 1, 2, 3], fun w k => if w = 1 then 1 else if w = 2 ∧ k = 0 then 2 else 0, fun _ => 0, GeneticDemo.J.borders⟩
private abbrev IsValid (P : Problem) (i : Ind) : Prop :=
  i.order.Perm (List.range P.n) ∧ (i.order.Pairwise fun v p => ¬ p ∈ P.parents v) ∧ (i.order.Pairwise fun a b => P.prio a ≤ P.prio b) ∧
    (∀ w < P.n, ∀ k < P.m, P.lo w k ≤ i.res.amount w k) ∧ (∀ w < P.n, ∀ k < P.m, i.res.amount w k ≤ P.hi w k) ∧
    (∀ w < P.n, ∀ k < P.m, i.res.amount w k ≤ i.res.border (i.res.contractor w) k) ∧ (∀ w < P.n, i.res.contractor w < P.nc) ∧
    (∀ w < P.n, P.enabled w (i.res.contractor w) = true) ∧ (∀ c < P.nc, ∀ k < P.m, i.res.border c k = P.cap c k) ∧
    ∀ c < P.nc, ∀ k < P.m, 0 ≤ i.res.border c k

private theorem good {P : Problem} {i : Ind} (h : IsValid P i) : Good P false i :=
  let ⟨h3, h4, h5, h6, h7, h8, h9, h10, h11, h12⟩ := h
  ⟨⟨h3, h4, h5, ⟨h6, h7, h8, h9, h10, fun c hc k hk => Int.le_of_eq (h11 c hc k hk)⟩⟩, h12, .inr h11⟩

private theorem demo_depends {v : Nat} (hv : GeneticDemo.J.graph.IsHead GeneticDemo.J.nodes v) (hne : v ≠ 0) :
    ∃ p, GeneticDemo.J.graph.HeadDependsOn GeneticDemo.J.nodes v p := by
  have hm := ((C22.collapse_preserves_dependencies GeneticDemo.graph GeneticDemo.collapse).2.1 v).2 hv
  have key : ∀ v ∈ [0, 3, 1, 4], v ≠ 0 → ∃ p, p ∈ (List.lookup v [(0, []), (1, [0, 3]), (3, [0]), (4, [1])]).getD [] := by
    intro v hv hne
    simp only [List.mem_cons, List.not_mem_nil, or_false] at hv
    rcases hv with rfl | rfl | rfl | rfl
    · exact absurd rfl hne
    · exact ⟨0, by decide⟩
    · exact ⟨0, by decide⟩
    · exact ⟨1, by decide⟩
  obtain ⟨p, hp⟩ := key v hm hne
  exact ⟨p, ((C22.collapse_tables GeneticDemo.graph GeneticDemo.collapse v p).1).1 hp⟩

-- works 1 and 3 get their material at 7, as ordered
example : ∃ heads P L, prepare GeneticDemo.J = some (heads, P) ∧ Good P false ind ∧
    C99.decoded GeneticDemo.site C97.land needs C97.noZones (fun _ => []) GeneticDemo.J heads input0 1000 () 30 ind = some (some L) ∧
    L.st.env.mat.log.map (fun s => (s.work.id, s.deadline, s.time)) = [(4, 52, 52), (2, 37, 37), (1, 7, 7), (3, 7, 7), (0, 5, 5)] ∧
    ∀ k, GeneticDemo.J.graph.IsHead GeneticDemo.J.nodes k → k ∈ L.st.sched.works → Supply.Prompt C97.land L.st.env.mat.log k := by
  have key : ((prepare GeneticDemo.J).bind fun hp => (C99.decoded GeneticDemo.site C97.land needs C97.noZones (fun _ => []) GeneticDemo.J hp.1
      input0 1000 () 30 ind).join.map fun L => (L.st.env.mat.log.map (fun s => (s.work.id, s.deadline, s.time)), decide (IsValid hp.2 ind))) =
      some ([(4, 52, 52), (2, 37, 37), (1, 7, 7), (3, 7, 7), (0, 5, 5)], true) := by decide +kernel
  simp only [Option.bind_eq_some_iff, Option.map_eq_some_iff, Option.join_eq_some_iff, Prod.mk.injEq, decide_eq_true_eq] at key
  obtain ⟨⟨heads, P⟩, hp, L, hL, h1, h2⟩ := key
  refine ⟨heads, P, L, hp, good h2, hL, h1, fun k hk hin => ?_⟩
  refine decoded_prompt GeneticDemo.sound ?_ hp (good h2) GeneticDemo.site ⟨fun _ => by simp [C97.land], by decide, by decide⟩ ?_ input0 ?_
    1000 () 30 L hL hk hin
  · exact ⟨GeneticDemo.deps, fun v e he _ => GeneticDemo.lag he, fun v => by simp only [GeneticDemo.J]; split <;> rfl,
      0, rfl, fun v hv hne => demo_depends hv hne⟩
  · intro v hv hd
    by_cases h0 : v = 0
    · subst h0; rfl
    · obtain ⟨p, hp⟩ := demo_depends hv h0
      exact absurd hp (hd p)
  · exact ⟨GeneticDemo.est, fun _ => Int.zero_le_ofNat 1, C13.exactShare_fair, fun v t h => by simp [input0] at h, by decide, fun _ => rfl⟩

end Sampo.C102
