import Verif.Lemmas.DecodeSite
import Verif.Lemmas.MatServe
import Verif.Props.C92_GeneticScheduler
import Verif.Props.C97_SuppliedSchedules

/-!
# C99: zones and materials in the schedules of the genetic scheduler

The genetic scheduler as in C92, on a site with the zones of C40 and the supply of C41.
-/

namespace Sampo.C99

open GeneticRun
open Genetic (Ind Problem)
open GeneticLoop (State runFree runDeadline)
open Supply (Modest InCalendar)
open C92 (Plain Converted)

variable {τ : Type} {J : Project} {m : Nat}

/-- The landscape of a project: depots, roads and platforms, and zones whose changes of status cost nothing. -/
structure Landscape (J : Project) (land : Supply.Land) (needs : Nat → List Supply.Mat) (cfg : Zone.Config)
    (zones : Nat → List Zone.Req) : Prop where
  clear : Supply.Clear land
  modest : ∀ v service, Modest land ⟨v, service, needs v⟩
  free : ∀ a b, cfg.costs a b = 0
  once : ∀ v, ((zones v).map (·.zone)).Nodup
  /-- a chain that depends on nothing needs no zones -/
  first : ∀ v, J.graph.IsHead J.nodes v → (∀ p, ¬ J.graph.HeadDependsOn J.nodes v p) → zones v = []

/-- The result of decoding chromosome `i` on this landscape. -/
def decoded (base : Env τ) (land : Supply.Land) (needs : Nat → List Supply.Mat) (cfg : Zone.Config) (zones : Nat → List Zone.Req)
    (J : Project) (heads : List Nat) (B : Decode.Input (ZoneSite.State (MatSite.State τ))) (inf : Int) (other : τ) (fuel : Nat) (i : Ind) :
    Option (Option (Decode.Loop (ZoneSite.State (MatSite.State τ)))) :=
  schedule (ZoneSite.site (MatSite.site base land needs) cfg zones) J heads (Decode.onSite B base.service land needs cfg zones) inf
    (ZoneSite.fresh (MatSite.fresh other land) cfg) fuel i

/-- What a user expects from a schedule on a landscape: it is valid if it contains all works; its deliveries serve it as long as
they are within the calendar; works that need a zone in different statuses are never done at the same time. -/
structure Respects (J : Project) (land : Supply.Land) (needs : Nat → List Supply.Mat) (zones : Nat → List Zone.Req)
    (st : JIT.State (ZoneSite.State (MatSite.State τ))) : Prop where
  valid : (∀ v ∈ J.nodes, v ∈ st.sched.works) → Feasible J.graph J.nodes (LFT.agents J.contractors) (Serves J) st.sched
  served : InCalendar st.env.mat.log → ServesSchedule land needs st.env.mat.log st.sched
  zones : ∀ k l v w x y, J.graph.IsHead J.nodes k → J.graph.IsHead J.nodes l → J.graph.InChain k v → J.graph.InChain l w →
    Zone.Incompatible (zones k) (zones l) → st.sched.get v = some x → st.sched.get w = some y → ¬ x.Together y

private theorem first_free {land : Supply.Land} {needs : Nat → List Supply.Mat} {cfg : Zone.Config} {zones : Nat → List Zone.Req}
    (hland : Landscape J land needs cfg zones) {order : List Nat} (ho : C89.GoodOrder J.graph J.nodes order) {v : Nat}
    (hv : order[0]? = some v) : zones v = [] := by
  obtain ⟨-, h2, h3⟩ := ho
  refine hland.first v ((h2 v).1 (List.mem_of_getElem? hv)) fun p hd => ?_
  have hpm := (h2 p).2 hd.2.1
  cases order with
  | nil => cases hv
  | cons a as =>
    simp only [List.getElem?_cons_zero, Option.some.injEq] at hv
    subst hv
    rcases List.mem_cons.1 hpm with rfl | hpm
    · exact hd.2.2.1 rfl
    · exact (List.pairwise_cons.1 h3).1 p hpm hd

/-- Decoding: every schedule decoded from a valid chromosome respects zones and materials. -/
theorem decoded_respects (h : Sound J m) (hJ : Plain J) {heads : List Nat} {P : Problem} (hp : prepare J = some (heads, P))
    {optimize : Bool} {i : Ind} (hi : Good P optimize i) (base : Env τ) {land : Supply.Land} {needs : Nat → List Supply.Mat}
    {cfg : Zone.Config} {zones : Nat → List Zone.Req} (hland : Landscape J land needs cfg zones)
    (B : Decode.Input (ZoneSite.State (MatSite.State τ))) (hB : Steady (ZoneSite.site (MatSite.site base land needs) cfg zones) B)
    (inf : Int) (other : τ) (fuel : Nat) (L : Decode.Loop (ZoneSite.State (MatSite.State τ)))
    (hL : decoded base land needs cfg zones J heads B inf other fuel i = some (some L)) : Respects J land needs zones L.st := by
  have hB' : Steady (ZoneSite.site (MatSite.site base land needs) cfg zones) (Decode.onSite B base.service land needs cfg zones) :=
    ⟨hB.estimate, hB.volume, hB.share, hB.assigned, hB.start, hB.independent⟩
  have hp' := prepare_prepared h hp
  have ho := hp'.goodOrder hi.valid
  obtain ⟨e1, e2, e3⟩ := OnGraph.expand h.graph hJ.dependencies (ZoneSite.site (MatSite.site base land needs) cfg zones) ho
  have hs := sane (J := J) hB' heads i
  have hts := fun idx j (_ : j ∈ i.order) it hit => C28.good_times hs idx j it hit
  refine ⟨fun hall => C92.decoded_feasible h hJ hp hi _ _ hB' inf _ fuel L hL hall, fun hcal => ?_, ?_⟩
  · have hsup := MatSite.supplied (land := land) (needs := needs) (Scheduler.onGraph base J.graph J.nodes) cfg zones
    exact MatSite.serves hland.clear hland.modest (Decode.parallel_kept
      (D := input J heads (Decode.onSite B base.service land needs cfg zones) i) hsup (MatSite.deliver_le hland.clear.long hsup) hB.estimate hB.start
      hB.independent hts (env := ZoneSite.fresh (MatSite.fresh other land) cfg) ⟨.fresh, rfl⟩ hL) hcal
  · obtain ⟨done, hheld, hperm⟩ := Decode.parallel_held (base := Scheduler.onGraph (MatSite.site base land needs) J.graph J.nodes)
      (D := input J heads (Decode.onSite B base.service land needs cfg zones) i) (fun _ _ _ _ => rfl) hland.once
      (fun v => Expand.head_mem_chain v) hB.estimate hB.start hB.independent hts
      (fun j hj => first_free hland ho (by rw [List.getElem?_map, show i.order[0]? = some j from hj]; rfl)) hL
    intro k l v w x y hk hl hv hw hi hx hy
    have hheld' : ZoneSite.Held cfg zones (Scheduler.onGraph (MatSite.site base land needs) J.graph J.nodes).chain (i.order.map (node heads))
        L.st.sched L.st.env := hheld.mono fun a ha => hperm.mem_iff.1 (List.mem_append_left _ ha)
    exact hheld'.apart hland.free e3 ((ho.2.1 k).2 hk) ((ho.2.1 l).2 hl) ((Heads.mem_chain h.graph.ok hk).2 hv)
      ((Heads.mem_chain h.graph.ok hl).2 hw) hi hx hy

/-- The whole scheduler, without a deadline: started from valid schedules of other schedulers, every schedule that a member of the hall
of fame is decoded to respects zones and materials; for any fitness, any selection, any number of generations, whatever is drawn. -/
theorem free_schedules_respect (h : Sound J m) (hJ : Plain J) {heads : List Nat} {P : Problem} (hp : prepare J = some (heads, P))
    (base : Env τ) {land : Supply.Land} {needs : Nat → List Supply.Mat} {cfg : Zone.Config} {zones : Nat → List Zone.Req}
    (hland : Landscape J land needs cfg zones) (B : Decode.Input (ZoneSite.State (MatSite.State τ)))
    (hB : Steady (ZoneSite.site (MatSite.site base land needs) cfg zones) B) (inf : Int) (other : τ) (optimize : Bool) (R : Randomness)
    (hR : R.Possible P) (fit : Ind → List Int) (sel : List Ind → List Ind) (hsel : ∀ l, ∀ a ∈ sel l, a ∈ l) (maxPlateau : Option Nat)
    (generations : Nat) (pop : List Ind) (hpop : ∀ i ∈ pop, Converted J heads i) (s : State Ind)
    (hs : runFree fit sel (stage P optimize R) maxPlateau generations pop = some s) :
    ∀ i ∈ s.hof, ∀ fuel L, decoded base land needs cfg zones J heads B inf other fuel i = some (some L) →
      Respects J land needs zones L.st := fun i hi fuel L hL =>
  decoded_respects h hJ hp (C92.free_hall_valid h hp optimize R hR fit sel hsel maxPlateau generations pop hpop s hs i hi) base hland B hB
    inf other fuel L hL

/-- With a deadline: the same for both stages. -/
theorem deadline_schedules_respect (h : Sound J m) (hJ : Plain J) {heads : List Nat} {P : Problem} (hp : prepare J = some (heads, P))
    (base : Env τ) {land : Supply.Land} {needs : Nat → List Supply.Mat} {cfg : Zone.Config} {zones : Nat → List Zone.Req}
    (hland : Landscape J land needs cfg zones) (B : Decode.Input (ZoneSite.State (MatSite.State τ)))
    (hB : Steady (ZoneSite.site (MatSite.site base land needs) cfg zones) B) (inf : Int) (other : τ) (optimize : Bool) (R R' : Randomness)
    (hR : R.Possible P) (hR' : R'.Possible P) (time : Ind → Int) (res : Ind → List Int) (sel sel' : List Ind → List Ind)
    (hsel : ∀ l, ∀ a ∈ sel l, a ∈ l) (hsel' : ∀ l, ∀ a ∈ sel' l, a ∈ l) (deadline : Int) (fill : List Ind → Nat → List Ind)
    (hfill : ∀ l n, ∀ a ∈ fill l n, a ∈ l) (maxPlateau : Option Nat) (generations size : Nat) (pop : List Ind)
    (hpop : ∀ i ∈ pop, Converted J heads i) (s : State Ind)
    (hrun : runDeadline time res sel sel' (stage P optimize R) (stage P true R') deadline fill maxPlateau generations size pop = some s) :
    ∀ i ∈ s.hof, ∀ fuel L, decoded base land needs cfg zones J heads B inf other fuel i = some (some L) →
      Respects J land needs zones L.st := fun i hi fuel L hL =>
  decoded_respects h hJ hp (C92.deadline_hall_valid h hp optimize R R' hR hR' time res sel sel' hsel hsel' deadline fill hfill maxPlateau
    generations size pop hpop s hrun i hi) base hland B hB inf other fuel L hL

/-! ### A concrete project (see `Lemmas/GeneticDemo.lean`): works 1 and 2 are a chain, work 3 goes beside work 1 -/

private def base : Decode.Input (ZoneSite.State (MatSite.State Unit)) where
  order := []
  chrom := ⟨fun _ _ => 0, fun _ => 0, fun _ _ => 0⟩
  node := id
  reqs := fun _ => []
  spec := fun _ => {}
  independent := fun _ => false
  assignedTime := fun _ => none
  volume := fun _ => 1
  share := Assigned.exactShare
  pool := fun _ _ => none
  kinds := 0
  parentTime := 5
  parents := fun _ => []
  matOk := fun _ _ _ => true
  zoneOk := fun _ _ _ _ => true
/-- One zone, in status 1 at the beginning. -/
private def cfg : Zone.Config := ⟨fun z => if z = 0 then some 1 else none, [], fun _ _ => 0⟩
/-- Works 1 and 3 need the zone in statuses 2 and 1. -/
private def zones (v : Nat) : List Zone.Req := if v = 1 then [⟨0, 2⟩] else if v = 3 then [⟨0, 1⟩] else []
/-- Works 1, 2 and 3 need material. -/
private def needs (v : Nat) : List Supply.Mat := if v = 0 ∨ 4 ≤ v then [] else [⟨1, 10⟩]
private def ind : Ind := ⟨[0, 1, 2, 3], fun w k => if w = 1 then 1 else if w = 2 ∧ k = 0 then 2 else 0, fun _ => 0, GeneticDemo.J.borders⟩


private def twoEdges : List Edge := [⟨0, 1, 0, .finishStart⟩, ⟨0, 2, 0, .finishStart⟩, ⟨0, 3, 0, .finishStart⟩, ⟨1, 4, 0, .finishStart⟩,
  ⟨2, 4, 0, .finishStart⟩, ⟨3, 4, 0, .finishStart⟩]
/-- Works 1, 2 and 3 go beside each other. -/
private def two : Project where
  graph := Graph.ofEdges twoEdges
  nodes := [0, 1, 2, 3, 4]
  contractors := [⟨0, [(0, 9)]⟩, ⟨1, [(0, 9)]⟩]
  reqs v := if v = 0 ∨ v = 4 then [] else [⟨0, 1, 2⟩]
  prio _ := 1
  spec _ := ⟨[], []⟩
private def twoSite : Env Unit := { Demo.env with estimate := fun v team => if team = [] then 0 else if v = 1 then 30 else if v = 2 then 10 else 28 }
private def twoInd : Ind := ⟨[0, 1, 2, 3, 4], fun w _ => if w = 0 ∨ w = 4 then 0 else 1, fun w => if w = 2 then 1 else 0, two.borders⟩
private def twoZones (v : Nat) : List Zone.Req := if v = 1 then [⟨0, 2⟩] else if v = 2 then [⟨0, 1⟩] else []

private def twoCfg : Zone.Config := { cfg with costs := fun a _ => if a = 1 then 3 else 1 }

private abbrev IsValid (P : Problem) (i : Ind) : Prop :=
  i.order.Perm (List.range P.n) ∧ (i.order.Pairwise fun v p => ¬ p ∈ P.parents v) ∧ (i.order.Pairwise fun a b => P.prio a ≤ P.prio b) ∧
    (∀ w < P.n, ∀ k < P.m, P.lo w k ≤ i.res.amount w k) ∧ (∀ w < P.n, ∀ k < P.m, i.res.amount w k ≤ P.hi w k) ∧
    (∀ w < P.n, ∀ k < P.m, i.res.amount w k ≤ i.res.border (i.res.contractor w) k) ∧ (∀ w < P.n, i.res.contractor w < P.nc) ∧
    (∀ w < P.n, P.enabled w (i.res.contractor w) = true) ∧ (∀ c < P.nc, ∀ k < P.m, i.res.border c k = P.cap c k) ∧
    ∀ c < P.nc, ∀ k < P.m, 0 ≤ i.res.border c k

private theorem good {P : Problem} {i : Ind} (h : IsValid P i) : Good P false i :=
  let ⟨h3, h4, h5, h6, h7, h8, h9, h10, h11, h12⟩ := h
  ⟨⟨h3, h4, h5, ⟨h6, h7, h8, h9, h10, fun c hc k hk => Int.le_of_eq (h11 c hc k hk)⟩⟩, h12, .inr h11⟩

private theorem land_clear : Supply.Clear C97.land := ⟨fun _ => by simp [C97.land], by decide, by decide⟩

private theorem demo_depends {v : Nat} (hv : GeneticDemo.J.graph.IsHead GeneticDemo.J.nodes v) (hne : v ≠ 0) :
    ∃ p, GeneticDemo.J.graph.HeadDependsOn GeneticDemo.J.nodes v p := by
  have hm := ((C22.collapse_preserves_dependencies GeneticDemo.graph GeneticDemo.collapse).2.1 v).2 hv
  have key : ∀ v ∈ [0, 3, 1, 4], v ≠ 0 → ∃ p, p ∈ (List.lookup v [(0, []), (1, [0, 3]), (3, [0]), (4, [1])]).getD [] := by
    intro v hv hne
    simp only [List.mem_cons, List.not_mem_nil, or_false] at hv
    rcases hv with rfl | rfl | rfl | rfl
    · exact absurd rfl hne
    · exact ⟨0, by decide⟩
    · exact ⟨0, by decide⟩
    · exact ⟨1, by decide⟩
  obtain ⟨p, hp⟩ := key v hm hne
  exact ⟨p, ((C22.collapse_tables GeneticDemo.graph GeneticDemo.collapse v p).1).1 hp⟩

private theorem two_graph : C22.WorkGraph two.graph two.nodes :=
  ⟨by decide, Graph.linked_ofEdges _, Graph.closed_ofEdges (by decide), Graph.chains_ofEdges (by decide),
    Graph.acyclic_ofEdges (fun v => v) (by decide)⟩

private theorem two_chains : two.graph.IsHead two.nodes 1 ∧ two.graph.IsHead two.nodes 2 := by
  have key : ∀ e ∈ twoEdges, e.type ≠ .inseparable := by decide
  constructor <;> refine ⟨by decide, ?_⟩ <;> rintro p ⟨e, he, -, ht⟩ <;> unfold two at he <;> dsimp only at he <;>
    rw [Graph.ofEdges_to] at he <;> exact key e (List.mem_filter.1 he).1 ht

/-- Not proved because false: if changes of status take time, a valid chromosome is decoded to a schedule in which works that need a zone
in different statuses are done at the same time: work 1 from 5 to 35 and work 2 from 33 to 43. -/
theorem costs_break_zones : ∃ (J : Project) (heads : List Nat) (P : Problem) (i : Ind) (cfg : Zone.Config) (zones : Nat → List Zone.Req)
    (L : Decode.Loop (ZoneSite.State (MatSite.State Unit))) (x y : SWork), C22.WorkGraph J.graph J.nodes ∧
    prepare J = some (heads, P) ∧ Good P false i ∧
    decoded twoSite C97.land (fun _ => []) cfg zones J heads base 1000 () 60 i = some (some L) ∧ J.graph.IsHead J.nodes 1 ∧
    J.graph.IsHead J.nodes 2 ∧ Zone.Incompatible (zones 1) (zones 2) ∧ L.st.sched.get 1 = some x ∧ L.st.sched.get 2 = some y ∧
    x.Together y := by
  have key : ((prepare two).bind fun hp => (decoded twoSite C97.land (fun _ => []) twoCfg twoZones two hp.1 base 1000 () 60 twoInd).join.map
      fun L => ((L.st.sched.get 1).map fun x => (x.start, x.finish), (L.st.sched.get 2).map fun x => (x.start, x.finish),
        decide (IsValid hp.2 twoInd))) = some (some (5, 35), some (33, 43), true) := by decide +kernel
  simp only [Option.bind_eq_some_iff, Option.map_eq_some_iff, Option.join_eq_some_iff, Prod.mk.injEq, decide_eq_true_eq] at key
  obtain ⟨⟨heads, P⟩, hp, L, hL, ⟨x, hx, x1, x2⟩, ⟨y, hy, y1, y2⟩, hi⟩ := key
  exact ⟨two, heads, P, twoInd, twoCfg, twoZones, L, x, y, two_graph, hp, good hi, hL, two_chains.1, two_chains.2,
    ⟨⟨0, 2⟩, by decide, ⟨0, 1⟩, by decide, by decide, by decide, by decide, by decide⟩, hx, hy, 33, by omega, by omega, by omega, by omega⟩

/-- Not proved because false: decoding a valid chromosome raises no exception.  Works that are marked as independent are placed without
asking for the zones; the zone that is taken refuses work 2. -/
theorem independent_works_raise : ∃ (J : Project) (heads : List Nat) (P : Problem) (i : Ind) (cfg : Zone.Config) (zones : Nat → List Zone.Req),
    C22.WorkGraph J.graph J.nodes ∧ prepare J = some (heads, P) ∧ Good P false i ∧ Landscape J C97.land (fun _ => []) cfg zones ∧
    Zone.Usable cfg zones ∧
    decoded twoSite C97.land (fun _ => []) cfg zones J heads { base with independent := fun v => v == 1 || v == 2 } 1000 () 60 i =
      some none := by
  have key : ((prepare two).map fun hp => (decide (IsValid hp.2 twoInd), (decoded twoSite C97.land (fun _ => []) cfg twoZones two hp.1
      { base with independent := fun v => v == 1 || v == 2 } 1000 () 60 twoInd).map (·.isNone))) = some (true, some true) := by
    decide +kernel
  simp only [Option.map_eq_some_iff, Prod.mk.injEq, decide_eq_true_eq] at key
  obtain ⟨⟨heads, P⟩, hp, hi, o, ho, hn⟩ := key
  obtain rfl : o = none := by simpa using hn
  refine ⟨two, heads, P, twoInd, cfg, twoZones, two_graph, hp, good hi, ⟨land_clear, fun v _ => ⟨by simp, by simp⟩, fun _ _ => rfl, fun v => ?_,
    fun v hv hd => ?_⟩, ⟨fun _ _ => rfl, rfl, fun v => ?_, fun v q hq => ?_⟩, ho⟩
  · unfold twoZones; split <;> [skip; split] <;> decide
  · by_contra hne
    have key : v = 1 ∨ v = 2 := by
      unfold twoZones at hne
      split at hne
      · exact .inl ‹_›
      · split at hne
        · exact .inr ‹_›
        · exact absurd rfl hne
    have hedge : ∀ v, v = 1 ∨ v = 2 → two.graph.DependsOn v 0 := by
      intro v hv
      refine ⟨⟨0, v, 0, .finishStart⟩, ?_, rfl, .inl rfl⟩
      unfold two
      dsimp only
      rw [Graph.ofEdges_to]
      rcases hv with rfl | rfl <;> decide
    refine hd 0 ⟨hv, ⟨by decide, ?_⟩, by omega, v, 0, .refl, .refl, hedge v key⟩
    rintro p ⟨e, he, -, ht⟩
    unfold two at he
    dsimp only at he
    rw [Graph.ofEdges_to] at he
    exact (by decide : ∀ e ∈ twoEdges, e.type ≠ .inseparable) e (List.mem_filter.1 he).1 ht
  · unfold twoZones; split <;> [skip; split] <;> decide
  · have : q.zone = 0 := by
      unfold twoZones at hq
      split at hq <;> [skip; split at hq] <;> simp at hq <;> subst hq <;> rfl
    rw [this]
    decide

-- the project meets the assumptions
private theorem demo_plain : Plain GeneticDemo.J where
  dependencies := GeneticDemo.deps
  lags v e he _ := GeneticDemo.lag he
  counts v := by simp only [GeneticDemo.J]; split <;> rfl
  begins := ⟨0, rfl, fun v hv hne => demo_depends hv hne⟩

private theorem demo_landscape : Landscape GeneticDemo.J C97.land needs cfg zones where
  clear := land_clear
  modest v service := by
    unfold needs
    split
    · exact ⟨by simp, by simp⟩
    · exact ⟨by simp, by simp [C97.land, Supply.vehicles]⟩
  free _ _ := rfl
  once v := by unfold zones; split <;> [skip; split] <;> decide
  first v hv hd := by
    by_cases h0 : v = 0
    · subst h0; rfl
    · obtain ⟨p, hp⟩ := demo_depends hv h0
      exact absurd hp (hd p)

private theorem demo_steady : Steady (ZoneSite.site (MatSite.site GeneticDemo.site C97.land needs) cfg zones) base where
  estimate := GeneticDemo.est
  volume _ := Int.zero_le_ofNat 1
  share := C13.exactShare_fair
  assigned v t h := by simp [base] at h
  start := by decide
  independent _ := rfl

-- the chain of works 1 and 2 waits for work 3, because of the zone, and for material, which arrives at 37
example : ∃ heads P L, prepare GeneticDemo.J = some (heads, P) ∧ Good P false ind ∧
    decoded GeneticDemo.site C97.land needs cfg zones GeneticDemo.J heads base 1000 () 30 ind = some (some L) ∧
    L.st.sched.map (fun e => (e.1, e.2.start, e.2.finish)) = [(4, 67, 67), (2, 52, 67), (1, 37, 52), (3, 7, 37), (0, 5, 5)] ∧
    L.st.env.mat.log.flatMap (·.records) = [⟨1, 10, 34, 37, 0⟩] ∧ Respects GeneticDemo.J C97.land needs zones L.st ∧
    InCalendar L.st.env.mat.log := by
  have key : ((prepare GeneticDemo.J).bind fun hp => (decoded GeneticDemo.site C97.land needs cfg zones GeneticDemo.J hp.1 base 1000 () 30
      ind).join.map fun L => (L.st.sched.map (fun e => (e.1, e.2.start, e.2.finish)), L.st.env.mat.log.flatMap (·.records),
        decide (IsValid hp.2 ind), decide (∀ s ∈ L.st.env.mat.log, ∀ b ∈ s.booked,
          b.start < TIME_INF ∧ (b.key.2 = Supply.vehicles → b.finish < TIME_INF)))) =
      some ([(4, 67, 67), (2, 52, 67), (1, 37, 52), (3, 7, 37), (0, 5, 5)], [⟨1, 10, 34, 37, 0⟩], true, true) := by decide +kernel
  simp only [Option.bind_eq_some_iff, Option.map_eq_some_iff, Option.join_eq_some_iff, Prod.mk.injEq, decide_eq_true_eq] at key
  obtain ⟨⟨heads, P⟩, hp, L, hL, h1, h2, h3, h4⟩ := key
  exact ⟨heads, P, L, hp, good h3, hL, h1, h2,
    decoded_respects GeneticDemo.sound demo_plain hp (good h3) _ demo_landscape base demo_steady 1000 () 30 L hL, h4⟩

end Sampo.C99
