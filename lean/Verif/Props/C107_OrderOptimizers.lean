import Verif.Lemmas.OrderPipeline
import Verif.Lemmas.Agency
import Verif.Props.C89_Schedulers

/-!
# C107: order optimizers of a pipeline and the schedule

A pipeline may apply optimizers to the order of works before a generic scheduler places them.
-/

namespace Sampo.C107
open Scheduler OnGraph Pipeline
open C22 (WorkGraph)
open C89 (OnlyDependencies GivesGoodOrders GoodOrder)

variable {σ : Type} {g : Graph} {nodes : List Nat} {s f : Nat}

/-- If each optimizer turns good orders into good orders, the scheduler still gets only good orders; so everything proved for the
schedulers with any rule that gives good orders (C89, C96, C97, C103, C105) holds with the optimizers too. -/
theorem optimizers_compose (optimizers : List (List Nat → Option (List Nat))) (rule : Rule) (hrule : GivesGoodOrders rule g nodes)
    (hopt : ∀ o ∈ optimizers, ∀ order r, GoodOrder g nodes order → o order = some r → GoodOrder g nodes r) :
    GivesGoodOrders (optimizedRule optimizers rule) g nodes := by
  intro order h
  unfold orderWorks at h
  rw [Option.bind_eq_some_iff] at h
  obtain ⟨c, hc, h⟩ := h
  unfold optimizedRule at h
  rw [Option.bind_eq_some_iff] at h
  obtain ⟨o, ho, h⟩ := h
  have hgood : GoodOrder g nodes o := hrule o (by
    unfold orderWorks
    rw [hc]
    exact ho)
  clear ho hc
  induction optimizers generalizing o with
  | nil =>
    simp only [applyOrder, List.foldlM_nil, Option.pure_def, Option.some.injEq] at h
    exact h ▸ hgood
  | cons p ps ih =>
    unfold applyOrder at h
    rw [List.foldlM_cons, Option.bind_eq_bind, Option.bind_eq_some_iff] at h
    obtain ⟨o', h1, h2⟩ := h
    exact ih (fun q hq => hopt q (List.mem_cons_of_mem _ hq)) o' h2 (hopt p List.mem_cons_self o o' hgood h1)

private theorem length_heads {order heads : List Nat} (ho : GoodOrder g nodes order) (hnd : heads.Nodup)
    (hheads : ∀ v, v ∈ heads ↔ g.IsHead nodes v) : order.length = heads.length :=
  ((List.perm_ext_iff_of_nodup ho.1 hnd).2 fun v => by rw [hheads, ho.2.1]).length_eq

private theorem same_orders (hw : WorkGraph g nodes) (hft : g.FromTo nodes s f) (rule : Rule) (hrule : GivesGoodOrders rule g nodes)
    (heads : List Nat) (hnd : heads.Nodup) (hheads : ∀ v, v ∈ heads ↔ g.IsHead nodes v) (areas : List (Nat × Nat))
    (ha : ∀ a ∈ areas, Inner heads.length a) :
    orderWorks (optimizedRule (swaps g areas) rule) g nodes = orderWorks rule g nodes := by
  have hr := hrule
  unfold GivesGoodOrders at hr
  unfold orderWorks at hr ⊢
  cases hc : Heads.collapse g nodes with
  | none => rfl
  | some c =>
    simp only [hc, Option.bind_some, optimizedRule] at hr ⊢
    generalize rule c.1 (fun v => (c.2.1.lookup v).getD []) (fun v => (c.2.2.lookup v).getD []) = o at hr ⊢
    cases o with
    | none => rfl
    | some o =>
      have ho := hr o rfl
      exact swaps_inner hw hft ho (by rw [length_heads ho hnd hheads]; exact ha)

/-- Swapping in areas that do not reach from the start to the finish of the project has no effect: the schedule is the one of the
pipeline without optimizers, on both timelines, for any scheduler with good orders, any number of areas, teams and site. -/
theorem inner_areas_no_effect (hw : WorkGraph g nodes) (hft : g.FromTo nodes s f) (rule : Rule) (hrule : GivesGoodOrders rule g nodes)
    (heads : List Nat) (hnd : heads.Nodup) (hheads : ∀ v, v ∈ heads ↔ g.IsHead nodes v) (areas : List (Nat × Nat))
    (ha : ∀ a ∈ areas, Inner heads.length a) (site : Env σ) (pool : AgentId → Option Int) (env : σ) (inf : Int) (fuelIn fuel : Nat) :
    (∀ P, scheduleJIT site (optimizedRule (swaps g areas) rule) g nodes P pool env fuel =
      scheduleJIT site rule g nodes P pool env fuel) ∧
    ∀ P, scheduleMomentum site (optimizedRule (swaps g areas) rule) g nodes P pool env inf fuelIn fuel =
      scheduleMomentum site rule g nodes P pool env inf fuelIn fuel := by
  have h := same_orders hw hft rule hrule heads hnd hheads areas ha
  exact ⟨fun P => by unfold scheduleJIT; rw [h], fun P => by unfold scheduleMomentum; rw [h]⟩

/-- An area that ends behind the last work makes the pipeline raise, whatever comes after it in the queue. -/
theorem outside_area_raises (rule : Rule) (hrule : GivesGoodOrders rule g nodes) (heads : List Nat) (hnd : heads.Nodup)
    (hheads : ∀ v, v ∈ heads ↔ g.IsHead nodes v) (a : Nat × Nat) (areas : List (Nat × Nat)) (hs : a.1 < a.2) (ha : heads.length < a.2)
    (site : Env σ) (pool : AgentId → Option Int) (env : σ) (P : Plan (JIT.State σ)) (fuel : Nat) :
    scheduleJIT site (optimizedRule (swaps g (a :: areas)) rule) g nodes P pool env fuel = some none := by
  have : orderWorks (optimizedRule (swaps g (a :: areas)) rule) g nodes = none := by
    have hr := hrule
    unfold GivesGoodOrders at hr
    unfold orderWorks at hr ⊢
    cases hc : Heads.collapse g nodes with
    | none => rfl
    | some c =>
      simp only [hc, Option.bind_some, optimizedRule] at hr ⊢
      generalize rule c.1 (fun v => (c.2.1.lookup v).getD []) (fun v => (c.2.2.lookup v).getD []) = o at hr ⊢
      cases o with
      | none => rfl
      | some o =>
        have ho := hr o rfl
        rw [Option.bind_some]
        unfold applyOrder swaps
        rw [List.map_cons, List.foldlM_cons, SwapOrder.optimize_outside hs (by rw [length_heads ho hnd hheads]; exact ha)]
        rfl
  unfold scheduleJIT
  rw [this]

/-- Not proved because false: "the optimizer, which does not break the topological order, keeps the schedule valid".  In every project
whose finish is a work of its own, an area with all works puts the finish first: it is scheduled at the project start, and nothing
begins before it. -/
theorem whole_area_finish_first (hw : WorkGraph g nodes) (hft : g.FromTo nodes s f) (hf : g.IsHead nodes f) (hne : s ≠ f) (site : Env σ)
    (hsite : NoSiteLimits site) (hest : ∀ v team, 0 ≤ site.estimate v team) (rule : Rule) (hrule : GivesGoodOrders rule g nodes)
    (heads : List Nat) (hnd : heads.Nodup) (hheads : ∀ v, v ∈ heads ↔ g.IsHead nodes v) (P : Plan (Momentum.State σ))
    (htime : ∀ v, P.assignedTimes v = none) (hP : 0 ≤ P.parentTime) (pool : AgentId → Option Int) (env : σ) (inf : Int)
    (hinf : P.parentTime ≤ inf) (fuelIn fuel : Nat) (st : Momentum.State σ)
    (h : scheduleMomentum site (optimizedRule (swaps g [(0, heads.length)]) rule) g nodes P pool env inf fuelIn fuel = some (some st)) :
    ∃ x, st.sched.get f = some x ∧ x.start = P.parentTime ∧ ∀ v y, st.sched.get v = some y → x.start ≤ y.start := by
  unfold scheduleMomentum at h
  split at h
  · cases h
  · rename_i r hr
    unfold orderWorks at hr
    rw [Option.bind_eq_some_iff] at hr
    obtain ⟨c, hc, hr⟩ := hr
    unfold optimizedRule at hr
    rw [Option.bind_eq_some_iff] at hr
    obtain ⟨order, ho, hr⟩ := hr
    have hgood : GoodOrder g nodes order := hrule order (by unfold orderWorks; rw [hc]; exact ho)
    have hlen := length_heads hgood hnd hheads
    have hopt : SwapOrder.optimize g.parents g.children 0 order.length order = some r := by
      simp only [applyOrder, swaps, List.map_cons, List.map_nil, List.foldlM_cons, List.foldlM_nil, Option.bind_eq_bind,
        Option.bind_eq_some_iff, Option.pure_def, Option.some.injEq] at hr
      obtain ⟨o', h1, rfl⟩ := hr
      rw [hlen]
      exact h1
    have hfo : f ∈ order := (hgood.2.1 f).2 hf
    have hpos : 0 < order.length := List.length_pos_of_mem hfo
    have h0 : order[0]? = some s := by
      have h := List.getElem?_eq_getElem hpos
      rw [h, good_first hw hft hgood h]
    have hl : order[order.length - 1]? = some f := by
      have h := List.getElem?_eq_getElem (show order.length - 1 < order.length by omega)
      rw [h, good_last hw hft hf hgood h]
    have h2 : 2 ≤ order.length := by
      by_contra hlt
      rw [show order.length - 1 = 0 by omega, h0, Option.some.injEq] at hl
      exact hne hl
    have hps : g.parents s = [] := by
      rw [List.eq_nil_iff_forall_not_mem]
      intro p hp
      exact (hft.start s hft.start_mem).1 ⟨p, (Graph.mem_parents s p).1 hp⟩ rfl
    have hcf : g.children f = [] := by
      rw [List.eq_nil_iff_forall_not_mem]
      intro p hp
      exact (hft.finish f hft.finish_mem).1 ⟨p, (Graph.mem_children hw.linked f p).1 hp⟩ rfl
    obtain ⟨hperm, hfront⟩ := SwapOrder.optimize_whole hgood.1 h2 h0 hl hps hcf hopt
    match r, hfront, hperm with
    | a :: b :: vs, hfront, hperm =>
      simp only [List.getElem?_cons_zero, Option.some.injEq] at hfront
      subst hfront
      have hnd' : ((a :: b :: vs).flatMap (onGraph site g nodes).chain).Nodup :=
        ((hperm.flatMap_right _).trans (Expand.perm hw hgood.1 hgood.2.1)).nodup_iff.2 hw.once
      have hch : (onGraph site g nodes).chain a = a :: [] := by
        show g.chainWithSelf nodes.length a = [a]
        unfold Graph.chainWithSelf
        rw [if_neg]
        intro h
        simp only [Bool.and_eq_true, Option.isSome_iff_exists] at h
        obtain ⟨⟨u, hu⟩, -⟩ := h
        have : u ∈ g.children a := by
          unfold Graph.insepSon at hu
          have hm := List.mem_of_head? hu
          unfold Graph.children
          simp only [List.mem_map, List.mem_filter, decide_eq_true_eq] at hm ⊢
          obtain ⟨e, ⟨he, ht⟩, rfl⟩ := hm
          exact ⟨e, ⟨he, by rw [ht]; rfl⟩, rfl⟩
        rw [hcf] at this
        cases this
      have hstarts : ∀ e ∈ st.sched, P.parentTime ≤ e.2.start := by
        exact Momentum.buildFrom_starts (E := onGraph site g nodes) hest (fun v ts h => by rw [htime v] at h; cases h) hP hinf
          (fun e he => by cases he) h
      unfold Momentum.build at h
      rw [Momentum.buildFrom] at h
      simp only [List.isEmpty_cons] at h
      split at h
      · cases h
      · cases h
      · rename_i st₁ h₁
        obtain ⟨x, hx, hxs⟩ := Momentum.first_start (E := onGraph site g nodes) (noSite hsite) hch (by simp) (htime a) hP h₁
        have hrun := Momentum.buildFrom_run (E := onGraph site g nodes) (order := b :: vs) (first := false) hest (fun v ts h => by rw [htime v] at h; cases h) hP hinf h
        refine ⟨x, ?_, hxs, fun v y hy => ?_⟩
        · rw [hrun.get_of_not_mem, hx]
          rw [List.flatMap_cons, hch, List.singleton_append, List.nodup_cons] at hnd'
          exact hnd'.1
        · rw [hxs]
          exact hstarts _ (mem_of_get hy)
    | [a], hfront, hperm =>
      have := hperm.length_eq
      simp at this
      omega
    | [], hfront, _ => cases hfront

/-! ### A concrete project -/

private def works : List Nat := [0, 1, 3, 2, 4]
private def demoReqs (v : Nat) : List WorkerReq := if v = 0 ∨ v = 4 ∨ 4 < v then [] else [⟨0, 1, 2⟩]
private def demoSite : Env Unit :=
  { Demo.env with kinds := fun v => (demoReqs v).map (·.kind), service := fun v => v == 0 || v == 4 || decide (4 < v),
                  estimate := fun v team => if team = [] then 0 else min (10 * v) 40 }
private def demoContractors : List Contractor := [⟨7, [(0, 3)]⟩, ⟨8, [(0, 1)]⟩]
private def demoCost (v : Nat) : Int := v
private def demoPrio (v : Nat) : Int := if v = 4 then 2 else 1
private def demoPlan (S : Type) : Plan S :=
  LFT.plan S demoContractors (fun _ => ⟨[], []⟩) demoReqs (fun _ _ => 0) (fun _ => false) 5

private theorem demo_graph : WorkGraph C22.demo works where
  once := by decide
  linked := Graph.linked_ofEdges _
  closed := Graph.closed_ofEdges (by decide)
  chains := Graph.chains_ofEdges (by decide)
  acyclic := Graph.acyclic_ofEdges (fun v => if v = 3 then 1 else v) (by decide)

private theorem demo_collapse : Heads.collapse C22.demo works =
    some ([0, 3, 1, 4], [(0, []), (1, [0, 3]), (3, [0]), (4, [1])], [(0, [1, 3]), (1, [4]), (3, [1]), (4, [])]) := by decide

private def demoEdges : List Edge := [⟨0, 1, 0, .finishStart⟩, ⟨0, 3, 2, .lagFinishStart⟩, ⟨1, 2, 0, .inseparable⟩,
  ⟨3, 2, 0, .finishStart⟩, ⟨2, 4, 0, .finishStart⟩]

private theorem demo_edges (v : Nat) : C22.demo.edgesTo v = demoEdges.filter (fun e => e.finish == v) := by
  unfold C22.demo
  rw [Graph.ofEdges_to]
  rfl

private theorem demo_depends (v p : Nat) : C22.demo.DependsOn v p ↔ ∃ e ∈ demoEdges, e.start = p ∧ e.finish = v := by
  unfold Graph.DependsOn
  rw [demo_edges]
  constructor
  · rintro ⟨e, he, h1, -⟩
    exact ⟨e, (List.mem_filter.1 he).1, h1, by simpa using (List.mem_filter.1 he).2⟩
  · rintro ⟨e, he, h1, h2⟩
    exact ⟨e, List.mem_filter.2 ⟨he, by simpa using h2⟩, h1,
      (by decide : ∀ e ∈ demoEdges, e.type = .finishStart ∨ e.type = .lagFinishStart ∨ e.type = .inseparable) e he⟩

private theorem demo_ends : C22.demo.FromTo works 0 4 where
  start_mem := by decide
  finish_mem := by decide
  start := by
    intro v hv
    simp only [demo_depends]
    constructor
    · rintro ⟨p, e, he, -, rfl⟩
      exact (by decide : ∀ e ∈ demoEdges, e.finish ≠ 0) e he
    · intro h
      obtain ⟨e, he, h⟩ := (by decide : ∀ v ∈ works, v ≠ 0 → ∃ e ∈ demoEdges, e.finish = v) v hv h
      exact ⟨e.start, e, he, rfl, h⟩
  finish := by
    intro v hv
    simp only [demo_depends]
    constructor
    · rintro ⟨p, e, he, rfl, -⟩
      exact (by decide : ∀ e ∈ demoEdges, e.start ≠ 4) e he
    · intro h
      obtain ⟨e, he, h⟩ := (by decide : ∀ v ∈ works, v ≠ 4 → ∃ e ∈ demoEdges, e.start = v) v hv h
      exact ⟨e.finish, e, he, h, rfl⟩

private theorem demo_agrees : C89.PrioritiesAgree demoPrio C22.demo works := by
  intro a b hd
  have hb := ((C22.collapse_tables demo_graph demo_collapse a b).1).2 hd
  have ha : a ∈ [0, 3, 1, 4] := ((C22.collapse_preserves_dependencies demo_graph demo_collapse).2.1 a).2 hd.1
  have key : ∀ a ∈ [0, 3, 1, 4], ∀ b ∈ (List.lookup a [(0, []), (1, [0, 3]), (3, [0]), (4, [1])]).getD [],
      demoPrio b ≤ demoPrio a := by decide
  exact key a ha b hb

private theorem demo_rule : GivesGoodOrders (heftRule demoCost demoPrio) C22.demo works :=
  C89.heft_order demo_graph demoCost (fun v => Int.natCast_nonneg v) demoPrio demo_agrees

private theorem demo_heads (v : Nat) : v ∈ [0, 3, 1, 4] ↔ C22.demo.IsHead works v :=
  (C22.collapse_preserves_dependencies demo_graph demo_collapse).2.1 v

private theorem demo_site : NoSiteLimits demoSite :=
  ⟨fun _ _ _ => Int.le_refl _, fun _ _ _ _ => Int.le_refl _, fun s _ t => ⟨s, t, rfl, Int.le_refl _⟩, fun s _ _ _ => ⟨s, rfl⟩,
    fun s => ⟨s, 0, rfl, Int.le_refl _⟩⟩

private theorem demo_est (v : Nat) (team : List Worker) : 0 ≤ demoSite.estimate v team := by
  simp only [demoSite]
  split <;> omega

private instance (n : Nat) (a : Nat × Nat) : Decidable (Inner n a) := by unfold Inner; infer_instance

-- swapping in two areas that leave out an end of the project changes nothing
example : scheduleJIT demoSite (optimizedRule (swaps C22.demo [(0, 3), (1, 4)]) (heftRule demoCost demoPrio)) C22.demo works (demoPlan _)
    (LFT.agents demoContractors) () 20 =
    scheduleJIT demoSite (heftRule demoCost demoPrio) C22.demo works (demoPlan _) (LFT.agents demoContractors) () 20 :=
  (inner_areas_no_effect demo_graph demo_ends _ demo_rule [0, 3, 1, 4] (by decide) demo_heads [(0, 3), (1, 4)] (by decide) demoSite
    (LFT.agents demoContractors) () 0 0 20).1 _

-- which is the valid schedule
example : (scheduleJIT demoSite (optimizedRule (swaps C22.demo [(0, 3), (1, 4)]) (heftRule demoCost demoPrio)) C22.demo works (demoPlan _)
    (LFT.agents demoContractors) () 20).map (·.map (·.sched.map fun e => (e.1, e.2.start, e.2.finish))) =
    some (some [(4, 67, 67), (2, 47, 67), (1, 37, 47), (3, 7, 37), (0, 5, 5)]) := by decide +kernel

-- an area that is too long
example : scheduleJIT demoSite (optimizedRule (swaps C22.demo [(1, 5), (1, 3)]) (heftRule demoCost demoPrio)) C22.demo works (demoPlan _)
    (LFT.agents demoContractors) () 20 = some none :=
  outside_area_raises _ demo_rule [0, 3, 1, 4] (by decide) demo_heads (1, 5) [(1, 3)] (by decide) (by decide) _ _ _ _ _

-- an optimizer that keeps good orders: the one that keeps the order if there are fewer than ten works, and raises otherwise
example : GivesGoodOrders (optimizedRule [fun o => if o.length < 10 then some o else none] (heftRule demoCost demoPrio)) C22.demo works :=
  optimizers_compose _ _ demo_rule fun o ho order r hg hr => by
    rw [List.mem_singleton] at ho
    subst ho
    simp only at hr
    split at hr
    · cases hr; exact hg
    · cases hr

/-- In a concrete project: the finish of the project is at time 5, the work before it
takes from time 15 to 35. -/
theorem whole_area_breaks_precedence : ∃ st : Momentum.State Unit,
    scheduleMomentum demoSite (optimizedRule (swaps C22.demo [(0, 4)]) (heftRule demoCost demoPrio)) C22.demo works (demoPlan _)
      (LFT.agents demoContractors) () 1000 50 50 = some (some st) ∧
    C22.demo.DependsOn 4 2 ∧ ∃ x y, st.sched.get 4 = some x ∧ st.sched.get 2 = some y ∧ x.start < y.finish := by
  have h : ((scheduleMomentum demoSite (optimizedRule (swaps C22.demo [(0, 4)]) (heftRule demoCost demoPrio)) C22.demo works (demoPlan _)
      (LFT.agents demoContractors) () 1000 50 50).map fun r => r.map fun st =>
      ((st.sched.get 4).map fun x => (x.start, x.finish), (st.sched.get 2).map fun x => (x.start, x.finish))) =
      some (some (some (5, 5), some (15, 35))) := by decide +kernel
  simp only [Option.map_eq_some_iff, Prod.mk.injEq] at h
  obtain ⟨r, hr, st, rfl, ⟨x, h2, h3, -⟩, y, h4, -, h5⟩ := h
  exact ⟨st, hr, (demo_depends 4 2).2 ⟨⟨2, 4, 0, .finishStart⟩, by decide, rfl, rfl⟩, x, y, h2, h4, by omega⟩

example (st : Momentum.State Unit) (h : scheduleMomentum demoSite (optimizedRule (swaps C22.demo [(0, 4)]) (heftRule demoCost demoPrio))
    C22.demo works (demoPlan _) (LFT.agents demoContractors) () 1000 50 50 = some (some st)) :
    ∃ x, st.sched.get 4 = some x ∧ x.start = 5 :=
  have ⟨x, h1, h2, _⟩ := whole_area_finish_first demo_graph demo_ends ((demo_heads 4).1 (by decide)) (by decide) demoSite demo_site demo_est _
    demo_rule [0, 3, 1, 4] (by decide) demo_heads (demoPlan _) (fun _ => rfl) (by decide) (LFT.agents demoContractors) () 1000 (by decide)
    50 50 st h
  ⟨x, h1, h2⟩

end Sampo.C107
