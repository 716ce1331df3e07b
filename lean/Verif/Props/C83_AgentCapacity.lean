import Verif.Lemmas.Agency
import Verif.Lemmas.Demo
import Verif.Props.C37_Auction

/-!
# C83: agents that schedule blocks on their own timelines
-/

namespace Sampo.C83

open Agency

variable {σ : Type} {crews : Nat → Crew σ} {names : List Nat} {pick : Nat → Int → State σ → Option (Hand σ × Nat)} {p : Blocks.Plan}
  {res : List Blocks.SBlock} {s : State σ}

/-- Whoever is picked for the blocks: over all blocks together, at no time an agent has more workers of a type at work than its contractor
has.  Blocks of an agent may overlap in time. -/
theorem within_capacity (hs : ∀ n, (crews n).Sound) (hn : names.Nodup) (hpick : ∀ b t s p, pick b t s = some p → p.1 ∈ s.agents)
    (h : manage crews pick names p = some (res, s)) (n : Nat) (a : AgentId) (cap : Int) (ha : (crews n).pool a = some cap) (hcap : 0 ≤ cap)
    (t : Int) : busy (doneBy s.log n) a t ≤ cap := by
  have hI := manage_inv hs hn hpick h
  by_cases hm : n ∈ names
  · rw [← hI.same] at hm
    obtain ⟨x, hx, rfl⟩ := List.mem_map.mp hm
    exact (hI.held x hx).within ha hcap t
  · have : doneBy s.log n = [] := by
      unfold doneBy
      rw [List.filter_eq_nil_iff.mpr fun l hl => ?_]
      · rfl
      · simp only [decide_eq_true_eq]
        rintro rfl
        exact hm (hI.known l hl)
    rw [this]
    exact hcap

/-- The result lists the blocks with the agents that scheduled them, in the order of scheduling. -/
theorem blocks_logged (hs : ∀ n, (crews n).Sound) (hn : names.Nodup) (hpick : ∀ b t s p, pick b t s = some p → p.1 ∈ s.agents)
    (h : manage crews pick names p = some (res, s)) : (s.log.map fun l => (l.1, l.2.1)) = res.map fun d => (d.id, d.agent) := by
  have := (manage_inv hs hn hpick h).blocks
  clear h
  generalize s.log = log at this
  induction this with
  | nil => rfl
  | cons h1 _ ih => simp only [List.map_cons, h1.1, h1.2.1, List.cons.injEq, true_and]; exact ih

/-- Every block is scheduled once, and its schedule has exactly the works of the block, each of them once. -/
theorem works_scheduled (hs : ∀ n, (crews n).Sound) (hn : names.Nodup) (hpick : ∀ b t s p, pick b t s = some p → p.1 ∈ s.agents)
    (hp : p.Valid) (h : manage crews pick names p = some (res, s)) : (s.log.map (·.1)).Nodup ∧ (∀ b, b ∈ s.log.map (·.1) ↔ b ∈ p.blocks) ∧
      ∀ l ∈ s.log, ∃ call, (l.2.2.works).Perm (((crews l.2.1).order l.1 call).flatMap ((crews l.2.1).env l.1).chain) := by
  have hI := manage_inv hs hn hpick h
  obtain ⟨h1, h2, -⟩ := C37.starts_after_dependencies hp h
  have he : s.log.map (·.1) = res.map (·.id) := by
    have := congrArg (List.map Prod.fst) (blocks_logged hs hn hpick h)
    simpa [List.map_map, Function.comp_def] using this
  refine ⟨he ▸ h1, fun b => he ▸ h2 b, fun l hl => ?_⟩
  obtain ⟨d, -, -, -, -, -, -, kept, call, kept', h0, hinf, hrun⟩ := forall₂_right hI.blocks l hl
  refine ⟨call, ?_⟩
  rw [run_works (hs _) h0 hinf hrun]
  exact List.reverse_perm _

/-- Every work of a block starts after every work of the blocks on which the block depends has finished, if these finish at all. -/
theorem works_after_dependencies (hs : ∀ n, (crews n).Sound) (hn : names.Nodup)
    (hpick : ∀ b t s p, pick b t s = some p → p.1 ∈ s.agents) (hp : p.Valid) (h : manage crews pick names p = some (res, s))
    {l m : Nat × Nat × Sched} (hl : l ∈ s.log) (hm : m ∈ s.log) (he : (l.1, m.1) ∈ p.edges)
    (hf : ∀ x ∈ l.2.2, x.2.finish < TIME_INF) {x y : Nat × SWork} (hx : x ∈ l.2.2) (hy : y ∈ m.2.2) : x.2.finish < y.2.start := by
  have hI := manage_inv hs hn hpick h
  obtain ⟨-, -, h3⟩ := C37.starts_after_dependencies hp h
  obtain ⟨d, hd, hid, -, h0, hlat, hxs, -⟩ := forall₂_right hI.blocks l hl
  obtain ⟨e, he', hie, -, -, -, hys, -⟩ := forall₂_right hI.blocks m hm
  have hfin : d.finish < TIME_INF := by
    rw [hlat]
    obtain ⟨z, hz, hzl⟩ := latest_mem hx
    rw [← hzl]
    exact hf z hz
  have hlow : -TIME_INF ≤ d.finish := by
    have : (0 : Int) ≤ TIME_INF := by decide
    omega
  have := h3 d hd e he' (by rw [hid, hie]; exact he) hlow hfin
  have := (hxs x hx).2.2
  have := (hys y hy).1
  omega

/-- With just-in-time timelines the works of a block keep the precedences and lags of the block's graph, whatever the agent did before. -/
theorem jit_precedence (hs : ∀ n, (crews n).Sound) (hn : names.Nodup) (hpick : ∀ b t s p, pick b t s = some p → p.1 ∈ s.agents)
    (h : manage crews pick names p = some (res, s)) {l : Nat × Nat × Sched} (hl : l ∈ s.log)
    (hway : ∃ plan fuel, (crews l.2.1).way = .jit plan fuel)
    (htopo : ∀ call, TopoList (fun v => (((crews l.2.1).env l.1).edgesTo v).map (·.1))
      (((crews l.2.1).order l.1 call).flatMap ((crews l.2.1).env l.1).chain))
    (hnd : ∀ call, (((crews l.2.1).order l.1 call).flatMap ((crews l.2.1).env l.1).chain).Nodup) :
    RespectsPrecedence ((crews l.2.1).env l.1).edgesTo l.2.2 := by
  obtain ⟨d, -, -, -, -, -, -, kept, call, kept', h0, hinf, hrun⟩ := forall₂_right (manage_inv hs hn hpick h).blocks l hl
  obtain ⟨plan, fuel, hw⟩ := hway
  refine run_precedence (hs _) h0 hinf hrun (htopo call) (hnd call) fun plan' f g he => ?_
  rw [hw] at he
  cases he

/-- With interval timelines they do so under the conditions of C11: no assigned durations, no positive lag inside a chain of inseparable
works, times before infinity. -/
theorem momentum_precedence (hs : ∀ n, (crews n).Sound) (hn : names.Nodup) (hpick : ∀ b t s p, pick b t s = some p → p.1 ∈ s.agents)
    (h : manage crews pick names p = some (res, s)) {l : Nat × Nat × Sched} (hl : l ∈ s.log)
    {plan : Nat → Nat → Plan (Momentum.State σ)} {fuelIn fuel : Nat} (hway : (crews l.2.1).way = .momentum plan fuelIn fuel)
    (htopo : ∀ call, TopoList (fun v => (((crews l.2.1).env l.1).edgesTo v).map (·.1))
      (((crews l.2.1).order l.1 call).flatMap ((crews l.2.1).env l.1).chain))
    (hnd : ∀ call, (((crews l.2.1).order l.1 call).flatMap ((crews l.2.1).env l.1).chain).Nodup)
    (hno : ∀ call v, (plan l.1 call).assignedTimes v = none)
    (hlag : ∀ call, ∀ v ∈ (crews l.2.1).order l.1 call, ∀ u ∈ ((crews l.2.1).env l.1).chain v, ∀ e ∈ ((crews l.2.1).env l.1).edgesTo u,
      e.1 ∈ ((crews l.2.1).env l.1).chain v → e.2 ≤ 0)
    (hr : TimesInRange ((crews l.2.1).env l.1).edgesTo TIME_INF l.2.2) :
    RespectsPrecedence ((crews l.2.1).env l.1).edgesTo l.2.2 := by
  obtain ⟨d, -, -, -, -, -, -, kept, call, kept', h0, hinf, hrun⟩ := forall₂_right (manage_inv hs hn hpick h).blocks l hl
  refine run_precedence (hs _) h0 hinf hrun (htopo call) (hnd call) fun plan' f g he => ?_
  rw [hway] at he
  cases he
  exact ⟨hno call, hlag call, hr⟩

/-- The manager of the package is one way to pick: it picks one of the agents. -/
theorem manager_picks_agent (b : Nat) (t : Int) (s : State σ) (p : Hand σ × Nat) (h : managerPick crews b t s = some p) : p.1 ∈ s.agents :=
  managerPick_mem h

/-! ### The hypotheses can be met -/

private def demoJit : Crew Unit :=
  ⟨Demo.pool, (), fun _ => Demo.env, fun _ _ => Demo.order, .jit (fun _ _ => Demo.plan _) 100⟩

private def demoMomentum : Crew Unit :=
  ⟨Demo.pool, (), fun _ => Demo.env, fun _ _ => Demo.order, .momentum (fun _ _ => Demo.plan _) 100 100⟩

private theorem demo_plan (S : Type) : PlanOk Demo.pool (Demo.plan S) :=
  ⟨(fun v ts h => by simp [Demo.plan] at h), fun st v team c h => Demo.team_ok S st v team c h⟩

private theorem demo_jit_sound : demoJit.Sound where
  estimates := fun _ => Demo.estimate_nonneg
  chains := fun _ => Demo.chain_self
  plans := by
    refine fun _ _ => ⟨demo_plan _, ?_, ?_⟩
    · intro v rest h st team c hc
      obtain ⟨rfl, -⟩ := List.cons.inj (h : [0, 3, 1, 4] = v :: rest)
      exact (Prod.mk.inj (Option.some.inj hc)).1.symm
    · intro pre v post h hpre
      have h' : [0, 3, 1, 2, 4] = pre ++ v :: post := h
      match pre, hpre with
      | [_], _ => obtain ⟨rfl, rfl, -⟩ := by simpa using h'
                  exact ⟨(0, 2), by simp [demoJit, Demo.env, Demo.edges], by decide, by simp⟩
      | [_, _], _ => obtain ⟨rfl, rfl, rfl, -⟩ := by simpa using h'
                     exact ⟨(0, 0), by simp [demoJit, Demo.env, Demo.edges], by decide, by simp⟩
      | [_, _, _], _ => obtain ⟨rfl, rfl, rfl, rfl, -⟩ := by simpa using h'
                        exact ⟨(1, 0), by simp [demoJit, Demo.env, Demo.edges], by decide, by simp⟩
      | [_, _, _, _], _ => obtain ⟨rfl, rfl, rfl, rfl, rfl, -⟩ := by simpa using h'
                           exact ⟨(1, 0), by simp [demoJit, Demo.env, Demo.edges], by decide, by simp⟩
      | _ :: _ :: _ :: _ :: _ :: _, _ => simp at h'

private theorem demo_momentum_sound : demoMomentum.Sound where
  estimates := fun _ => Demo.estimate_nonneg
  chains := fun _ => Demo.chain_self
  plans := fun _ _ => demo_plan _

private def jits : Nat → Crew Unit := fun _ => demoJit

private def momenta : Nat → Crew Unit := fun _ => demoMomentum

private def demoBlocks : Blocks.Plan := ⟨[0, 1], [(0, 1)]⟩

/-- Two agents with just-in-time timelines and two blocks, one after the other. -/
example : (∀ n, (jits n).Sound) ∧ [0, 1].Nodup ∧
    ((manage jits (managerPick jits) [0, 1] demoBlocks).map fun r => r.1.map fun d =>
      (d.id, d.agent, d.start, d.finish)) = some [(0, 0, 1, 63), (1, 0, 64, 126)] :=
  ⟨fun _ => demo_jit_sound, by decide, by decide +kernel⟩

/-- An agent with an interval timeline and two blocks at the same time. -/
example : (∀ n, (momenta n).Sound) ∧
    ((manage momenta (fun _ _ s => s.agents.head?.map fun a => (a, 0)) [0] ⟨[0, 1], []⟩).map fun r => r.1.map fun d =>
      (d.id, d.agent, d.start, d.finish)) = some [(1, 0, 1, 63), (0, 0, 1, 123)] :=
  ⟨fun _ => demo_momentum_sound, by decide +kernel⟩

end Sampo.C83
