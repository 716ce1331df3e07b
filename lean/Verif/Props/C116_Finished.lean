import Verif.Lemmas.Finished
import Verif.Lemmas.PlainDemo
import Verif.Lemmas.GeneticPipelineDemo
import Verif.Props.C108_Pipeline
import Verif.Props.C115_GeneticPipeline

/-!
# C116: the tables of a finished pipeline show the schedules that were made
-/

namespace Sampo.C116
open Finished PlainPipeline Sampo.Scheduler
open Pipeline hiding Feasible Scheduler
open C89 (GoodOrder Staffs)

variable {σ : Type} {p : PlainPipeline.Project} {given : Given} {cs : List Contractor} {restructure : Graph → Bool → Option Graph} {lag : Lag}

/-- What a project must have for its table: no negative lags, one finish to which all works lead, as many parts in all model names. -/
structure Tabular (I : Details) (p : PlainPipeline.Project) : Prop where
  lags : ∀ v, ∀ e ∈ p.graph.edgesTo v, 0 ≤ e.lag
  finish : ∃ final ∈ p.works, ∀ v ∈ p.works, Relation.ReflTransGen (fun q u => u ∈ p.works ∧ p.graph.DependsOn u q) v final
  models : ∀ v ∈ p.works, ∀ w ∈ p.works, (I.model v).length = (I.model w).length

variable {I : Details} {iter : List Nat → List Nat}

private theorem mapM_zip {α β γ : Type} (f : α → Option β) (b : γ) (P : α → β → Prop) : ∀ (l : List α), (∀ a ∈ l, ∃ t, f a = some t ∧ P a t) →
    ∃ ts, ((l.zip (l.map fun _ => b)).mapM fun q => f q.1) = some ts ∧ List.Forall₂ P l ts
  | [], _ => ⟨[], rfl, .nil⟩
  | a :: l, h => by
    obtain ⟨t, h1, h2⟩ := h a List.mem_cons_self
    obtain ⟨ts, h3, h4⟩ := mapM_zip f b P l fun x hx => h x (List.mem_cons_of_mem _ hx)
    refine ⟨t :: ts, ?_, .cons h2 h4⟩
    rw [List.map_cons, List.zip_cons_cons, List.mapM_cons, h1, h3]
    rfl

/-- Whatever scheduler was used: `finish` returns a project for every schedule that was made, in the same order, and if the schedules are
valid, then every table shows its schedule. -/
theorem tables_show_schedules (hp : SoundProject p) (hI : Tabular I p) (hit : ∀ l, (iter l).Perm l) {pool : AgentId → Option Int}
    {accepts : Nat → List Worker → Nat → Prop} (l : List Sched) (hF : ∀ s ∈ l, Feasible p.graph p.works pool accepts s) (fuel : Nat)
    (hf : p.works.length ≤ fuel) :
    ∃ ts, projects I iter fuel ⟨p.graph, l, l.map fun _ => ()⟩ = some ts ∧ List.Forall₂ (Presents I p.graph p.works) l ts := by
  obtain ⟨final, h1, h2⟩ := hI.finish
  exact mapM_zip (project I iter fuel p.graph) () _ l fun s hs =>
    project_presents hp.graph.acyclic hp.graph.once (hF s hs) hI.lags hI.models h1 h2 hit hf

private theorem one (hp : SoundProject p) (hI : Tabular I p) (hit : ∀ l, (iter l).Perm l) {pool : AgentId → Option Int}
    {accepts : Nat → List Worker → Nat → Prop} {s : Sched} (hF : Feasible p.graph p.works pool accepts s) {n : Nat}
    (hn : p.works.length ≤ n) : ∃ t, projects I iter n ⟨p.graph, [s], [()]⟩ = some [t] ∧ Presents I p.graph p.works s t := by
  obtain ⟨ts, h1, h2⟩ := tables_show_schedules hp hI hit [s] (fun s' hs => by rw [List.mem_singleton.mp hs]; exact hF) n hn
  cases h2 with
  | cons h3 h4 =>
    cases h4
    exact ⟨_, h1, h3⟩

/-- HEFT: the pipeline accepts the contractors, and `finish` returns one project with a table that shows a valid schedule. -/
theorem heft_finishes (hp : SoundProject p) (hI : Tabular I p) (hit : ∀ l, (iter l).Perm l) (hlag : lag ≠ .auto) (S : Settings σ)
    (hsite : NoSiteLimits S.site) (hsite0 : ∀ s v t d, 0 ≤ t → 0 ≤ S.site.matTime s v t ∧ 0 ≤ S.site.zoneTime s v t d)
    (hP : 0 ≤ S.parentTime) (L D : Int) (hL : 0 ≤ L) (hD : 0 ≤ D) (hest : ∀ v team, 0 ≤ S.site.estimate v team ∧ S.site.estimate v team ≤ D)
    (hlags : ∀ v, ∀ e ∈ p.graph.edgesTo v, e.lag ≤ L) (hhor : 2 * (S.parentTime + p.works.length * (L + D)) < TIME_INF)
    (hc : contractorsOf (p.works.map p.reqs) given = some cs) (hcs : C16.SoundContractors cs)
    (hcan : canPerformGraph cs (p.works.map p.reqs) = some true) (cost : Nat → ℚ) (hcost : ∀ v, 0 ≤ cost v)
    (opt : JIT.State σ → Nat → Contractor → Optimizer) (hopt : ∀ st v c, StaysWithin (opt st v c) ∧ Answers (opt st v c))
    (optimizers : List (List Nat → Option (List Nat)))
    (hoptimizers : ∀ o ∈ optimizers, ∀ order, GoodOrder p.graph p.works order → ∃ r, o order = some r ∧ GoodOrder p.graph p.works r) :
    ∃ s, Feasible p.graph p.works (LFT.agents cs) (Staffs cs (fun _ => ⟨[], []⟩) p.reqs) s ∧
      ∀ fuel n, 1 ≤ fuel → p.works.length ≤ n → ∃ c t, run restructure p given lag (heft S cost opt optimizers fuel p) = .done cs c ∧
        projects I iter n c = some [t] ∧ Presents I p.graph p.works s t := by
  obtain ⟨s, h1, h2, -⟩ := C108.heft_executes_partial (restructure := restructure) hp (fun v e he _ => hI.lags v e he) hlag S hsite hsite0 hP
    L D hL hD hest hlags hhor hc hcs hcan cost hcost opt hopt optimizers hoptimizers
  refine ⟨s, h2, fun fuel n hfu hn => ?_⟩
  obtain ⟨t, h3, h4⟩ := one hp hI hit h2 hn
  exact ⟨_, t, h1 fuel hfu, h3, h4⟩

/-- LFT: the same. -/
theorem lft_finishes (hp : SoundProject p) (hI : Tabular I p) (hit : ∀ l, (iter l).Perm l)
    (hchlag : ∀ k v, ∀ e ∈ p.graph.edgesTo v, p.graph.InChain k v → p.graph.InChain k e.start → e.lag ≤ 0) (hlag : lag ≠ .auto)
    (S : Settings σ) (hsite : NoSiteLimits S.site) (hP : 0 ≤ S.parentTime) (nobody : Nat)
    (L D inf : Int) (hL : 0 ≤ L) (hD : 0 ≤ D) (hest : ∀ v team, 0 ≤ S.site.estimate v team ∧ S.site.estimate v team ≤ D)
    (hlags : ∀ v, ∀ e ∈ p.graph.edgesTo v, e.lag ≤ L) (hhor : S.parentTime + p.works.length * (L + D) + L ≤ inf)
    (hkinds : ∀ v, S.site.kinds v = (p.reqs v).map (·.kind)) (hserv : ∀ v, p.reqs v ≠ [] → S.site.service v = false)
    (hsame : ∀ k v, p.graph.InChain k v → S.site.kinds v = S.site.kinds k ∨ S.site.kinds v = [])
    (hc : contractorsOf (p.works.map p.reqs) given = some cs) (hcs : C16.SoundContractors cs)
    (hcan : canPerformGraph cs (p.works.map p.reqs) = some true) :
    ∃ N s, Feasible p.graph p.works (LFT.agents cs) (Staffs cs (fun _ => ⟨[], []⟩) p.reqs) s ∧
      ∀ fuelIn fuel n, N ≤ fuelIn → 1 ≤ fuel → p.works.length ≤ n →
        ∃ c t, run restructure p given lag (lft S nobody inf fuelIn fuel p) = .done cs c ∧
          projects I iter n c = some [t] ∧ Presents I p.graph p.works s t := by
  obtain ⟨N, s, h1, h2, -⟩ := C108.lft_executes_partial (restructure := restructure) hp hchlag hlag S hsite hP nobody L D inf hL hD hest hlags
    hhor hkinds hserv hsame hc hcs hcan
  refine ⟨N, s, h2, fun fuelIn fuel n hfi hfu hn => ?_⟩
  obtain ⟨t, h3, h4⟩ := one hp hI hit h2 hn
  exact ⟨_, t, h1 fuelIn fuel hfi hfu, h3, h4⟩

open GeneticPipeline GeneticRun GeneticFull in
/-- The genetic scheduler with the parallel and with the serial scheme: a table for every schedule it returns, at least one. -/
theorem genetic_finishes {T : GeneticFull.Job σ} {m : Nat} {L D : Int} (hp : SoundProject p) (hI : Tabular I p)
    (hit : ∀ l, (iter l).Perm l) (hlag : lag ≠ .auto) (h : Ready (GeneticPipeline.given T p (fun _ => 0) cs) m L D) (C : Config)
    (hC : C115.Possible C T p cs) (hc : contractorsOf (p.works.map p.reqs) given = some cs) :
    (∃ N l, l ≠ [] ∧ (∀ s ∈ l, Feasible p.graph p.works (LFT.agents cs) (Serves (GeneticPipeline.given T p (fun _ => 0) cs).J) s) ∧
      ∀ fuelIn fuel n, N ≤ fuelIn → N ≤ fuel → p.works.length ≤ n →
        ∃ c ts, runAll restructure p given lag (parallel T C fuelIn fuel p) = .done cs c ∧
          projects I iter n c = some ts ∧ List.Forall₂ (Presents I p.graph p.works) l ts) ∧
    ((∀ v, T.B.assignedTime v = none) →
      ∃ N l, l ≠ [] ∧ (∀ s ∈ l, Feasible p.graph p.works (LFT.agents cs) (Staffs cs (fun _ => ⟨[], []⟩) p.reqs) s) ∧
      ∀ fuelIn fuel n, N ≤ fuelIn → N ≤ fuel → p.works.length ≤ n →
        ∃ c ts, runAll restructure p given lag (serial T C fuelIn fuel p) = .done cs c ∧
          projects I iter n c = some ts ∧ List.Forall₂ (Presents I p.graph p.works) l ts) := by
  constructor
  · obtain ⟨N, l, h1, h2, h3⟩ := C115.parallel_executes (restructure := restructure) hp hlag h C hC given hc
    refine ⟨N, l, h1, fun s hs => (h3 s hs).1, fun fuelIn fuel n a b hn => ?_⟩
    obtain ⟨ts, h4, h5⟩ := tables_show_schedules hp hI hit l (fun s hs => (h3 s hs).1) n hn
    exact ⟨_, ts, h2 fuelIn fuel a b, h4, h5⟩
  · intro hts
    obtain ⟨N, l, h1, h2, h3⟩ := C115.serial_executes (restructure := restructure) hp hlag h hts C hC given hc
    refine ⟨N, l, h1, fun s hs => (h3 s hs).1, fun fuelIn fuel n a b hn => ?_⟩
    obtain ⟨ts, h4, h5⟩ := tables_show_schedules hp hI hit l (fun s hs => (h3 s hs).1) n hn
    exact ⟨_, ts, h2 fuelIn fuel a b, h4, h5⟩

/-! ### The projects of C108 and C115 -/

namespace Genetic
open GeneticPipelineDemo

private def info : Details := ⟨fun _ => "work", fun _ => [("granular_name", "a")], fun v => v, fun v => v == 0, fun _ _ => 0, fun _ => "c", fun _ => "k"⟩

private theorem config_possible : C115.Possible config GeneticFullDemo.task demo GeneticDemo.J.contractors :=
  ⟨GeneticFullDemo.draws_possible, fun _ _ P _ => GeneticFullDemo.still_possible P, ⟨2, fun _ => rfl⟩,
    fun _ _ ha => List.mem_of_mem_take ha, by decide, ⟨_, rfl, by decide, rfl, by decide⟩⟩

private def edges : List Edge := [⟨0, 1, 0, .finishStart⟩, ⟨0, 3, 2, .lagFinishStart⟩, ⟨1, 2, 0, .inseparable⟩, ⟨3, 2, 0, .finishStart⟩,
  ⟨2, 4, 0, .finishStart⟩]

private theorem edges_to (v : Nat) : demo.graph.edgesTo v = edges.filter (fun e => e.finish == v) := by
  change C22.demo.edgesTo v = _
  unfold C22.demo
  rw [Graph.ofEdges_to]
  rfl

private theorem tabular : Tabular info demo where
  lags v e he := by
    rw [edges_to] at he
    exact (by decide : ∀ e ∈ edges, 0 ≤ e.lag) e (List.mem_filter.1 he).1
  models _ _ _ _ := rfl
  finish := by
    have step : ∀ e ∈ edges, (fun q u => u ∈ demo.works ∧ demo.graph.DependsOn u q) e.start e.finish := fun e he =>
      ⟨(by decide : ∀ e ∈ edges, e.finish ∈ demo.works) e he, e, by rw [edges_to]; exact List.mem_filter.2 ⟨he, by simp⟩, rfl,
        (by decide : ∀ e ∈ edges, e.type = .finishStart ∨ e.type = .lagFinishStart ∨ e.type = .inseparable) e he⟩
    have h32 := step ⟨3, 2, 0, .finishStart⟩ (by decide)
    have h24 := step ⟨2, 4, 0, .finishStart⟩ (by decide)
    have h12 := step ⟨1, 2, 0, .inseparable⟩ (by decide)
    have h01 := step ⟨0, 1, 0, .finishStart⟩ (by decide)
    refine ⟨4, by decide, fun v hv => ?_⟩
    have : v = 0 ∨ v = 1 ∨ v = 2 ∨ v = 3 ∨ v = 4 := by
      have := (by decide : ∀ v ∈ demo.works, v = 0 ∨ v = 1 ∨ v = 2 ∨ v = 3 ∨ v = 4)
      exact this v hv
    rcases this with rfl | rfl | rfl | rfl | rfl
    · exact .head h01 (.head h12 (.single h24))
    · exact .head h12 (.single h24)
    · exact .single h24
    · exact .head h32 (.single h24)
    · exact .refl

example := genetic_finishes (restructure := fun _ _ => none) (iter := id) (given := .list GeneticDemo.J.contractors) (lag := .on) demo_sound
  tabular (fun _ => List.Perm.refl _) (by decide) demo_ready config config_possible rfl

end Genetic

open PlainDemo

private def info : Details :=
  ⟨fun v => if v = 1 then "pit" else "work", fun _ => [("granular_name", "a"), ("measurement", "unit")], fun v => v, fun v => v == 0 || v == 4,
    fun _ _ => 0, fun c => if c = 7 then "first" else "second", fun _ => "driver"⟩

private theorem two_edge_of {e : Edge} (he : e ∈ twoEdges) : e ∈ two.graph.edgesTo e.finish := by
  change e ∈ (Graph.ofEdges twoEdges).edgesTo e.finish
  rw [Graph.ofEdges_to]
  exact List.mem_filter.2 ⟨he, by simp⟩

private theorem two_tabular : Tabular info two where
  lags v e he := (by decide : ∀ e ∈ twoEdges, 0 ≤ e.lag) e (two_edge he).1
  models _ _ _ _ := rfl
  finish := by
    have step : ∀ e ∈ twoEdges, (fun q u => u ∈ two.works ∧ two.graph.DependsOn u q) e.start e.finish := fun e he =>
      ⟨(by decide : ∀ e ∈ twoEdges, e.finish ∈ two.works) e he, e, two_edge_of he, rfl,
        (by decide : ∀ e ∈ twoEdges, e.type = .finishStart ∨ e.type = .lagFinishStart ∨ e.type = .inseparable) e he⟩
    have h34 := step ⟨3, 4, 0, .finishStart⟩ (by decide)
    have h24 := step ⟨2, 4, 0, .finishStart⟩ (by decide)
    have h12 := step ⟨1, 2, 0, .inseparable⟩ (by decide)
    have h01 := step ⟨0, 1, 0, .finishStart⟩ (by decide)
    refine ⟨4, by decide, fun v hv => ?_⟩
    have : v = 0 ∨ v = 1 ∨ v = 3 ∨ v = 2 ∨ v = 4 := by simpa [two, works] using hv
    rcases this with rfl | rfl | rfl | rfl | rfl
    · exact .head h01 (.head h12 (.single h24))
    · exact .head h12 (.single h24)
    · exact .single h34
    · exact .single h24
    · exact .refl

example := heft_finishes (restructure := fun _ _ => none) (iter := id) (given := .list demoContractors) (lag := .on) two_sound two_tabular
  (fun _ => List.Perm.refl _) (by decide) demoSettings demo_site (fun _ _ _ _ h => ⟨h, h⟩) (by decide) 2 40 (by decide) (by decide) demo_est
  two_lags (by decide) rfl demo_contractors demo_can (fun v => (v : ℚ)) (fun v => Nat.cast_nonneg v) demoOpt (fun _ _ _ =>
    ⟨(C16.optimizers_stay_within fun _ => 0).2.2 1 1 (by decide) (by decide),
      (C54.optimizers_answer fun _ => 0).2.2 1 1 (by decide) (by decide)⟩) [fun o => some o]
  (fun o ho order hg => ⟨order, by rw [List.mem_singleton] at ho; rw [ho], hg⟩)

example := lft_finishes (restructure := fun _ _ => none) (iter := List.reverse) (given := .list demoContractors) (lag := .off) two_sound
  two_tabular List.reverse_perm two_chain_lag (by decide) demoSettings demo_site (by decide) 0 2 40 1000 (by decide) (by decide) demo_est
  two_lags (by decide) (fun _ => rfl) (fun v h => by
    simp only [two, demoSettings, demoSite, demoReqs] at h ⊢
    split at h
    · exact absurd rfl h
    · simp; omega) two_same rfl demo_contractors demo_can

private def shown (o : Outcome Graph Sched Unit) : Option (List (List (Nat × Int × Int))) :=
  match o with
  | .done _ c => (projects info id 5 c).map fun ts => ts.map fun t => t.rows.map fun r => (r.id, r.start, r.finish)
  | _ => none

-- a whole run from the project to the table
example : shown (run (fun _ _ => none) two (.list demoContractors) .on (heft demoSettings (fun v => (v : ℚ)) demoOpt [] 50 two)) =
    some [[(0, 5, 5), (1, 5, 15), (3, 7, 37), (2, 15, 35), (4, 37, 37)]] := by decide +kernel

end Sampo.C116
