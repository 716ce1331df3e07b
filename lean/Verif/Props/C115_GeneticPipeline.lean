import Verif.Model.GeneticPipeline
import Verif.Lemmas.PlainPipeline
import Verif.Lemmas.GeneticPipelineDemo
import Verif.Props.C45_Check
import Verif.Props.C112_WholeGenetic
import Verif.Props.C113_SerialGenetic

/-!
# C115: the pipeline with the genetic scheduler
-/

namespace Sampo.C115

open GeneticPipeline GeneticRun GeneticFull
open PlainPipeline (SoundProject)
open Pipeline (Given Lag contractorsOf)
open GeneticLoop (Sample urn counts)

variable {σ : Type} {T : Job σ} {p : PlainPipeline.Project} {cs : List Contractor} {m : Nat} {L D : Int}
  {restructure : Graph → Bool → Option Graph} {lag : Lag}

/-- What can be drawn and set. -/
structure Possible (C : Config) (T : Job σ) (p : PlainPipeline.Project) (cs : List Contractor) : Prop where
  draws : C.draws.Possible
  random : ∀ prio heads P, prepare (given T p prio cs).J = some (heads, P) → C.random.Possible P
  fit : ∃ dim, ∀ i, (C.fit i).length = dim
  select : ∀ l, ∀ a ∈ C.select l, a ∈ l
  size : 0 < C.size
  weights : ∃ ws, Backend.schedulerWeights C.weights = some ws ∧ (∀ w ∈ ws, 0 < w) ∧ Sample C.size (urn (counts C.size ws)) C.draws.kinds

private theorem ready (h : Ready (given T p (fun _ => 0) cs) m L D) {prio : Nat → Int} (ha : C89.PrioritiesAgree prio p.graph p.works) :
    Ready (given T p prio cs) m L D where
  project := {
    sound := ⟨h.project.sound.graph, h.project.sound.works, h.project.sound.acyclic, ha, h.project.sound.contractors, h.project.sound.reqs,
      h.project.sound.spec⟩
    plain := ⟨h.project.plain.dependencies, h.project.plain.lags, h.project.plain.counts, h.project.plain.begins⟩
    bound := h.project.bound
    lags := h.project.lags
    chains := h.project.chains
    alike := h.project.alike
    able := h.project.able
    source := h.project.source }
  site := ⟨h.site.bound, h.site.durations, h.site.service, h.site.kinds, h.site.limits, h.site.early, h.site.allowed, h.site.steady, h.site.given⟩
  cost := h.cost
  dur := h.dur
  index := h.index
  sort := h.sort
  first := h.first
  half := h.half
  late := h.late
  room := h.room

private theorem accepted (h : Ready (given T p (fun _ => 0) cs) m L D) : Pipeline.canPerformGraph cs (p.works.map p.reqs) = some true := by
  have hn := h.project.sound.contractors
  refine (C45.accepted_iff_partial fun c hc reqs hr r hm => ?_).1.2 ?_
  · obtain ⟨v, -, rfl⟩ := List.mem_map.1 hr
    obtain ⟨i, hi, rfl⟩ := List.getElem_of_mem hc
    exact ⟨_, (hn.pool (List.getElem?_eq_getElem hi) ((h.project.sound.reqs v).2.2 r hm)).2⟩
  · intro reqs hr
    obtain ⟨v, -, rfl⟩ := List.mem_map.1 hr
    obtain ⟨c, hc, -, ha⟩ := h.project.able v
    exact ⟨c, hc, ha⟩

private theorem done (hp : SoundProject p) (hlag : lag ≠ .auto) (h : Ready (given T p (fun _ => 0) cs) m L D) {g : Given}
    (hc : contractorsOf (p.works.map p.reqs) g = some cs) {scheduler : (Nat → Int) → List Contractor → Option (List Sched)} {prio : Nat → Int}
    (hprio : Priority.correct p.graph.parents p.works.length p.works p.prio = some prio) {l : List Sched} (hs : scheduler prio cs = some l) :
    runAll restructure p g lag scheduler = .done cs ⟨p.graph, l, l.map fun _ => ()⟩ := by
  unfold runAll
  rw [hprio]
  dsimp only
  unfold Pipeline.schedule
  rw [hc]
  dsimp only
  rw [accepted h]
  dsimp only
  cases lag with
  | auto => exact absurd rfl hlag
  | on => simp [Pipeline.chooseGraph, hs, Function.comp_def]
  | off => simp [Pipeline.chooseGraph, hs, Function.comp_def]

/-- Parallel scheme: the pipeline accepts the contractors and ends with the given graph and at least one schedule; all its schedules are
valid schedules of all works, whatever the priorities of the works. -/
theorem parallel_executes (hp : SoundProject p) (hlag : lag ≠ .auto) (h : Ready (given T p (fun _ => 0) cs) m L D) (C : Config)
    (hC : Possible C T p cs) (g : Given) (hc : contractorsOf (p.works.map p.reqs) g = some cs) :
    ∃ (N : Nat) (l : List Sched), l ≠ [] ∧
      (∀ fuelIn fuel, N ≤ fuelIn → N ≤ fuel →
        runAll restructure p g lag (parallel T C fuelIn fuel p) = .done cs ⟨p.graph, l, l.map fun _ => ()⟩) ∧
      ∀ s ∈ l, Feasible p.graph p.works (LFT.agents cs) (Serves (given T p (fun _ => 0) cs).J) s ∧
        ∀ e ∈ s, e.2.finish ≤ T.B.parentTime + p.works.length * (2 * L + D + 1) := by
  obtain ⟨prio, hprio, ha⟩ := PlainPipeline.corrected hp
  obtain ⟨dim, hdim⟩ := hC.fit
  obtain ⟨ws, hws, hpos, hk⟩ := hC.weights
  obtain ⟨N, Ls, hne, hrun, hF⟩ := C112.returns_valid_schedules (ready h ha) C.draws hC.draws C.random (hC.random prio) C.optimize C.fit dim hdim
    C.select hC.select C.maxPlateau C.generations C.lftOnly C.size hC.size C.weights ws hws hpos hk
  refine ⟨N, Ls.map (·.st.sched), by simpa using hne, fun fuelIn fuel h1 h2 => done hp hlag h hc hprio ?_, ?_⟩
  · unfold parallel
    rw [hrun fuelIn fuel h1 h2]
    rfl
  · intro s hs
    obtain ⟨Lp, hL, rfl⟩ := List.mem_map.1 hs
    exact hF Lp hL

/-- Serial scheme: the same, if no times are given. -/
theorem serial_executes (hp : SoundProject p) (hlag : lag ≠ .auto) (h : Ready (given T p (fun _ => 0) cs) m L D)
    (hts : ∀ v, T.B.assignedTime v = none) (C : Config) (hC : Possible C T p cs) (g : Given)
    (hc : contractorsOf (p.works.map p.reqs) g = some cs) :
    ∃ (N : Nat) (l : List Sched), l ≠ [] ∧
      (∀ fuelIn fuel, N ≤ fuelIn → N ≤ fuel →
        runAll restructure p g lag (serial T C fuelIn fuel p) = .done cs ⟨p.graph, l, l.map fun _ => ()⟩) ∧
      ∀ s ∈ l, Feasible p.graph p.works (LFT.agents cs) (C89.Staffs cs (fun _ => ⟨[], []⟩) p.reqs) s ∧
        ∀ e ∈ s, e.2.finish ≤ T.B.parentTime + p.works.length * (L + D) := by
  obtain ⟨prio, hprio, ha⟩ := PlainPipeline.corrected hp
  obtain ⟨dim, hdim⟩ := hC.fit
  obtain ⟨ws, hws, hpos, hk⟩ := hC.weights
  obtain ⟨N, sts, hne, hrun, hF⟩ := C113.returns_valid_schedules (ready h ha) hts C.draws hC.draws C.random (hC.random prio) C.optimize C.fit dim
    hdim C.select hC.select C.maxPlateau C.generations C.lftOnly C.size hC.size C.weights ws hws hpos hk
  refine ⟨N, sts.map (·.sched), by simpa using hne, fun fuelIn fuel h1 h2 => done hp hlag h hc hprio ?_, ?_⟩
  · unfold serial
    rw [hrun false fuelIn fuel h1 h2]
    rfl
  · intro s hs
    obtain ⟨st, hst, rfl⟩ := List.mem_map.1 hs
    exact hF st hst

/-! ### The project of `Lemmas/GeneticDemo.lean`, with equal priorities and without a specification -/

open GeneticFullDemo (task draws still draws_possible still_possible)

open GeneticPipelineDemo

private theorem config_possible : Possible config task demo GeneticDemo.J.contractors :=
  ⟨draws_possible, fun _ _ P _ => still_possible P, ⟨2, fun _ => rfl⟩, fun _ _ ha => List.mem_of_mem_take ha, by decide,
    ⟨_, rfl, by decide, rfl, by decide⟩⟩

-- a population of nine over ten generations, lag optimization "on"
example := parallel_executes (restructure := fun _ _ => none) demo_sound (by decide : Lag.on ≠ .auto) demo_ready config config_possible
  (.list GeneticDemo.J.contractors) rfl

example := serial_executes (restructure := fun _ _ => none) demo_sound (by decide : Lag.off ≠ .auto) demo_ready (fun _ => rfl) config
  config_possible (.list GeneticDemo.J.contractors) rfl

end Sampo.C115
