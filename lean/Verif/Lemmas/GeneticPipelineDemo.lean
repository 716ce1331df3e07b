import Verif.Model.GeneticPipeline
import Verif.Lemmas.PlainPipeline
import Verif.Lemmas.GeneticFullDemo

/-! # The project of `Lemmas/GeneticDemo.lean` for the pipeline -/

namespace Sampo.GeneticPipelineDemo

open GeneticPipeline GeneticRun GeneticFull
open PlainPipeline (SoundProject)
open GeneticFullDemo (task draws still draws_possible still_possible)

def demo : PlainPipeline.Project := ⟨C22.demo, GeneticDemo.works, GeneticDemo.reqs, fun _ => 1⟩

theorem demo_sound : SoundProject demo where
  graph := GeneticDemo.graph
  deps := GeneticDemo.deps
  some := by decide
  chains := .inr ⟨fun _ _ _ _ => rfl, GeneticDemo.acyclic⟩
  reqs v := ⟨(GeneticDemo.sound.reqs v).1, (GeneticDemo.sound.reqs v).2.1⟩
  outside v hv := by
    show GeneticDemo.reqs v = []
    unfold GeneticDemo.reqs
    rw [if_neg, if_neg]
    · rintro (rfl | rfl) <;> exact hv (by decide)
    · rintro rfl; exact hv (by decide)

theorem demo_ready : Ready (given task demo (fun _ => 0) GeneticDemo.J.contractors) 2 2 40 :=
  have h := GeneticFullDemo.ready
  { project := {
      sound := ⟨h.project.sound.graph, h.project.sound.works, h.project.sound.acyclic, fun _ _ _ => Int.le_refl _, h.project.sound.contractors,
        h.project.sound.reqs, fun _ _ hc => by cases hc⟩
      plain := ⟨h.project.plain.dependencies, h.project.plain.lags, fun _ => rfl, h.project.plain.begins⟩
      bound := h.project.bound
      lags := h.project.lags
      chains := h.project.chains
      alike := fun k v hv => ⟨(h.project.alike k v hv).1, rfl⟩
      able := fun v => by
        obtain ⟨c, hc, -, ha⟩ := h.project.able v
        exact ⟨c, hc, .inl rfl, ha⟩
      source := h.project.source }
    site := ⟨h.site.bound, h.site.durations, h.site.service, h.site.kinds, h.site.limits, h.site.early, h.site.allowed, h.site.steady, h.site.given⟩
    cost := h.cost
    dur := h.dur
    index := h.index
    sort := h.sort
    first := h.first
    half := h.half
    late := h.late
    room := h.room }

def config : Config := ⟨draws, still, true, fun i => [i.res.amount 0 0, 1], fun l => l.take 5, none, 10, false, 9, none⟩

end Sampo.GeneticPipelineDemo
