import Verif.Model.PlainPipeline
import Verif.Spec.Schedulers
import Verif.Props.C22_HeadNodes

/-! Specification: projects for the pipeline without lag optimization. -/

namespace Sampo

/-- A work inside an inseparable chain depends on nothing but the work before it in the chain. -/
def Graph.EnteredAtHeads (g : Graph) : Prop := ∀ v p q, g.Follows p v → g.DependsOn v q → q = p

namespace PlainPipeline

/-- A project of works and dependencies: chains are entered at their heads, or all priorities are equal and there is no cycle through
chains; requirements are sound. -/
structure SoundProject (p : Project) : Prop where
  graph : C22.WorkGraph p.graph p.works
  deps : C89.OnlyDependencies p.graph
  some : p.works ≠ []
  chains : p.graph.EnteredAtHeads ∨ ((∀ v w, v ∈ p.works → w ∈ p.works → p.prio v = p.prio w) ∧ Acyclic (p.graph.HeadDependsOn p.works))
  reqs : ∀ v, C16.SoundReqs (p.reqs v) ∧ ((p.reqs v).map (·.kind)).Nodup
  outside : ∀ v, v ∉ p.works → p.reqs v = []

/-- Some contractor of the list has enough workers of every type that the work needs. -/
def CanBeDone (cs : List Contractor) (reqs : List WorkerReq) : Prop :=
  ∃ c ∈ cs, ∀ r ∈ reqs, ∃ n, c.workers.lookup r.kind = Option.some n ∧ r.minCount ≤ n

end PlainPipeline
end Sampo
