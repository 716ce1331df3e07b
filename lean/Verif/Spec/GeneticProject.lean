import Verif.Model.GeneticRun
import Verif.Props.C89_Schedulers

/-! Specification: projects for which the tables of the genetic algorithm are right. -/

namespace Sampo

/-- All contractors list the same kinds `0, …, m - 1` of workers in the same order, and ids of contractors are their positions in
the list.  (Ids and kinds are numbered so in the model; what is assumed is that every contractor has an entry for every
kind, in the same order, see C27.) -/
structure Numbered (cs : List Contractor) (m : Nat) : Prop where
  nonempty : cs ≠ []
  ids : ∀ (i : Nat) (c : Contractor), cs[i]? = some c → c.id = i
  kinds : ∀ c ∈ cs, c.workers.map (·.1) = List.range m
  counts : ∀ c ∈ cs, ∀ w ∈ c.workers, 0 ≤ w.2

namespace GeneticRun

/-- A project with `m` kinds of workers: a work graph whose chains do not depend on each other in a cycle, priorities that agree
with the dependencies, sound requirements for known kinds, known contractors in the specification. -/
structure Sound (J : Project) (m : Nat) : Prop where
  graph : C22.WorkGraph J.graph J.nodes
  works : J.nodes ≠ []
  acyclic : Acyclic (J.graph.HeadDependsOn J.nodes)
  prios : C89.PrioritiesAgree J.prio J.graph J.nodes
  contractors : Numbered J.contractors m
  reqs : ∀ v, C16.SoundReqs (J.reqs v) ∧ ((J.reqs v).map (·.kind)).Nodup ∧ ∀ r ∈ J.reqs v, r.kind < m
  spec : ∀ v, ∀ c ∈ (J.spec v).contractors, c < J.contractors.length

end GeneticRun

end Sampo
