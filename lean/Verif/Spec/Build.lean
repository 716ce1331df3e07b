import Verif.Spec.PlainPipeline

/-! Specification: lists of works for which a project can be built. -/

namespace Sampo.PlainPipeline

/-- Works given by a user: each once, connected among themselves and to no other work by dependencies without negative lags and without
cycles, with inseparable chains that are entered at their heads, and with sound requirements.  `start` and `finish` are the new works. -/
structure SoundWorks (g : Graph) (start finish : Nat) (nodes : List Nat) (reqs : Nat → List WorkerReq) : Prop where
  some : nodes ≠ []
  once : nodes.Nodup
  linked : g.Linked
  closed : g.ClosedIn nodes
  only : ∀ v, v ∉ nodes → g.edgesTo v = [] ∧ g.edgesFrom v = [] ∧ reqs v = []
  new : start ∉ nodes ∧ finish ∉ nodes ∧ start ≠ finish
  deps : C89.OnlyDependencies g
  lags : ∀ v, ∀ e ∈ g.edgesTo v, 0 ≤ e.lag
  acyclic : Acyclic g.DependsOn
  chains : g.Chains
  entered : g.EnteredAtHeads
  reqs : ∀ v ∈ nodes, C16.SoundReqs (reqs v) ∧ ((reqs v).map (·.kind)).Nodup

end Sampo.PlainPipeline
