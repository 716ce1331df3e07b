import Verif.Spec.Schedulers

/-! Specification: projects with one start and one finish, and areas of an order. -/

namespace Sampo

/-- The work `s` is the only one without predecessors, the work `f` the only one without successors. -/
structure Graph.FromTo (g : Graph) (nodes : List Nat) (s f : Nat) : Prop where
  start_mem : s ∈ nodes
  finish_mem : f ∈ nodes
  start : ∀ v ∈ nodes, (∃ p, g.DependsOn v p) ↔ v ≠ s
  finish : ∀ v ∈ nodes, (∃ c, g.DependsOn c v) ↔ v ≠ f

/-- An area of the order of `n` works that does not reach from the first to the last. -/
def Inner (n : Nat) (a : Nat × Nat) : Prop := a.2 ≤ n ∧ (0 < a.1 ∨ a.2 < n)

end Sampo
