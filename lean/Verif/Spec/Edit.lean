import Verif.Model.Edit
import Verif.Spec.Graph

/-!
# Specification vocabulary for edited graphs
-/

namespace Sampo

/-- The edge between the works with the new names. -/
def Edge.rename (ν : Nat → Nat) (e : Edge) : Edge := ⟨ν e.start, ν e.finish, e.lag, e.type⟩

/-- Different works get different names. -/
def DistinctNames (ν : Nat → Nat) (nodes : List Nat) : Prop := ∀ v ∈ nodes, ∀ w ∈ nodes, ν v = ν w → v = w

/-- What the given works know of the graph. -/
def Graph.only (g : Graph) (nodes : List Nat) : Graph where
  edgesTo v := if v ∈ nodes then g.edgesTo v else []
  edgesFrom v := if v ∈ nodes then g.edgesFrom v else []

/-- `v` has to wait for `p` along finish-start edges (with or without lag, or inseparable). -/
def Graph.WaitsFor (g : Graph) (v p : Nat) : Prop := Relation.TransGen g.DependsOn v p

/-- A graph from which works have been removed: the works that remain form a finite work graph.  (The objects of removed works
keep their lists of edges, but no remaining work knows them.) -/
def Graph.ProjectOf (g : Graph) (start : Nat) (nodes : List Nat) : Prop := (g.only nodes).Project start nodes

/-- Only finish-start edges (with or without lag, or inseparable) come to the work and leave it. -/
def Graph.OnlyDependencies (g : Graph) (v : Nat) : Prop :=
  (∀ e ∈ g.edgesTo v, e.type.isDependency) ∧ ∀ e ∈ g.edgesFrom v, e.type.isDependency

end Sampo
