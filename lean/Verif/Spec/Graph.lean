import Verif.Model.Graph
import Mathlib.Logic.Relation

/-!
# Specification vocabulary for work graphs

Only the edges stored at the nodes are mentioned here.
-/

namespace Sampo

/-- The two ends of every edge know it: an edge is stored as often at its finish as at its start. -/
structure Graph.Linked (g : Graph) : Prop where
  finish : ∀ v, ∀ e ∈ g.edgesTo v, e.finish = v
  start : ∀ v, ∀ e ∈ g.edgesFrom v, e.start = v
  count : ∀ e : Edge, (g.edgesTo e.finish).count e = (g.edgesFrom e.start).count e

theorem Graph.Linked.both {g : Graph} (h : g.Linked) (e : Edge) : e ∈ g.edgesTo e.finish ↔ e ∈ g.edgesFrom e.start := by
  rw [← List.count_pos_iff, h.count e, List.count_pos_iff]

/-- There is an edge of any type from `p` to `v`. -/
def Graph.Before (g : Graph) (p v : Nat) : Prop := ∃ e ∈ g.edgesTo v, e.start = p

/-- `v` can be reached from `s` along edges. -/
def Graph.Reaches (g : Graph) (s v : Nat) : Prop := Relation.ReflTransGen g.Before s v

/-- `v` depends directly on `p`: there is a finish-start edge (with or without lag, or inseparable) from `p` to `v`. -/
def Graph.DependsOn (g : Graph) (v p : Nat) : Prop :=
  ∃ e ∈ g.edgesTo v, e.start = p ∧ (e.type = .finishStart ∨ e.type = .lagFinishStart ∨ e.type = .inseparable)

/-- `v` directly follows `p` in an inseparable chain. -/
def Graph.Follows (g : Graph) (p v : Nat) : Prop := ∃ e ∈ g.edgesTo v, e.start = p ∧ e.type = .inseparable

/-- `v` is in the inseparable chain that starts at `h`. -/
def Graph.InChain (g : Graph) (h v : Nat) : Prop := Relation.ReflTransGen g.Follows h v

/-- Inseparable edges form chains: at most one comes into a work and at most one leaves it. -/
structure Graph.Chains (g : Graph) : Prop where
  oneParent : ∀ a b v, g.Follows a v → g.Follows b v → a = b
  oneSon : ∀ a v w, g.Follows a v → g.Follows a w → v = w

/-- The works of a list have no edges to works outside the list. -/
def Graph.ClosedIn (g : Graph) (nodes : List Nat) : Prop :=
  ∀ v ∈ nodes, (∀ e ∈ g.edgesTo v, e.start ∈ nodes) ∧ ∀ e ∈ g.edgesFrom v, e.finish ∈ nodes

/-- A chain head: a work of the graph that does not follow another one inseparably. -/
def Graph.IsHead (g : Graph) (nodes : List Nat) (h : Nat) : Prop := h ∈ nodes ∧ ∀ a, ¬ g.Follows a h

/-- The chain of the head `h` depends on the chain of another head `p`: some work of the first has a predecessor in the
second. -/
def Graph.HeadDependsOn (g : Graph) (nodes : List Nat) (h p : Nat) : Prop :=
  g.IsHead nodes h ∧ g.IsHead nodes p ∧ p ≠ h ∧ ∃ v w, g.InChain h v ∧ g.InChain p w ∧ g.DependsOn v w

/-- A finite work graph: `nodes` are the works reachable from `start`, all edges stay among them, and there is no cycle. -/
structure Graph.Project (g : Graph) (start : Nat) (nodes : List Nat) : Prop where
  once : nodes.Nodup
  linked : g.Linked
  start_mem : start ∈ nodes
  closed : g.ClosedIn nodes
  reach : ∀ v ∈ nodes, g.Reaches start v
  acyclic : ∀ v ∈ nodes, ¬ Relation.TransGen g.Before v v

end Sampo
