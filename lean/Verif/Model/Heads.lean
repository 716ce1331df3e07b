import Verif.Model.Graph
import Verif.Model.Toposort

/-!
# Collapsing inseparable chains (`sampo/scheduler/utils/__init__.py:57-122`)
-/

namespace Sampo.Heads

/-- `[node for node in nodes if not node.is_inseparable_son()]` (line 86). -/
def heads (g : Graph) (nodes : List Nat) : List Nat := nodes.filter fun v => (g.insepParent v).isNone

/-- `node2inseparable_parent` (line 91); in a dictionary comprehension the last assignment to a key wins. -/
def owner (g : Graph) (nodes : List Nat) (v : Nat) : Option Nat :=
  (((heads g nodes).flatMap fun h => (g.chainWithSelf nodes.length h).map fun c => (c, h)).reverse).lookup v

/-- `set(node2inseparable_parent[x].id for ... for x in next) - {node.id}` (lines 97-102, 108-113), for `next` the parents or
the children; `none` is a `KeyError`. -/
def linked (g : Graph) (nodes : List Nat) (next : Nat → List Nat) (h : Nat) : Option (List Nat) :=
  (((g.chainWithSelf nodes.length h).flatMap next).mapM (owner g nodes)).map fun l => (l.filter fun x => x ≠ h).dedup

/-- `get_head_nodes_with_connections_mappings_nodes`: heads in topological order, parent ids, child ids.  `none` is an
exception (`KeyError` or `CircularDependencyError`). -/
def collapse (g : Graph) (nodes : List Nat) : Option (List Nat × Deps × Deps) :=
  ((heads g nodes).mapM fun h => (linked g nodes g.parents h).map fun l => (h, l)).bind fun par =>
    ((heads g nodes).mapM fun h => (linked g nodes g.children h).map fun l => (h, l)).bind fun chi =>
      (toposortFlatten par).map fun order => (order, par, chi)

end Sampo.Heads
