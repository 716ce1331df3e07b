import Verif.Model.Graph

/-!
# Copies and the end of work graphs (`sampo/schemas/graph.py`)

A `WorkGraph` has a destructor that takes the links away from its nodes.  Node objects are shared between graph objects, so here the
links of a node may be missing.  An object is destroyed as soon as nothing refers to it (CPython); the garbage collector is not
needed for a `WorkGraph`, since its nodes do not refer to it.
-/

namespace Sampo.Lifetime

/-- `_parent_edges` and `_children_edges` of node objects (graph.py:59-60); `none` is Python's `None`. -/
structure Store where
  edgesTo : Nat → Option (List Edge)
  edgesFrom : Nat → Option (List Edge)

/-- Nodes with links. -/
def Store.ofGraph (g : Graph) : Store := ⟨fun v => some (g.edgesTo v), fun v => some (g.edgesFrom v)⟩

/-- A `WorkGraph` (graph.py:330-338): start, finish and nodes. -/
structure Obj where
  start : Nat
  finish : Nat
  nodes : List Nat

/-- `WorkGraph(start, finish)`: `reinit` finds the nodes from the start (graph.py:340-349).  `none`: the traversal does not end. -/
def construct (g : Graph) (fuel start finish : Nat) : Option Obj := (g.traverse fuel start).map fun order => ⟨start, finish, order⟩

/-- `WorkGraph.__del__` (graph.py:443-449). -/
def discard (o : Obj) (s : Store) : Store :=
  ⟨fun v => if v ∈ o.nodes then none else s.edgesTo v, fun v => if v ∈ o.nodes then none else s.edgesFrom v⟩

/-- `WorkGraph._deserialize` (graph.py:456-468): the graph object and its nodes.  Outer `none`: no end; inner `none`: exception. -/
def recreate (fuel : Nat) (state : List (Nat × List (Nat × Int × EdgeType))) : Option (Option (Obj × Store)) :=
  match Graph.deserialize state with
  | none => some none
  | some (start, finish, g) => (construct g fuel start finish).map fun o => some (o, Store.ofGraph g)

/-- `WorkGraph.__setstate__` (graph.py:436-441): a graph object is made of the state, `self` takes its start and finish and finds
the nodes again (the same ones); on return the first object is destroyed. -/
def setState (fuel : Nat) (state : List (Nat × List (Nat × Int × EdgeType))) : Option (Option (Obj × Store)) :=
  match Graph.deserialize state with
  | none => some none
  | some (start, finish, g) =>
    (construct g fuel start finish).bind fun temporary =>
      (construct g fuel temporary.start temporary.finish).map fun self => some (self, discard temporary (Store.ofGraph g))

/-- `copy.deepcopy(wg)`, `pickle.loads(pickle.dumps(wg))`: `__getstate__` (graph.py:429-434), then `__setstate__`.  Start and finish in
the state are not read. -/
def deepcopy (g : Graph) (fuel : Nat) (o : Obj) : Option (Option (Obj × Store)) := setState fuel (g.serialize o.nodes)

/-- `dill.loads(dill.dumps(wg))`: `serialize_wg` (graph.py:490-498). -/
def dillCopy (g : Graph) (fuel : Nat) (o : Obj) : Option (Option (Obj × Store)) := recreate fuel (g.serialize o.nodes)

end Sampo.Lifetime
