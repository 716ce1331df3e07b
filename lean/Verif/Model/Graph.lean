import Verif.Prelude

/-!
# Work graphs (`sampo/schemas/graph.py`)

Nodes are compared and hashed by id (graph.py:65-71), so a node is its id here.  The two edge lists every node carries are
functions from ids.
-/

namespace Sampo

/-- `EdgeType` (graph.py:20-29). -/
inductive EdgeType
  | inseparable
  | lagFinishStart
  | startStart
  | finishFinish
  | finishStart
deriving DecidableEq, Repr

/-- `EdgeType.is_dependency` (graph.py:31-36). -/
def EdgeType.isDependency : EdgeType → Bool
  | .finishStart => true
  | .inseparable => true
  | .lagFinishStart => true
  | .startStart => false
  | .finishFinish => false

/-- `GraphEdge` (graph.py:40-47).  Lags are integers here (the program allows any float and uses `int(lag)` in schedules). -/
structure Edge where
  start : Nat
  finish : Nat
  lag : Int
  type : EdgeType
deriving DecidableEq, Repr

/-- The linked nodes: `_parent_edges` and `_children_edges` of every node (graph.py:59-60). -/
structure Graph where
  edgesTo : Nat → List Edge
  edgesFrom : Nat → List Edge

namespace Graph

/-- Nodes without edges. -/
def empty : Graph := ⟨fun _ => [], fun _ => []⟩

/-- One edge of `add_parents`: `parent._add_child_edge(edge)` and the new element of `_parent_edges` (graph.py:105-125). -/
def addEdge (g : Graph) (e : Edge) : Graph :=
  ⟨fun v => if v = e.finish then g.edgesTo v ++ [e] else g.edgesTo v,
   fun v => if v = e.start then g.edgesFrom v ++ [e] else g.edgesFrom v⟩

/-- `GraphNode.add_parents` with tuples (parent, lag, type) (graph.py:105-125). -/
def addParents (g : Graph) (v : Nat) (parents : List (Nat × Int × EdgeType)) : Graph :=
  parents.foldl (fun g p => g.addEdge ⟨p.1, v, p.2.1, p.2.2⟩) g

/-- `GraphNode.parents` (graph.py:184-190). -/
def parents (g : Graph) (v : Nat) : List Nat := ((g.edgesTo v).filter (·.type.isDependency)).map (·.start)

/-- `GraphNode.children` (graph.py:200-206). -/
def children (g : Graph) (v : Nat) : List Nat := ((g.edgesFrom v).filter (·.type.isDependency)).map (·.finish)

/-- `GraphNode.inseparable_son` (graph.py:165-173). -/
def insepSon (g : Graph) (v : Nat) : Option Nat :=
  (((g.edgesFrom v).filter (·.type = .inseparable)).map (·.finish)).head?

/-- `GraphNode.inseparable_parent` (graph.py:175-182). -/
def insepParent (g : Graph) (v : Nat) : Option Nat :=
  (((g.edgesTo v).filter (·.type = .inseparable)).map (·.start)).head?

/-- `[self] + self._get_inseparable_children()` (graph.py:267-278) down to a depth of `fuel` sons. -/
def chainFrom (g : Graph) : Nat → Nat → List Nat
  | 0, v => [v]
  | fuel + 1, v =>
    match g.insepSon v with
    | some s => v :: g.chainFrom fuel s
    | none => [v]

/-- `get_inseparable_chain_with_self` (graph.py:257-265). -/
def chainWithSelf (g : Graph) (fuel : Nat) (v : Nat) : List Nat :=
  if (g.insepSon v).isSome && (g.insepParent v).isNone then g.chainFrom fuel v else [v]

/-- The loop of `traverse_children(topologically=True)` (graph.py:153-163): the queue, the visited vertexes in order of
their first visit (also the result).  `none`: the loop does not end within the fuel. -/
def traverseLoop (g : Graph) : Nat → List Nat → List Nat → Option (List Nat)
  | 0, queue, visited => if queue.isEmpty then some visited else none
  | _ + 1, [], visited => some visited
  | fuel + 1, v :: queue, visited =>
    if (g.edgesTo v).any fun e => !visited.contains e.start then g.traverseLoop fuel (queue ++ [v]) visited
    else if visited.contains v then g.traverseLoop fuel queue visited
    else g.traverseLoop fuel (queue ++ (g.edgesFrom v).map (·.finish)) (visited ++ [v])

/-- `list(start.traverse_children(topologically=True))`, the `nodes` of a `WorkGraph` (graph.py:476). -/
def traverse (g : Graph) (fuel : Nat) (start : Nat) : Option (List Nat) := g.traverseLoop fuel [start] []

/-- `WorkGraph._serialize` with `GraphNode._serialize` (graph.py:88-93, 451-454): for every work its id and its parent edges;
the other data of a work unit is not modelled. -/
def serialize (g : Graph) (nodes : List Nat) : List (Nat × List (Nat × Int × EdgeType)) :=
  nodes.map fun v => (v, (g.edgesTo v).map fun e => (e.start, e.lag, e.type))

/-- The loop of `WorkGraph._deserialize` (graph.py:461-466).  `none` is a `KeyError` for an unknown parent. -/
def rebuild : List (Nat × List (Nat × Int × EdgeType)) → List Nat → Graph → Option (List Nat × Graph)
  | [], known, g => some (known, g)
  | (v, ps) :: rest, known, g =>
    if ps.all fun p => known.contains p.1 then rebuild rest (known ++ [v]) (g.addParents v ps) else none

/-- `WorkGraph._deserialize` (graph.py:456-468): start, finish, the rebuilt nodes and their order of creation.  `none` is an
exception. -/
def deserialize (s : List (Nat × List (Nat × Int × EdgeType))) : Option (Nat × Nat × Graph) :=
  match s.head?, s.getLast? with
  | some first, some last =>
    if first.2.isEmpty then (rebuild s [] empty).map fun r => (first.1, last.1, r.2) else none
  | _, _ => none

/-- The loop of `WorkGraph.from_nodes` linking works without dependency predecessors to the start (graph.py:354-357). -/
def linkStart (start : Nat) : List Nat → Graph → Graph
  | [], g => g
  | v :: vs, g =>
    if (g.parents v).isEmpty then linkStart start vs (g.addParents v [(start, 0, .finishStart)])
    else linkStart start vs g

/-- `WorkGraph.from_nodes` (graph.py:352-359) with `get_start_stage` and `get_finish_stage` (294-322) for new ids `start`
and `finish`.  `none` is the `ValueError` of `max` of no priorities. -/
def fromNodes (g : Graph) (start finish : Nat) (nodes : List Nat) : Option Graph :=
  let g₁ := linkStart start nodes g
  let last := nodes.filter fun v => (g₁.children v).isEmpty
  if last.isEmpty then none else some (g₁.addParents finish (last.map fun v => (v, 0, .finishStart)))

end Graph

end Sampo
