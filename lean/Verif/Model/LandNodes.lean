import Mathlib.Data.List.Basic
import Mathlib.Logic.Function.Basic

/-!
# Nodes of a transport network as objects (`sampo/schemas/landscape_graph.py`)

`Model/Landscape.lean` takes a network that is complete and asks for routes.  Here nodes are objects that are created, joined and read in any order.
Nodes live in a heap; an address is a position in it.  Lengths are natural numbers.  Ids of roads are new UUIDs, here numbers
counted from zero.  The id `none` of a node is the value of `str(uuid.uuid4())` in the list of parameters, which Python computes once
(landscape_graph.py:41).  A raised exception is `none`.  Names and storages of nodes are left out.
-/

namespace Sampo.LandNodes

/-- `LandEdge` (landscape_graph.py:11-21); ends are addresses. -/
structure Edge where
  id : Nat
  start : Nat
  finish : Nat
  weight : Nat
  bandwidth : Nat
deriving DecidableEq, Repr

/-- `LandGraphNode` (landscape_graph.py:39-61); `shown`: the value remembered by `cached_property` for `neighbours`.  What `roads` and `works` remember is
the list of the node itself, so nothing is lost by not modelling it. -/
structure Node where
  id : Option Nat
  roads : List Edge
  works : List Nat
  shown : Option (List Nat)
deriving DecidableEq, Repr

/-- All nodes, and the number of roads made so far. -/
structure Heap where
  nodes : List Node
  ids : Nat
deriving DecidableEq, Repr

/-- `_roads.append` (landscape_graph.py:92-93, 97-98). -/
def Heap.append (h : Heap) (v : Nat) (e : Edge) : Heap := { h with nodes := h.nodes.modify v fun n => { n with roads := n.roads ++ [e] } }

/-- One road of `add_neighbours` (landscape_graph.py:90-93): node `a` and a neighbour, the length, the bandwidth. -/
def Heap.join (h : Heap) (a : Nat) (x : Nat × Nat × Nat) : Option Heap :=
  if a < h.nodes.length ∧ x.1 < h.nodes.length then
    some { (h.append a ⟨h.ids, a, x.1, x.2.1, x.2.2⟩).append x.1 ⟨h.ids, x.1, a, x.2.1, x.2.2⟩ with ids := h.ids + 1 }
  else none

/-- What a user does with nodes. -/
inductive Op
  /-- `LandGraphNode(id, neighbour_nodes=…, works=…)`. -/
  | create (id : Option Nat) (neighbours : Option (List (Nat × Nat × Nat))) (works : List Nat)
  /-- `a.add_neighbours(…)`; a single neighbour is a list of one. -/
  | add (a : Nat) (neighbours : List (Nat × Nat × Nat))
  /-- `a.add_works(…)`. -/
  | addWorks (a : Nat) (works : List Nat)
  /-- `a.neighbours`. -/
  | look (a : Nat)

/-- `neighbours` (landscape_graph.py:66-70). -/
def Node.neighbours (n : Node) : List Nat := n.shown.getD (n.roads.map Edge.finish)

/-- One operation.  The constructor calls `add_neighbours` before it sets `_roads` (landscape_graph.py:55-57), so the first neighbour is an
`AttributeError`. -/
def step (h : Heap) : Op → Option Heap
  | .create id ns works =>
    if ns.getD [] = [] then some { h with nodes := h.nodes ++ [⟨id, [], works, none⟩] } else none
  | .add a ns => if a < h.nodes.length then ns.foldlM (fun h x => h.join a x) h else none
  | .addWorks a ws =>
    if a < h.nodes.length then some { h with nodes := h.nodes.modify a fun n => { n with works := n.works ++ ws } } else none
  | .look a =>
    if a < h.nodes.length then some { h with nodes := h.nodes.modify a fun n => { n with shown := some n.neighbours } } else none

/-- A history. -/
def run (ops : List Op) : Option Heap := ops.foldlM step ⟨[], 0⟩

/-- The value of a key of a dictionary made from a list of keys with their positions (landscape_graph.py:133-138): the last position. -/
def lastIndex {β : Type} [DecidableEq β] (l : List β) (x : β) : Option Nat := ((l.zipIdx.filter fun p => p.1 = x).getLast?).map Prod.snd

/-- The keys of that dictionary. -/
def keysOf {β : Type} [DecidableEq β] (l : List β) : List β := l.foldl (fun ks x => if x ∈ ks then ks else ks ++ [x]) []

/-- The matrix; `none` is infinity. -/
abbrev Matrix := Nat → Nat → Option Nat

/-- `adj_mtrx[i, j] = w` in a matrix of `size` rows: `IndexError` outside. -/
def Matrix.write (size : Nat) (m : Matrix) (i j w : Nat) : Option Matrix :=
  if i < size ∧ j < size then some (Function.update m i (Function.update (m i) j (some w))) else none

/-- `roads` (landscape_graph.py:72-76). -/
def Node.roads? (n : Node) : Option (List Edge) := if n.roads = [] then none else some n.roads

/-- The roads of one node in the matrix (landscape_graph.py:141-143). -/
def fillRow (nodes : List Nat) (size i : Nat) (roads : List Edge) (m : Matrix) : Option Matrix :=
  roads.foldlM (fun m e => (lastIndex nodes e.finish).bind fun j => m.write size i j e.weight) m

/-- `LandGraph` (landscape_graph.py:100-106); `shown`: what `cached_property` remembers for `edges`. -/
structure Graph where
  nodes : List Nat
  adj : Matrix
  nodeInd : Nat → Option Nat
  idInd : Option Nat → Option Nat
  size : Nat
  shown : Option (List Edge)

/-- `_to_adj_matrix` (landscape_graph.py:132-145). -/
def toAdj (h : Heap) (nodes : List Nat) : Option Matrix :=
  (keysOf nodes).foldlM (fun m v => (lastIndex nodes v).bind fun i => (h.nodes[v]?).bind fun n => n.roads?.bind fun rs =>
    fillRow nodes (keysOf nodes).length i rs m) fun _ _ => none

/-- `reinit` (landscape_graph.py:111-116): what `edges` remembers stays. -/
def Graph.reinit (g : Graph) (h : Heap) : Option Graph :=
  (toAdj h g.nodes).map fun m =>
    ⟨g.nodes, m, lastIndex g.nodes, lastIndex (g.nodes.map fun v => (h.nodes[v]?).bind Node.id), (keysOf g.nodes).length, g.shown⟩

/-- `LandGraph(nodes)` (landscape_graph.py:108-109). -/
def Graph.new (h : Heap) (nodes : List Nat) : Option Graph := Graph.reinit ⟨nodes, fun _ _ => none, fun _ => none, fun _ => none, 0, none⟩ h

/-- The inner loop of `edges` (landscape_graph.py:125-128): roads whose id is not there yet. -/
def noteRoads (found : List Edge) (roads : List Edge) : List Edge :=
  roads.foldl (fun found e => if e.id ∈ found.map Edge.id then found else found ++ [e]) found

/-- `edges` (landscape_graph.py:118-130): the value and the graph that remembers it. -/
def Graph.edges (g : Graph) (h : Heap) : Option (List Edge × Graph) :=
  match g.shown with
  | some es => some (es, g)
  | none => (g.nodes.foldlM (fun found v => (h.nodes[v]?).bind fun n => n.roads?.map (noteRoads found)) []).map fun es =>
      (es, { g with shown := some es })

end Sampo.LandNodes
