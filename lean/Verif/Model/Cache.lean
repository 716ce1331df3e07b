import Verif.Model.Graph

/-!
# Remembered links of nodes (`sampo/schemas/graph.py`)

`parents`, `children`, `inseparable_parent`, `inseparable_son` and `neighbors` are `cached_property`s: computed at the first read and
then remembered by the node object until the name is removed from its `__dict__`.  `get_inseparable_chain` is a `functools.cache`: one
table for all nodes, in which a node is found by its `__hash__` and `__eq__`, that is, by the id of its work.  Here a number is a node
object, and `key` gives the id of its work.
-/

namespace Sampo.Cache

/-- The remembered values of all nodes. -/
structure Memory where
  parents : Nat → Option (List Nat)
  children : Nat → Option (List Nat)
  insepParent : Nat → Option (Option Nat)
  insepSon : Nat → Option (Option Nat)
  neighbors : Nat → Option (List Nat)
  chain : Nat → Option (Option (List Nat))

/-- Nothing is remembered. -/
def Memory.empty : Memory := ⟨fun _ => none, fun _ => none, fun _ => none, fun _ => none, fun _ => none, fun _ => none⟩

/-- The links and what is remembered of them. -/
structure State where
  graph : Graph
  memory : Memory

/-- `__dict__.pop(name, None)`. -/
def pop {α : Type} (f : Nat → Option α) (v : Nat) : Nat → Option α := fun w => if w = v then none else f w

/-- The first read of a `cached_property`: the value is stored in `__dict__`. -/
def put {α : Type} (f : Nat → Option α) (v : Nat) (x : α) : Nat → Option α := fun w => if w = v then some x else f w

/-- `invalidate_parents_cache` (graph.py:127-132). -/
def Memory.forgetParents (m : Memory) (v : Nat) : Memory :=
  { m with parents := pop m.parents v, insepParent := pop m.insepParent v, insepSon := pop m.insepSon v, chain := fun _ => none }

/-- `invalidate_children_cache` (graph.py:134-139). -/
def Memory.forgetChildren (m : Memory) (v : Nat) : Memory :=
  { m with children := pop m.children v, insepParent := pop m.insepParent v, insepSon := pop m.insepSon v, chain := fun _ => none }

/-- `add_parents` (graph.py:105-125). -/
def State.link (s : State) (v : Nat) (ps : List (Nat × Int × EdgeType)) : State :=
  ⟨s.graph.addParents v ps, (ps.foldl (fun m p => m.forgetChildren p.1) s.memory).forgetParents v⟩

/-- `GraphNode.parents` (graph.py:184-190); `parents_set` (192-198) is a set of it. -/
def State.parents (s : State) (v : Nat) : List Nat × State :=
  match s.memory.parents v with
  | some x => (x, s)
  | none => let x := s.graph.parents v; (x, { s with memory := { s.memory with parents := put s.memory.parents v x } })

/-- `GraphNode.children` (graph.py:200-206); `children_set` (208-214) is a set of it. -/
def State.children (s : State) (v : Nat) : List Nat × State :=
  match s.memory.children v with
  | some x => (x, s)
  | none => let x := s.graph.children v; (x, { s with memory := { s.memory with children := put s.memory.children v x } })

/-- `GraphNode.inseparable_parent` (graph.py:175-182). -/
def State.insepParent (s : State) (v : Nat) : Option Nat × State :=
  match s.memory.insepParent v with
  | some x => (x, s)
  | none => let x := s.graph.insepParent v; (x, { s with memory := { s.memory with insepParent := put s.memory.insepParent v x } })

/-- `GraphNode.inseparable_son` (graph.py:165-173). -/
def State.insepSon (s : State) (v : Nat) : Option Nat × State :=
  match s.memory.insepSon v with
  | some x => (x, s)
  | none => let x := s.graph.insepSon v; (x, { s with memory := { s.memory with insepSon := put s.memory.insepSon v x } })

/-- What `GraphNode.neighbors` computes (graph.py:222). -/
def neighborsOf (g : Graph) (v : Nat) : List Nat := ((g.edgesTo v).filter (·.type = .startStart)).map (·.start)

/-- `GraphNode.neighbors` (graph.py:216-222). -/
def State.neighbors (s : State) (v : Nat) : List Nat × State :=
  match s.memory.neighbors v with
  | some x => (x, s)
  | none => let x := neighborsOf s.graph v; (x, { s with memory := { s.memory with neighbors := put s.memory.neighbors v x } })

/-- `_get_inseparable_children` (graph.py:267-278); `none`: deeper than the fuel (`RecursionError`). -/
def State.sons : Nat → State → Nat → Option (List Nat × State)
  | 0, _, _ => none
  | fuel + 1, s, v =>
    match s.insepSon v with
    | (none, s) => some ([], s)
    | (some w, s) => (State.sons fuel s w).map fun r => (w :: r.1, r.2)

/-- The body of `get_inseparable_chain` (graph.py:253-255). -/
def State.chainBody (fuel : Nat) (s : State) (v : Nat) : Option (Option (List Nat) × State) :=
  match s.insepSon v with
  | (none, s) => some (none, s)
  | (some _, s) =>
    match s.insepParent v with
    | (some _, s) => some (none, s)
    | (none, s) => (State.sons fuel s v).map fun r => (some (v :: r.1), r.2)

/-- `get_inseparable_chain` (graph.py:244-255) with its table. -/
def State.chain (key : Nat → Nat) (fuel : Nat) (s : State) (v : Nat) : Option (Option (List Nat) × State) :=
  match s.memory.chain (key v) with
  | some x => some (x, s)
  | none => (State.chainBody fuel s v).map fun r =>
      (r.1, { r.2 with memory := { r.2.memory with chain := put r.2.memory.chain (key v) r.1 } })

/-- What a program can do with nodes: make one, link, read. -/
inductive Op
  | create (v : Nat) (ps : List (Nat × Int × EdgeType))
  | link (v : Nat) (ps : List (Nat × Int × EdgeType))
  | parents (v : Nat)
  | children (v : Nat)
  | insepParent (v : Nat)
  | insepSon (v : Nat)
  | chain (v : Nat)
  | neighbors (v : Nat)

/-- What it gets. -/
inductive Answer
  | done
  | cycle
  | nodes (l : List Nat)
  | node (v : Option Nat)
  | chain (l : Option (List Nat))
deriving DecidableEq, Repr

/-- One operation.  `create` is `GraphNode.__init__` (graph.py:55-63), with `ValueError('Cycle')` as an answer.  `none`: `RecursionError`. -/
def State.step (key : Nat → Nat) (fuel : Nat) (s : State) : Op → Option (Answer × State)
  | .create v ps =>
    let r := (s.link v ps).children v
    some (if r.1.any fun w => key w = key v then .cycle else .done, r.2)
  | .link v ps => some (.done, s.link v ps)
  | .parents v => let r := s.parents v; some (.nodes r.1, r.2)
  | .children v => let r := s.children v; some (.nodes r.1, r.2)
  | .insepParent v => let r := s.insepParent v; some (.node r.1, r.2)
  | .insepSon v => let r := s.insepSon v; some (.node r.1, r.2)
  | .chain v => (s.chain key fuel v).map fun r => (.chain r.1, r.2)
  | .neighbors v => let r := s.neighbors v; some (.nodes r.1, r.2)

/-- A sequence of operations. -/
def State.run (key : Nat → Nat) (fuel : Nat) : State → List Op → Option (List Answer × State)
  | s, [] => some ([], s)
  | s, op :: ops => (s.step key fuel op).bind fun r => (State.run key fuel r.2 ops).map fun t => (r.1 :: t.1, t.2)

end Sampo.Cache
