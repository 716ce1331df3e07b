import Verif.Model.Graph
import Mathlib.Data.Rat.Floor
import Mathlib.Data.List.Sort

/-!
# Restructuring of work graphs (`sampo/structurator/base.py`)

Volumes, lags and proportions are floats in the program and rationals here.
-/

namespace Sampo.Restructure

/-- Ids of the new nodes (base.py:13-22): `f'{id}_stage_{i}'` for stages, the id of the work for the last stage and for works
that are not split.  Ids of works are assumed not to be of the first form. -/
inductive NewId
  | stage (v i : Nat)
  | last (v : Nat)
deriving DecidableEq, Repr

/-- The work a new node is made from. -/
def NewId.work : NewId → Nat
  | stage v _ => v
  | last v => v

/-- `GraphEdge` (schemas/graph.py:40-47), with any lag. -/
structure OEdge where
  start : Nat
  finish : Nat
  lag : ℚ
  type : EdgeType
deriving DecidableEq, Repr

/-- `GraphEdge` between new nodes. -/
structure NewEdge where
  start : NewId
  finish : NewId
  lag : ℚ
  type : EdgeType
deriving DecidableEq, Repr

/-- The parts of `WorkUnit` that are divided: the volume and the amounts of all requirements (volumes of workers, counts of
equipment, objects and materials, listed one after another). -/
structure Unit_ where
  volume : ℚ
  amounts : List Int
deriving DecidableEq, Repr

/-- The given graph: edges and work units of its nodes. -/
structure OGraph where
  edgesTo : Nat → List OEdge
  edgesFrom : Nat → List OEdge
  wu : Nat → Unit_

/-- The graph being made: `id2new_nodes` in order of insertion, all edges in order of creation, and
`restructuring_edges2new_nodes_id`. -/
structure New where
  nodes : List (NewId × Unit_)
  edges : List NewEdge
  dict : Nat × Nat → Option NewId

/-- Keys of `id2new_nodes`. -/
def New.ids (N : New) : List NewId := N.nodes.map (·.1)

/-- `int(x)` of a float. -/
def trunc (q : ℚ) : Int := if 0 ≤ q then ⌊q⌋ else ⌈q⌉

/-- `get_restructuring_edges` (base.py:344-351). -/
def ofType (edges : List OEdge) (t : EdgeType) (toNode : Bool) : List (OEdge × Bool) :=
  (edges.filter (·.type = t)).map fun e => (e, toNode)

/-- `restructuring_edges` of a node (base.py:365-370). -/
def restructuring (G : OGraph) (opt : Bool) (v : Nat) : List (OEdge × Bool) :=
  ofType (G.edgesFrom v) .startStart false ++ ofType (G.edgesTo v) .finishFinish true ++
    if opt then ofType (G.edgesTo v) .lagFinishStart true ++ ofType (G.edgesFrom v) .lagFinishStart false else []

/-- The accumulated proportion of an edge (base.py:236-243). -/
def proportion (G : OGraph) (opt : Bool) (e : OEdge) (toNode : Bool) : ℚ :=
  (if toNode then 1 else 0) +
    if opt = true ∧ 0 < e.lag ∧ e.lag ≤ (G.wu e.start).volume then
      (if toNode then -1 else 1) * e.lag / (G.wu e.start).volume
    else 0

/-- `proportions_accum` (base.py:236-245): sorted by proportion, equal ones in the given order. -/
def accums (G : OGraph) (opt : Bool) (es : List (OEdge × Bool)) : List (ℚ × OEdge × Bool) :=
  (es.map fun e => (proportion G opt e.1 e.2, e.1, e.2)).insertionSort (fun a b => a.1 ≤ b.1)

/-- Amounts of a stage (base.py:134-152). -/
def stageAmounts (wu : Unit_) (p : ℚ) : List Int := wu.amounts.map fun (a : Int) => trunc (p * a)

/-- Local variables of `split_node_into_stages`: index and id of the current stage, `reqs2amounts_accum`,
`edges_to_match_with_stage_nodes`. -/
structure Split where
  new : New
  i : Nat
  cur : NewId
  total : List Int
  pending : List (OEdge × Bool)

/-- `match_prev_edges_with_stage_nodes_id` (base.py:198-211): edges leaving the node belong to stage `prev`, edges entering it
to the next stage `cur`. -/
def matchEdges (prev cur : NewId) : List (OEdge × Bool) → (Nat × Nat → Option NewId) → (Nat × Nat → Option NewId)
  | [], d => d
  | (e, toNode) :: es, d =>
    matchEdges prev cur es
      (Function.update d (if toNode then (e.finish, e.start) else (e.start, e.finish)) (some (if toNode then cur else prev)))

/-- Creation of the first stage (base.py:252-263). -/
def firstStage (opt : Bool) (wu : Unit_) (v : Nat) (N : New) (a : ℚ) (e : OEdge × Bool) : Split where
  new := { N with nodes := N.nodes ++ [(.stage v 0, ⟨wu.volume * a, stageAmounts wu a⟩)] }
  i := 0
  cur := .stage v 0
  total := stageAmounts wu a
  pending := if opt then [e] else []

/-- Creation of an intermediate stage for the proportion `p` (base.py:280-300). -/
def nextStage (opt : Bool) (wu : Unit_) (v : Nat) (s : Split) (p : ℚ) (e : OEdge × Bool) : Split where
  new :=
    { nodes := s.new.nodes ++ [(.stage v (s.i + 1), ⟨wu.volume * p, stageAmounts wu p⟩)]
      edges := s.new.edges ++ [⟨s.cur, .stage v (s.i + 1), 0, .inseparable⟩]
      dict := if opt then matchEdges s.cur (.stage v (s.i + 1)) s.pending s.new.dict else s.new.dict }
  i := s.i + 1
  cur := .stage v (s.i + 1)
  total := List.zipWith (· + ·) s.total (stageAmounts wu p)
  pending := if opt then [e] else []

/-- The loop making intermediate stages (base.py:268-300), with the previous accumulation; also gives the last one. -/
def midStages (opt : Bool) (wu : Unit_) (v : Nat) : ℚ → List (ℚ × OEdge × Bool) → Split → Split × ℚ
  | prev, [], s => (s, prev)
  | prev, (a, e) :: rest, s =>
    if a = prev then midStages opt wu v a rest (if opt then { s with pending := s.pending ++ [e] } else s)
    else midStages opt wu v a rest (nextStage opt wu v s (a - prev) e)

/-- Creation of the last stage (base.py:305-329): the rest of the amounts. -/
def lastStage (opt : Bool) (wu : Unit_) (v : Nat) (s : Split) (a : ℚ) : New where
  nodes := s.new.nodes ++ [(.last v, ⟨wu.volume * (1 - a), List.zipWith (· - ·) wu.amounts s.total⟩)]
  edges := s.new.edges ++ [⟨s.cur, .last v, 0, .inseparable⟩]
  dict := if opt then matchEdges s.cur (.last v) s.pending s.new.dict else s.new.dict

/-- `split_node_into_stages` (base.py:113-329). -/
def split (G : OGraph) (opt : Bool) (v : Nat) (N : New) : New :=
  match accums G opt (restructuring G opt v) with
  | [] => { N with nodes := N.nodes ++ [(.last v, G.wu v)] }
  | (a, e) :: rest =>
    let r := midStages opt (G.wu v) v a rest (firstStage opt (G.wu v) v N a e)
    lastStage opt (G.wu v) v r.1 r.2

/-- Local variables of `fill_parents_to_new_nodes`: edges added to inner stages at once (`stage_node.add_parents`), edges
collected for the first and for the last stage, and the dictionary. -/
structure Fill where
  extra : List NewEdge
  first : List NewEdge
  last : List NewEdge
  dict : Nat × Nat → Option NewId

/-- `restructuring_edges2new_nodes_id.pop(key)` followed by `id2new_nodes[...]`.  `none`: `KeyError`. -/
def pop (ids : List NewId) (d : Nat × Nat → Option NewId) (k : Nat × Nat) : Option (NewId × (Nat × Nat → Option NewId)) :=
  (d k).bind fun x => if x ∈ ids then some (x, Function.update d k none) else none

/-- `id2new_nodes[x]`.  `none`: `KeyError`. -/
def find (ids : List NewId) (x : NewId) : Option NewId := if x ∈ ids then some x else none

/-- One round of the loop of `fill_parents_to_new_nodes` (base.py:55-105) for an edge to work `v` with first stage `fst`. -/
def fillEdge (ids : List NewId) (opt : Bool) (v : Nat) (fst : NewId) (r : Fill) (e : OEdge) : Option Fill :=
  match e.type, opt with
  | .finishStart, _ =>
    (find ids (.last e.start)).map fun p => { r with first := r.first ++ [⟨p, fst, ⌈e.lag⌉, .finishStart⟩] }
  | .inseparable, _ =>
    (find ids (.last e.start)).map fun p => { r with first := r.first ++ [⟨p, fst, 0, .inseparable⟩] }
  | .startStart, false =>
    (find ids (.stage e.start 0)).map fun p => { r with first := r.first ++ [⟨p, fst, 0, .finishStart⟩] }
  | .finishFinish, false =>
    (find ids (.last e.start)).map fun p => { r with last := r.last ++ [⟨p, .last v, 0, .finishStart⟩] }
  | .lagFinishStart, false =>
    (find ids (.last e.start)).map fun p => { r with first := r.first ++ [⟨p, fst, 0, .finishStart⟩] }
  | .startStart, true =>
    (pop ids r.dict (e.start, e.finish)).map fun p =>
      { r with first := r.first ++ [⟨p.1, fst, 0, .finishStart⟩], dict := p.2 }
  | .finishFinish, true =>
    (pop ids r.dict (e.finish, e.start)).bind fun s => (find ids (.last e.start)).map fun p =>
      { r with extra := r.extra ++ [⟨p, s.1, 0, .finishStart⟩], dict := s.2 }
  | .lagFinishStart, true =>
    (pop ids r.dict (e.start, e.finish)).bind fun q =>
      (pop ids q.2 (e.finish, e.start)).bind fun s => (find ids (.last e.start)).map fun p =>
        { r with first := r.first ++ [⟨q.1, fst, 0, .finishStart⟩], extra := r.extra ++ [⟨p, s.1, 0, .finishStart⟩],
                 dict := s.2 }

/-- The loop of `fill_parents_to_new_nodes` (base.py:55-105). -/
def fillEdges (ids : List NewId) (opt : Bool) (v : Nat) (fst : NewId) : List OEdge → Fill → Option Fill
  | [], r => some r
  | e :: es, r => (fillEdge ids opt v fst r e).bind (fillEdges ids opt v fst es)

/-- Id of the first stage (base.py:43-45). -/
def firstId (ids : List NewId) (v : Nat) : NewId := if .stage v 0 ∈ ids then .stage v 0 else .last v

/-- `fill_parents_to_new_nodes` (base.py:25-110). -/
def fill (G : OGraph) (opt : Bool) (v : Nat) (N : New) : Option New :=
  (fillEdges N.ids opt v (firstId N.ids v) (G.edgesTo v) ⟨[], [], [], N.dict⟩).map fun r =>
    { N with edges := N.edges ++ r.extra ++ r.first ++ r.last, dict := r.dict }

/-- The loop of `graph_restructuring` over the nodes of the graph (base.py:364-374). -/
def restructureFrom (G : OGraph) (opt : Bool) : List Nat → New → Option New
  | [], N => some N
  | v :: vs, N => (fill G opt v (split G opt v N)).bind (restructureFrom G opt vs)

/-- `graph_restructuring` (base.py:332-379) up to the creation of the `WorkGraph`; the correction of priorities is
`Model/Priority.lean`. -/
def restructure (G : OGraph) (opt : Bool) (nodes : List Nat) : Option New :=
  restructureFrom G opt nodes ⟨[], [], fun _ => none⟩

/-- The granular name after a split into `k` stages besides the last one (base.py:187).  The attributes are copied from
`dict(wu.__dict__)`, so the dictionary `model_name` is shared by the given work and all its stages, and every new stage
appends to the name in it. -/
def sharedName (name : String) (k : Nat) : String :=
  (List.range (k + 1)).foldl (fun n i => n ++ "_stage_" ++ toString i) name

end Sampo.Restructure
