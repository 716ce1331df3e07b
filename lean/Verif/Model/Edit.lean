import Verif.Model.Graph
import Mathlib.Logic.Function.Basic

/-!
# Editing of work graphs (`sampo/structurator/prepare_wg_copy.py`, `delete_graph_node.py`, `insert_wu.py`,
`graph_insertion.py`, `light_modifications.py`)

The ids of copies come from a function `ν` of the old ids: random (`uuid_str`), numbers or the old ids themselves.
-/

namespace Sampo

/-- The attributes of `WorkUnit` (schemas/works.py:11-75).  `Reqs` stands for the lists of requirements of all five sorts. -/
structure WorkFields (Reqs : Type) where
  id : String
  name : String
  reqs : Reqs
  group : String
  service : Bool
  volume : Int
  description : String
  priority : Int
  displayName : String

/-- `WorkUnit(...)` in `copy_graph_node` (prepare_wg_copy.py:24-33) with the defaults of the constructor
(schemas/works.py:16-30, 73-75) for what is not passed. -/
def WorkFields.copy {Reqs : Type} (w : WorkFields Reqs) (newId : String) : WorkFields Reqs where
  id := newId
  name := w.name
  reqs := w.reqs
  group := w.group
  service := w.service
  volume := w.volume
  description := ""
  priority := 1
  displayName := w.name

/-- The new id in `copy_graph_node` (prepare_wg_copy.py:18-22): `new_id or uuid_str()` as a string, or the old id.  `ind` is
the number from `prepare_work_graph_copy`, `fresh` the random id. -/
def copyId (changeId : Bool) (ind : Option Nat) (fresh old : String) : String :=
  if changeId then
    match ind with
    | some 0 => fresh
    | some k => toString k
    | none => fresh
  else old

/-- Ids given by `work_graph_ids_simplification` (light_modifications.py:6-17, prepare_wg_copy.py:71-73) to the works of a
list; `fresh` gives random ids.  The parameter `change_id` of the function is not used. -/
def simplifiedIds (offset : Nat) (fresh : Nat → String) (nodes : List String) : List String :=
  nodes.mapIdx fun i old => copyId true (some (offset + i)) (fresh i) old

namespace Graph

/-- `prepare_work_graph_copy` and `restore_parents` (prepare_wg_copy.py:35-77): the edges between copies of the works that are
not excluded. -/
def copy (g : Graph) (nodes excluded : List Nat) (ν : Nat → Nat) : Graph :=
  (nodes.filter fun v => !excluded.contains v).foldl
    (fun g' v => g'.addParents (ν v)
      (((g.edgesTo v).filter fun e => nodes.contains e.start && !excluded.contains e.start).map
        fun e => (ν e.start, e.lag, e.type)))
    empty

/-- `for edge in edges: if ...: edges.remove(edge)` (delete_graph_node.py:40-47): the index goes on over the list that is
changed meanwhile, and the first equal edge is removed.  The fuel is the number of edges. -/
def removePass (m : Edge → Bool) : Nat → Nat → List Edge → List Edge
  | 0, _, l => l
  | fuel + 1, i, l =>
    match l[i]? with
    | none => l
    | some e => removePass m fuel (i + 1) (if m e then l.erase e else l)

/-- The inner loop over the edges of a parent (delete_graph_node.py:39-42). -/
def dropFrom (r : Nat) (g : Graph) (p : Nat) : Graph :=
  ⟨g.edgesTo,
   Function.update g.edgesFrom p (removePass (fun e => e.finish = r) (g.edgesFrom p).length 0 (g.edgesFrom p))⟩

/-- The inner loop over the edges of a child (delete_graph_node.py:44-47). -/
def dropTo (r : Nat) (g : Graph) (c : Nat) : Graph :=
  ⟨Function.update g.edgesTo c (removePass (fun e => e.start = r) (g.edgesTo c).length 0 (g.edgesTo c)),
   g.edgesFrom⟩

/-- `_node_deletion` (delete_graph_node.py:35-52) without the dictionary of nodes.  The lists of parents and children are
those before the deletion. -/
def deleteNode (g : Graph) (r : Nat) : Graph :=
  let ps := g.parents r
  let cs := g.children r
  cs.foldl (fun g c => g.addParents c (ps.map fun p => (p, 0, .finishStart)))
    (cs.foldl (dropTo r) (ps.foldl (dropFrom r) g))

/-- The loop over the inseparable parents (delete_graph_node.py:22-26) with the remaining dictionary of nodes.  `none`: it
does not end within the fuel. -/
def deleteUp : Nat → Graph → List Nat → Option Nat → Option (Graph × List Nat)
  | _, g, nodes, none => some (g, nodes)
  | 0, _, _, some _ => none
  | fuel + 1, g, nodes, some p => deleteUp fuel (g.deleteNode p) (nodes.erase p) (g.insepParent p)

/-- `delete_graph_node` (delete_graph_node.py:5-32) after copying: the linked nodes and the dictionary of nodes.  `none`: out
of fuel; `some none`: `KeyError` for a deleted start or finish. -/
def deleteWork (g : Graph) (fuel start finish : Nat) (nodes : List Nat) (r : Nat) : Option (Option (Graph × List Nat)) :=
  (if (g.insepSon r).isSome && (g.insepParent r).isNone then
    deleteUp fuel g nodes (((g.chainFrom fuel r).getLast?).bind g.insepParent)
  else some (g.deleteNode r, nodes.erase r)).map fun res =>
    if start ∈ res.2 ∧ finish ∈ res.2 then some res else none

/-- `delete_graph_node` (delete_graph_node.py:5-32) of work `r` of the original graph. -/
def deleteFrom (g : Graph) (fuel start finish : Nat) (nodes : List Nat) (ν : Nat → Nat) (r : Nat) :
    Option (Option (Graph × List Nat)) :=
  (g.copy nodes [] ν).deleteWork fuel (ν start) (ν finish) (nodes.map ν) (ν r)

/-- Neighbours given to `insert_work_unit`: plain nodes or tuples. -/
inductive Neighbours
  | plain (l : List Nat)
  | tuples (l : List (Nat × Int × EdgeType))

/-- `_reduce_to_tuple_type` (insert_wu.py:43-48).  `none`: `IndexError` for an empty list. -/
def Neighbours.reduce : Neighbours → Option (List (Nat × Int × EdgeType))
  | plain l => if l.isEmpty then none else some (l.map fun v => (v, -1, .finishStart))
  | tuples l => if l.isEmpty then none else some l

/-- `insert_work_unit` (insert_wu.py:6-33) for a work with id `new`. -/
def insertWork (g : Graph) (nodes : List Nat) (ν : Nat → Nat) (new : Nat) (parents children : Neighbours) : Option Graph :=
  parents.reduce.bind fun ps => children.reduce.bind fun cs =>
    if (∀ p ∈ ps, p.1 ∈ nodes) ∧ ∀ c ∈ cs, c.1 ∈ nodes then
      some (cs.foldl (fun g c => g.addParents (ν c.1) [(new, c.2.1, c.2.2)])
        ((g.copy nodes [] ν).addParents new (ps.map fun p => (ν p.1, p.2.1, p.2.2))))
    else none

/-- Both graphs with one set of nodes, for works with different ids. -/
def union (g h : Graph) (nodes : List Nat) : Graph where
  edgesTo v := if v ∈ nodes then g.edgesTo v else h.edgesTo v
  edgesFrom v := if v ∈ nodes then g.edgesFrom v else h.edgesFrom v

/-- `graph_in_graph_insertion` (graph_insertion.py:5-32): `g` is the master graph with ids `ν`, `h` the slave graph from
`start` to `finish` with ids `μ`.  `none`: `KeyError` if the slave's start is linked to its finish. -/
def insertGraph (g : Graph) (nodes : List Nat) (ν : Nat → Nat) (mStart mFinish : Nat)
    (h : Graph) (hNodes : List Nat) (μ : Nat → Nat) (start finish : Nat) : Option Graph :=
  let inner := hNodes.filter fun v => !([start, finish].contains v)
  if (∀ e ∈ h.edgesFrom start, e.finish ∈ inner) ∧ (∀ e ∈ h.edgesTo finish, e.start ∈ inner) ∧
      mStart ∈ nodes ∧ mFinish ∈ nodes then
    let u := (g.copy nodes [] ν).union (h.copy hNodes [start, finish] μ) (nodes.map ν)
    let u₁ := (h.edgesFrom start).foldl (fun u e => u.addParents (μ e.finish) [(ν mStart, 0, .finishStart)]) u
    some (u₁.addParents (ν mFinish) ((h.edgesTo finish).map fun e => (μ e.start, 0, .finishStart)))
  else none

end Graph

end Sampo
