import Mathlib.Data.List.Basic
import Mathlib.Logic.Function.Basic

/-!
# Elimination of cycles in the input (`sampo/userinput/parser/general_build.py:24-146`)

Vertexes (ids of works) are numbers.  Weights are integers or `None`.
-/

namespace Sampo.Cycles

/-- `Graph` (general_build.py:24-26): the keys of the dictionary in their order and the lists of (neighbour, weight).  A
vertex that is not a key has no neighbours. -/
structure Graph where
  keys : List Nat
  adj : Nat → List (Nat × Option Int)

/-- Reading `self.graph[v]` of a `defaultdict` adds the key. -/
def Graph.touch (g : Graph) (v : Nat) : Graph := if v ∈ g.keys then g else ⟨g.keys ++ [v], g.adj⟩

/-- `add_edge` (general_build.py:28-29). -/
def Graph.addEdge (g : Graph) (u v : Nat) (w : Option Int) : Graph :=
  ⟨(g.touch u).keys, Function.update g.adj u (g.adj u ++ [(v, w)])⟩

/-- A new graph with edges (from, to, weight) added one after the other. -/
def build (edges : List (Nat × Nat × Option Int)) : Graph :=
  edges.foldl (fun g e => g.addEdge e.1 e.2.1 e.2.2) ⟨[], fun _ => []⟩

/-- The inner loop of `dfs_cycle` (general_build.py:43-47) with the stack (top first); `none`: `return True`. -/
def push (visited : Nat → Nat) : List (Nat × Option Int) → List Nat → Option (List Nat)
  | [], stack => some stack
  | (n, _) :: ns, stack =>
    if visited n = 0 then push visited ns (n :: stack)
    else if visited n = 1 then none
    else push visited ns stack

/-- `dfs_cycle` (general_build.py:31-48): result, `visited` and the graph afterwards.  `none`: out of fuel.  Every vertex is a
key of `visited`, so that there is no `KeyError`. -/
def dfsCycle : Nat → List Nat → (Nat → Nat) → Graph → Option (Bool × (Nat → Nat) × Graph)
  | _, [], visited, g => some (false, visited, g)
  | 0, _ :: _, _, _ => none
  | fuel + 1, v :: stack, visited, g =>
    if visited v = 1 then dfsCycle fuel stack (Function.update visited v 2) g
    else if visited v = 2 then dfsCycle fuel stack visited g
    else
      match push (Function.update visited v 1) (g.adj v) (v :: stack) with
      | none => some (true, Function.update visited v 1, g.touch v)
      | some stack => dfsCycle fuel stack (Function.update visited v 1) (g.touch v)

/-- The keys of `visited` in their order (general_build.py:51-55): a key stays where it was first added. -/
def Graph.vertexes (g : Graph) : List Nat :=
  (g.keys.flatMap fun k => (g.adj k).map (·.1) ++ [k]).foldl (fun l x => if x ∈ l then l else l ++ [x]) []

/-- The walk along grey vertexes (general_build.py:61-68).  `none`: out of fuel. -/
def walk (visited : Nat → Nat) (g : Graph) : Nat → Nat → List Nat → Option (List Nat)
  | 0, _, _ => none
  | fuel + 1, v, path =>
    if v ∈ path.dropLast then some path
    else
      let next := (((g.adj v).find? fun n => visited n.1 = 1).map (·.1)).getD v
      walk visited g fuel next (path ++ [next])

/-- The loop of `find_cycle` (general_build.py:58-73): the path found (`none`: there is none) and the graph.  Outer `none`:
out of fuel. -/
def findLoop (fuel : Nat) : List Nat → (Nat → Nat) → Graph → Option (Option (List Nat) × Graph)
  | [], _, g => some (none, g)
  | k :: ks, visited, g =>
    if visited k = 0 then
      (dfsCycle fuel [k] visited g).bind fun r =>
        if r.1 then (walk r.2.1 r.2.2 fuel k [k]).map fun path => (some path, r.2.2)
        else findLoop fuel ks r.2.1 r.2.2
    else findLoop fuel ks visited g

/-- `find_cycle` (general_build.py:50-73). -/
def findCycle (fuel : Nat) (g : Graph) : Option (Option (List Nat) × Graph) := findLoop fuel g.vertexes (fun _ => 0) g

/-- The loops of `eliminate_cycle` (general_build.py:75-91) over the edges (u, v) of a cycle: the smallest weight so far and
its edge, `none` in the beginning. -/
def lightest (g : Graph) (cycle : List (Nat × Nat)) : Option (Int × (Nat × Nat)) :=
  cycle.foldl (fun best e => (g.adj e.1).foldl (fun best n =>
    if n.1 = e.2 ∧ (∀ b ∈ best, n.2.getD 1 ≤ b.1) then some (n.2.getD 1, e) else best) best) none

/-- `eliminate_cycle` (general_build.py:75-91).  `none`: no edge was found (`TypeError`). -/
def eliminateCycle (g : Graph) (cycle : List Nat) : Option Graph :=
  (lightest g (cycle.zip cycle.tail)).map fun b =>
    ⟨(g.touch b.2.1).keys, Function.update g.adj b.2.1 ((g.adj b.2.1).filter fun n => n.1 ≠ b.2.2)⟩

/-- `cycle[i:]` for the first occurrence of the last vertex (general_build.py:98-101). -/
def trim (path : List Nat) : List Nat := path.dropWhile fun v => some v ≠ path.getLast?

/-- `eliminate_cycles` (general_build.py:93-113): the list of the cycles and the graph.  The final removal of the weights is left
out.  Outer `none`: out of fuel; inner `none`: an exception. -/
def eliminateCycles : Nat → Graph → Option (Option (List (List Nat) × Graph))
  | 0, _ => none
  | fuel + 1, g =>
    (findCycle (fuel + 1) g).bind fun r =>
      match r.1 with
      | none => some (some ([], r.2))
      | some path =>
        match eliminateCycle r.2 (trim path) with
        | none => some none
        | some g => (eliminateCycles fuel g).map fun res => res.map fun r => (trim path :: r.1, r.2)

/-- One row of the table: id, and (predecessor, data of the link, count) with `none` for the predecessor '-1'.  The lists of a
cell have the same length, as the documentation demands (csv_parser.py:51-52). -/
structure Row (α : Type) where
  id : Nat
  preds : List (Option Nat × α × Option Int)

/-- The edges added by `break_loops_in_input_graph` (general_build.py:124-130). -/
def rowEdges {α : Type} (rows : List (Row α)) : List (Nat × Nat × Option Int) :=
  rows.flatMap fun r => r.preds.filterMap fun p => p.1.map fun pred => (pred, r.id, p.2.2)

/-- `break_loops_in_input_graph` (general_build.py:116-146).  No work has the id '-1'. -/
def breakLoops {α : Type} (fuel : Nat) (rows : List (Row α)) : Option (Option (List (Row α))) :=
  (eliminateCycles fuel (build (rowEdges rows))).map fun res => res.map fun r =>
    rows.map fun row => ⟨row.id, row.preds.filter fun p => match p.1 with
      | none => true
      | some pred => pred ∉ r.2.keys || (r.2.adj pred).any fun n => n.1 = row.id⟩

end Sampo.Cycles
