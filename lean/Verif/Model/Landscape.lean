import Mathlib.Data.List.Basic
import Mathlib.Logic.Function.Basic
import Mathlib.Data.List.Sort

/-!
# Transport networks (`sampo/schemas/landscape_graph.py`, `sampo/schemas/landscape.py`)

Nodes are their indices in `LandGraph.nodes`.  Weights of roads are natural numbers: rounding of floating point numbers is not
modelled.  Bandwidths are not needed for routes and are left out.  Every node has a road, as the constructor of `LandGraph`
demands (`roads` raises `NoAvailableResources` otherwise, landscape_graph.py:71-75).
-/

namespace Sampo.Land

/-- `LandEdge` in the list of roads of its start (landscape_graph.py:11-21). -/
structure Road where
  finish : Nat
  weight : Nat
  id : Nat
deriving DecidableEq, Repr

/-- The lists `_roads` of the nodes, the number of nodes, and the number of ids given so far (the code takes fresh UUIDs). -/
structure Net where
  n : Nat
  roads : Nat → List Road
  ids : Nat

/-- One neighbour of `add_neighbours` (landscape_graph.py:88-98): the road is added at both ends. -/
def Net.connect (g : Net) (a b w : Nat) : Net :=
  let roads := Function.update g.roads a (g.roads a ++ [⟨b, w, g.ids⟩])
  ⟨g.n, Function.update roads b (roads b ++ [⟨a, w, g.ids⟩]), g.ids + 1⟩

/-- A network of `n` nodes with roads (from, to, weight) added one after the other. -/
def Net.build (n : Nat) (links : List (Nat × Nat × Nat)) : Net :=
  links.foldl (fun g l => g.connect l.1 l.2.1 l.2.2) ⟨n, fun _ => [], 0⟩

/-- `adj_mtrx` (`_to_adj_matrix`, landscape_graph.py:140-145): the last road wins; `none`: infinity. -/
def Net.adj (g : Net) (v u : Nat) : Option Nat :=
  (g.roads v).foldl (fun r x => if x.finish = u then some x.weight else r) none

/-- `road_mx` (landscape.py:233-244): the last road wins; `none`: '-1'. -/
def Net.roadMx (g : Net) (v u : Nat) : Option Nat :=
  if v = u then none else (g.roads v).foldl (fun r x => if x.finish = u then some x.id else r) none

/-! ## `construct_route` -/

/-- The smallest pair, as `heapq.heappop` returns it. -/
def minPair : List (Nat × Nat) → Nat × Nat → Nat × Nat
  | [], best => best
  | p :: ps, best => minPair ps (if p.1 < best.1 ∨ (p.1 = best.1 ∧ p.2 < best.2) then p else best)

/-- What `_dijkstra` changes: the distances (`none`: infinity), the row `path_mx[node_ind]` (`none`: -1) and the queue. -/
structure Search where
  dist : Nat → Option Nat
  pred : Nat → Option Nat
  queue : List (Nat × Nat)

/-- The inner loop of `_dijkstra` (landscape.py:154-162) for the roads of node `v`. -/
def relax (avail : Nat → Bool) (v d : Nat) : List Road → Search → Search
  | [], s => s
  | road :: roads, s =>
    if avail road.id = false then relax avail v d roads s
    else if ∀ old ∈ s.dist road.finish, d + road.weight < old then
      relax avail v d roads ⟨Function.update s.dist road.finish (some (d + road.weight)),
        Function.update s.pred road.finish (some v), s.queue ++ [(d + road.weight, road.finish)]⟩
    else relax avail v d roads s

/-- The loop of `_dijkstra` (landscape.py:148-162).  `none`: out of fuel. -/
def dijkstra (g : Net) (avail : Nat → Bool) : Nat → Search → Option Search
  | 0, _ => none
  | fuel + 1, s =>
    match s.queue with
    | [] => some s
    | p :: ps =>
      let top := minPair ps p
      let s := { s with queue := s.queue.erase top }
      if ∃ d ∈ s.dist top.2, d < top.1 then dijkstra g avail fuel s
      else dijkstra g avail fuel (relax avail top.2 top.1 (g.roads top.2) s)

/-- The row `path_mx[v]` before the search (landscape.py:174-182). -/
def initialRow (g : Net) (avail : Nat → Bool) (v u : Nat) : Option Nat :=
  if v = u then some 0
  else if (g.adj v u).isSome ∧ (∃ i ∈ g.roadMx v u, avail i = true) then some v
  else none

/-- The loop over `path_mx[to_ind]` (landscape.py:191-196).  Outer `none`: out of fuel.  Index -1 (the last column) is not
modelled: inner `none`. -/
def follow (row : Nat → Option Nat) (to_ : Nat) : Nat → Nat → List Nat → Option (Option (List Nat))
  | 0, _, _ => none
  | fuel + 1, fr, path =>
    match row fr with
    | none => some none
    | some p => if p = to_ then some (some (path ++ [to_])) else follow row to_ fuel p (path ++ [p])

/-- The roads of a path of nodes (landscape.py:198). -/
def roadsOf (g : Net) (path : List Nat) : List (Option Nat) := (path.zip path.tail).map fun e => g.roadMx e.1 e.2

/-- `construct_route` (landscape.py:165-198); `avail`: the ids of the available roads. -/
def constructRoute (g : Net) (avail : Nat → Bool) (fuel from_ to_ : Nat) : Option (Option (List (Option Nat))) :=
  (dijkstra g avail fuel ⟨Function.update (fun _ => none) to_ (some 0), initialRow g avail to_, [(0, to_)]⟩).bind fun s =>
    match s.pred from_ with
    | none => some (some [])
    | some _ => (follow s.pred to_ fuel from_ [from_]).map fun path => path.map (roadsOf g)

/-! ## `_build_routes`, `get_route`, `get_sorted_holders` -/

/-- `dist_mx` and `path_mx`. -/
structure Table where
  dist : Nat → Nat → Option Nat
  path : Nat → Nat → Option Nat

/-- The tables before the loops (landscape.py:231-246). -/
def Table.init (g : Net) : Table :=
  ⟨g.adj, fun v u => if v = u then some 0 else (g.adj v u).map fun _ => v⟩

/-- The body of the loops (landscape.py:251-255). -/
def Table.step (t : Table) (i u v : Nat) : Table :=
  match t.dist u i, t.dist i v with
  | some a, some b =>
    if a ≠ 0 ∧ b ≠ 0 ∧ (∀ c ∈ t.dist u v, a + b < c) then
      ⟨Function.update t.dist u (Function.update (t.dist u) v (some (a + b))),
        Function.update t.path u (Function.update (t.path u) v (t.path i v))⟩
    else t
  | _, _ => t

/-- `_build_routes` (landscape.py:239-268). -/
def buildRoutes (g : Net) : Table :=
  (List.range g.n).foldl (fun t i => (List.range g.n).foldl (fun t u => (List.range g.n).foldl (fun t v => t.step i u v) t) t)
    (Table.init g)

/-- The loop of `get_route` (landscape.py:136-141): a path of indices that ends with the start; index -1 (`none`) is the last
column.  `none`: out of fuel. -/
def trace (n : Nat) (row : Nat → Option Nat) (from_ : Nat) : Nat → Option Nat → List (Option Nat) → Option (List (Option Nat))
  | 0, _, _ => none
  | fuel + 1, to_, path =>
    let next := row (to_.getD (n - 1))
    if next = some from_ then some (path ++ [some from_])
    else trace n row from_ fuel next (path ++ [next])

/-- `get_route` (landscape.py:127-141): the roads from `from_node` to `to_node`, taken from the matrix with the indices as
given there (`road_mx[path[v - 1]][path[v]]`: the nodes in the direction from the destination). -/
def getRoute (g : Net) (fuel from_ to_ : Nat) : Option (List (Option Nat)) :=
  (trace g.n ((buildRoutes g).path from_) from_ fuel (some to_) [some to_]).map fun path =>
    ((path.zip path.tail).map fun e => g.roadMx (e.1.getD (g.n - 1)) (e.2.getD (g.n - 1))).reverse

/-- `get_sorted_holders` (landscape.py:115-125): the reachable holders and their distances, nearest first. -/
def sortedHolders (g : Net) (holders : List Nat) (node : Nat) : List (Nat × Nat) :=
  (holders.filterMap fun i => ((buildRoutes g).dist node i).map fun d => (d, i)).mergeSort fun a b => a.1 ≤ b.1

end Sampo.Land
