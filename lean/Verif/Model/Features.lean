import Verif.Model.Graph
import Verif.Model.Contractor
import Verif.Model.Time
import Mathlib.Data.List.Dedup
import Mathlib.Data.Rat.Defs
import Mathlib.Logic.Function.Basic

/-!
# Numbers that describe a work graph (sampo/scheduler/selection/metrics.py)

Floating-point numbers are rational numbers here.
-/

namespace Sampo.Features

/-- `one_hot_encode` (metrics.py:11-14) for a non-negative index.  `none` is the `IndexError`. -/
def oneHot (v n : Nat) : Option (List ℚ) :=
  if v < n then some ((List.replicate n 0).set v 1) else none

/-- `one_hot_decode` (metrics.py:17-20).  `none` is Python's `None`. -/
def oneHotIndex : List ℚ → Option Nat
  | [] => none
  | x :: xs => if x = 1 then some 0 else (oneHotIndex xs).map (· + 1)

/-- The double loop over a stack (metrics.py:52-59) without the works that it replaces by 0: a work is replaced if it is a child of an
earlier work that has not been replaced. -/
def thin (g : Graph) (stack : List Nat) : List Nat :=
  stack.foldl (fun kept v => if kept.any fun u => (g.children u).contains v then kept else kept ++ [v]) []

/-- The works put on the next stack (metrics.py:61-68): a set, so each once and in the order `iter` of its iteration. -/
def next (g : Graph) (iter : List Nat → List Nat) (kept : List Nat) : List Nat := iter (kept.flatMap g.children).dedup

/-- The `while` loop of `metric_graph_parallelism_degree` (metrics.py:47-68): the works counted in every round.  `none`: the loop does not
end within the fuel. -/
def waves (g : Graph) (iter : List Nat → List Nat) : Nat → List Nat → Option (List (List Nat))
  | 0, stack => if stack.isEmpty then some [] else none
  | fuel + 1, stack =>
    if stack.isEmpty then some []
    else (waves g iter fuel (next g iter (thin g stack))).map fun rest => thin g stack :: rest

/-- `np.mean` of a list that is not empty. -/
def mean (l : List ℚ) : ℚ := l.sum / l.length

/-- The last lines of `metric_graph_parallelism_degree` (metrics.py:70-73).  `none` is the `ValueError` of `range` with step 0 or an
`IndexError`. -/
def aggregate (batches : Nat) (degrees : List ℚ) : Option (List ℚ) :=
  let step := (degrees.length + batches - 1) / batches
  if step = 0 then none
  else ((List.range ((degrees.length + step - 1) / step)).map (· * step)).foldlM
    (fun a i => if i / step < a.length then some (a.set (i / step) (mean ((degrees.drop i).take step))) else none) (List.replicate batches 0)

/-- `node == 0` for a work (metrics.py:53-63): `GraphNode.__eq__` (schemas/graph.py:68-71) reads the attribute `id`, which numbers do not
have, and raises an `AttributeError`. -/
def equalsZero : Option Bool := none

/-- `metric_graph_parallelism_degree` (metrics.py:41-75), with the answer of `node == 0` for works: the first comparison is with the start.
Outer `none`: out of fuel. -/
def parallelism (answer : Option Bool) (g : Graph) (iter : List Nat → List Nat) (start : Nat) (nodes : List Nat) (fuel : Nat) :
    Option (Option (List ℚ)) :=
  match answer with
  | none => some none
  | some true => some (aggregate 8 [0])
  | some false => (waves g iter fuel [start]).map fun ws => aggregate 8 (ws.map fun w => (w.length : ℚ) / nodes.length)

/-- `metric_average_work_per_activity` (metrics.py:98-99). -/
def averageWork (nodes : List Nat) (volume : Nat → ℚ) : ℚ := (nodes.map volume).sum / nodes.length

/-- `metric_relative_max_children` (metrics.py:102-103).  `none` is the `ValueError` of `max` of nothing. -/
def maxChildren (g : Graph) (nodes : List Nat) : Option ℚ :=
  match ((nodes.map fun v => (g.children v).length).filter fun k => k != 0).max? with
  | none => none
  | some m => some ((m : ℚ) / nodes.length)

/-- `metric_relative_max_parents` (metrics.py:111-112). -/
def maxParents (g : Graph) (nodes : List Nat) : Option ℚ :=
  match ((nodes.map fun v => (g.parents v).length).filter fun k => k != 0).max? with
  | none => none
  | some m => some ((m : ℚ) / nodes.length)

/-- `metric_average_resource_usage` (metrics.py:106-108). -/
def averageUsage (nodes : List Nat) (reqs : Nat → List WorkerReq) : ℚ :=
  (nodes.map fun v => ((reqs v).map fun r => ((r.minCount + r.maxCount : Int) : ℚ) / 2).sum).sum / nodes.length

/-- The volume of a requirement: a `Time`, as declared (schemas/requirements.py:43), or a number, as read from tables. -/
inductive Volume
  | time (t : Int)
  | num (q : ℚ)
deriving DecidableEq

/-- `a + b` for volumes (`Time.__add__`, `Time.__radd__`, schemas/time.py:31-35): a `Time` if one of them is, cut to an integer. -/
def Volume.add : Volume → Volume → Volume
  | .num a, .num b => .num (a + b)
  | .num a, .time b => let s := b + a; .time (mkTime (s.num.tdiv s.den))
  | .time a, .num b => let s := a + b; .time (mkTime (s.num.tdiv s.den))
  | .time a, .time b => .time (mkTime (a + b))

/-- `n / v` for a number `n` (metrics.py:38).  `none` is the `ZeroDivisionError` for the number 0 and the `TypeError` for a `Time`, which
has no `__rtruediv__`. -/
def divided (n : Nat) : Volume → Option ℚ
  | .num q => if q = 0 then none else some (n / q)
  | .time _ => none

/-- The body of the inner loop of `metric_resource_constrainedness` (metrics.py:34-36) on the dictionary as list of entries. -/
def addReq : List (String × Nat × Volume) → String × Volume → List (String × Nat × Volume)
  | [], r => [(r.1, 1, (Volume.num 0).add r.2)]
  | e :: es, r => if e.1 = r.1 then (e.1, e.2.1 + 1, e.2.2.add r.2) :: es else e :: addReq es r

/-- `metric_resource_constrainedness` (metrics.py:23-38).  `none` is an error. -/
def constrainedness (nodes : List Nat) (reqs : Nat → List (String × Volume)) : Option (List ℚ) :=
  ((nodes.flatMap reqs).foldl addReq []).mapM fun e => divided e.2.1 e.2.2

/-- One turn of the loop of `metric_longest_path` (metrics.py:86-89). -/
def pathStep (g : Graph) (v : Nat) (dist : Nat → Nat) : Nat → Nat :=
  (g.children v).foldl (fun d c => Function.update d c (max (d c) (d v + 1))) dist

/-- The loops of `metric_longest_path` (metrics.py:82-91) for an order of the works: `pop` takes the last work first.  Simplified: works
outside the order also have a distance. -/
def pathLoop (g : Graph) (order : List Nat) : Nat := (order.map (order.foldr (pathStep g) fun _ => 0)).foldl max 0

/-- `metric_longest_path` (metrics.py:78-91) raises a `TypeError` before its loop: `scheduler.prioritization(wg, None)` calls
`TopologicalScheduler._topological_sort` (topological/base.py:43-47), which needs four arguments, with two. -/
def longestPath : Option ℚ := none

/-- `encode_graph` (metrics.py:115-123).  Inner `none` is an error. -/
def encode (g : Graph) (iter : List Nat → List Nat) (start : Nat) (nodes : List Nat) (volume : Nat → ℚ) (reqs : Nat → List WorkerReq)
    (fuel : Nat) : Option (Option (List ℚ)) :=
  match maxChildren g nodes, longestPath with
  | some c, some l =>
    (parallelism equalsZero g iter start nodes fuel).map fun p =>
      p.map fun p => [(nodes.length : ℚ), averageWork nodes volume, c, averageUsage nodes reqs, l] ++ p
  | _, _ => some none

end Sampo.Features
