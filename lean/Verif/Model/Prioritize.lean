import Verif.Model.Priority
import Mathlib.Algebra.Order.Group.Defs

/-!
# Orders of works: HEFT, LFT, randomized LFT, topological

`par` and `chi` are the maps of parent and child ids returned by the collapse of inseparable chains (C22).
-/

namespace Sampo

namespace Heft

variable {α : Type} [AddCommGroup α] [LinearOrder α]

/-- State of the inner loop of `ford_bellman`: `path_weights`, `cur_finish`, `cur_finish_weight`, `changed`.  Weights are
elements of any ordered group (floats in the program). -/
structure FB (α : Type) where
  pw : Nat → α
  cur : Nat
  weight : α
  changed : Bool

/-- Assignment to a dictionary. -/
def set (f : Nat → α) (k : Nat) (x : α) : Nat → α := fun v => if v = k then x else f v

/-- Body of the inner loop (scheduler/utils/critical_path.py:34-44) for an edge (finish, start, weight). -/
def relax (s : FB α) (e : Nat × Nat × α) : FB α :=
  let s := if s.cur ≠ e.1 then { s with pw := set s.pw s.cur s.weight, cur := e.1, weight := set s.pw s.cur s.weight e.1 } else s
  let new := s.pw e.2.1 + e.2.2
  if new < s.weight then { s with weight := new, changed := true } else s

/-- The outer loop (critical_path.py:30-52) for `rounds` more rounds; `first` is `edges[0][0]`. -/
def rounds (edges : List (Nat × Nat × α)) (first : Nat) : Nat → (Nat → α) → (Nat → α)
  | 0, pw => pw
  | n + 1, pw =>
    let s := edges.foldl relax ⟨pw, first, pw first, false⟩
    if s.changed then rounds edges first n (set s.pw s.cur s.weight) else s.pw

/-- `edges` (critical_path.py:18-21); the sorting of edges is by finish first, then start. -/
def edges (nodes : List Nat) (weights : Nat → α) (par : Nat → List Nat) : List (Nat × Nat × α) :=
  (nodes.flatMap fun s => ((par s).filter fun f => f ∈ nodes).map fun f => (f, s, weights f)).insertionSort
    fun a b => a.1 < b.1 ∨ (a.1 = b.1 ∧ a.2.1 ≤ b.2.1)

/-- `ford_bellman` (critical_path.py:10-54). -/
def fordBellman (nodes : List Nat) (weights : Nat → α) (par : Nat → List Nat) : Nat → α :=
  match edges nodes weights par with
  | [] => fun _ => 0
  | e :: es => rounds (e :: es) e.1 nodes.length fun _ => 0

/-- `prioritization_nodes` (heft/prioritization.py:10-28); `cost` is `work_priority` of a node. -/
def prioritizeNodes (cost : Nat → α) (par : Nat → List Nat) (nodes : List Nat) : List Nat :=
  if nodes.length = 1 then nodes
  else
    let pw := fordBellman nodes (fun v => - cost v) par
    nodes.insertionSort fun u v => pw u ≤ pw v

/-- `prioritization` (heft/prioritization.py:31-47). -/
def prioritize (cost : Nat → α) (prio : Nat → Int) (par : Nat → List Nat) (heads : List Nat) : List Nat :=
  (Priority.groups prio heads).flatMap (prioritizeNodes cost par)

end Heft

namespace LFT

/-- `min(suc_lst, default=0)`. -/
def minDefault : List Int → Int
  | [] => 0
  | x :: xs => xs.foldl min x

/-- `map_lft_lst` (lft/prioritization.py:11-23): pairs (latest finish, latest start) of the works, from the last one back;
`total` is `project_max_duration`. -/
def latest (chi : Nat → List Nat) (dur : Nat → Int) (total : Int) : List Nat → List (Nat × Int × Int)
  | [] => []
  | [v] => [(v, total, total - dur v)]
  | v :: w :: vs =>
    let m := latest chi dur total (w :: vs)
    let lft := minDefault ((chi v).filterMap fun c => (m.lookup c).map (·.2))
    (v, lft, lft - dur v) :: m

/-- `node_id2lft[v]`. -/
def lft (chi : Nat → List Nat) (dur : Nat → Int) (heads : List Nat) (v : Nat) : Int :=
  (((latest chi dur ((heads.map dur).sum) heads).lookup v).map (·.1)).getD 0

/-- `lft_prioritization` with `lft_prioritization_core` (lft/prioritization.py:26-65). -/
def prioritize (dur : Nat → Int) (prio : Nat → Int) (chi : Nat → List Nat) (heads : List Nat) : List Nat :=
  (Priority.groups prio heads).flatMap fun g => g.insertionSort fun u v => lft chi dur heads u ≤ lft chi dur heads v

/-- `candidates.remove(selected_id); candidates.update(children)` (lft/prioritization.py:103-104). -/
def nextCandidates (chi : Nat → List Nat) (candidates : List Nat) (sel : Nat) : List Nat :=
  let rest := candidates.erase sel
  rest ++ (chi sel).dedup.filter fun c => c ∉ rest

/-- Candidates that may be selected: all parents selected, then only those of the smallest group
(lft/prioritization.py:89-91).  `none`: `min` of an empty sequence raises `ValueError`. -/
def eligible (par : Nat → List Nat) (prio : Nat → Int) (candidates selected : List Nat) : Option (List Nat) :=
  match candidates.filter fun v => (par v).all fun p => selected.contains p with
  | [] => none
  | v :: vs => some ((v :: vs).filter fun u => prio u = (vs.map prio).foldl min (prio v))

/-- The `while candidates` loop (lft/prioritization.py:88-104).  `pick k` is the random choice of round `k`: whatever the
weights, `rand.choices` returns one of the eligible works.  `order` holds the selected works.  Groups are compared by their
priority instead of their index in the sorted list of priorities.  Outer `none`: not finished within the fuel; inner
`none`: an exception. -/
def randomLoop (par chi : Nat → List Nat) (prio : Nat → Int) (pick : Nat → Nat) :
    Nat → List Nat → List Nat → Option (Option (List Nat))
  | 0, candidates, order => if candidates.isEmpty then some (some order) else none
  | fuel + 1, candidates, order =>
    if candidates.isEmpty then some (some order)
    else
      match eligible par prio candidates order with
      | none => some none
      | some el =>
        match el[pick fuel % el.length]? with
        | none => some none
        | some sel => randomLoop par chi prio pick fuel (nextCandidates chi candidates sel) (order ++ [sel])

/-- `lft_prioritization` with `lft_randomized_prioritization_core` (lft/prioritization.py:68-108); `.index` of a work that
was not selected raises `ValueError`. -/
def prioritizeRandom (par chi : Nat → List Nat) (prio : Nat → Int) (pick : Nat → Nat) (fuel : Nat) (heads : List Nat) :
    Option (Option (List Nat)) :=
  match heads with
  | [] => some none
  | h :: hs =>
    (randomLoop par chi prio pick fuel [h] []).map fun r => r.bind fun order =>
      if (h :: hs).all fun v => order.contains v then
        some ((h :: hs).insertionSort fun u v => order.idxOf u ≤ order.idxOf v)
      else none

end LFT

namespace Topological

/-- `TopologicalScheduler._topological_sort` (topological/base.py:42-66); `shuffle` is `_shuffle`, the order of the nodes of
one level (the order of a set, or random, 32-39 and 128-138).  `none` is `CircularDependencyError`. -/
def prioritize (prio : Nat → Int) (par : Nat → List Nat) (shuffle : List Nat → List Nat) (heads : List Nat) :
    Option (List Nat) :=
  ((Priority.groups prio heads).mapM fun g =>
    (toposort (g.map fun v => (v, (par v).filter fun p => p ∈ g))).map fun levels => levels.flatMap shuffle).map
    List.flatten

end Topological

end Sampo
