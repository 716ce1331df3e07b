import Verif.Model.Toposort

/-!
# Correction of priorities (`sampo/utilities/priority.py`)
-/

namespace Sampo.Priority

/-- `update_priority` (priority.py:5-14).  `visited` is filled but never read and is dropped.  `none`: the recursion is
deeper than the fuel. -/
def update (parents : Nat → List Nat) (value : Int) : Nat → Nat → (Nat → Int) → Option (Nat → Int)
  | 0, _, _ => none
  | fuel + 1, v, pr =>
    (parents v).foldlM (fun pr p => update parents value fuel p pr) fun x => if x = v then min (pr v) value else pr x

/-- The inner loop of `check_and_correct_priorities` (priority.py:22-28). -/
def correctNode (parents : Nat → List Nat) (fuel : Nat) (v : Nat) : List Nat → (Nat → Int) → Option (Nat → Int)
  | [], pr => some pr
  | p :: ps, pr =>
    if pr v < pr p then (update parents (pr v) fuel p pr).bind (correctNode parents fuel v ps)
    else correctNode parents fuel v ps pr

/-- `check_and_correct_priorities` (priority.py:17-28). -/
def correct (parents : Nat → List Nat) (fuel : Nat) : List Nat → (Nat → Int) → Option (Nat → Int)
  | [], pr => some pr
  | v :: vs, pr => (correctNode parents fuel v (parents v) pr).bind (correct parents fuel vs)

/-- `extract_priority_groups_from_nodes` with the groups sorted by priority (priority.py:31-35, heft/prioritization.py:41-44,
lft/prioritization.py:43-44, topological/base.py:50-54). -/
def groups (prio : Nat → Int) (nodes : List Nat) : List (List Nat) :=
  ((nodes.map prio).dedup.insertionSort (· ≤ ·)).map fun p => nodes.filter fun v => prio v = p

end Sampo.Priority
