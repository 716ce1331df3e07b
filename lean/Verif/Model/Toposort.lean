import Verif.Prelude
import Mathlib.Data.List.Sort
import Mathlib.Data.List.Dedup

/-!
# Topological sorting and the order of schedule rows

Sets and dictionaries keyed by work ids are lists; the order of a list that stands for a set is a parameter wherever the
program iterates over the set and the result depends on it.
-/

namespace Sampo

/-- A dependency dictionary: items with the set of items each of them depends on. -/
abbrev Deps := List (Nat × List Nat)

namespace Deps

/-- Keys of the dictionary. -/
def keys (d : Deps) : List Nat := d.map (·.1)

/-- `{item: set(e for e in dep if e != item) for item, dep in data.items()}` (scheduler/topological/base.py:84). -/
def clean (d : Deps) : Deps := d.map fun e => (e.1, e.2.filter fun x => x ≠ e.1)

/-- `extra_items_in_deps` (base.py:87-89). -/
def extra (d : Deps) : List Nat := ((d.flatMap (·.2)).filter fun x => x ∉ d.keys).dedup

/-- The dictionary after the preparation (base.py:84-96). -/
def prepare (d : Deps) : Deps := d.clean ++ d.clean.extra.map fun x => (x, [])

/-- `set(item for item, dep in data.items() if len(dep) == 0)` (base.py:98). -/
def ready (d : Deps) : List Nat := keys (d.filter fun e => e.2.isEmpty)

/-- `{item: (dep - ordered) for item, dep in data.items() if item not in ordered}` (base.py:102-104). -/
def remove (d : Deps) (ordered : List Nat) : Deps :=
  (d.filter fun e => e.1 ∉ ordered).map fun e => (e.1, e.2.filter fun x => x ∉ ordered)

end Deps

/-- The loop of `toposort` (base.py:97-104): the levels it yields and what is left in `data`.  Each round removes at least
one item, so `fuel = len(data) + 1` is enough (`toposortLoop_rest`). -/
def toposortLoop : Nat → Deps → List (List Nat) × Deps
  | 0, d => ([], d)
  | fuel + 1, d =>
    if d.ready.isEmpty then ([], d)
    else
      let r := toposortLoop fuel (d.remove d.ready)
      (d.ready :: r.1, r.2)

/-- `toposort` (base.py:69-106): the levels; `none` is `CircularDependencyError`.  The function is a generator and yields
levels before it raises; its callers consume it to the end. -/
def toposort (d : Deps) : Option (List (List Nat)) :=
  if d.isEmpty then some []
  else
    let r := toposortLoop (d.prepare.length + 1) d.prepare
    if r.2.isEmpty then some r.1 else none

/-- `toposort_flatten(data, sort=True)` of the `toposort` package, which `toposort` above is a copy of (used in
scheduler/utils/__init__.py:117). -/
def toposortFlatten (d : Deps) : Option (List Nat) :=
  (toposort d).map fun levels => levels.flatMap fun l => l.insertionSort (· ≤ ·)

namespace RowOrder

/-- One pass `for cur_node in cur_class` (sampo/schemas/schedule.py:219-223): works in the order of iteration, the works not
added yet, the result so far. -/
def pass (parents : Nat → List Nat) : List Nat → List Nat × List Nat → List Nat × List Nat
  | [], s => s
  | v :: vs, (notAdded, res) =>
    if (parents v).any fun p => notAdded.contains p then pass parents vs (notAdded, res)
    else pass parents vs (notAdded.erase v, res ++ [v])

/-- `while len(cur_not_added) > 0` (schedule.py:218-224).  `iter` gives the order in which a set is iterated.  `none`: the
loop does not end within the fuel. -/
def classLoop (parents : Nat → List Nat) (iter : List Nat → List Nat) : Nat → List Nat → List Nat → Option (List Nat)
  | 0, notAdded, res => if notAdded.isEmpty then some res else none
  | fuel + 1, notAdded, res =>
    if notAdded.isEmpty then some res
    else
      let r := pass parents (iter notAdded) (notAdded, res)
      classLoop parents iter fuel r.1 r.2

/-- `cur_class.add(node)`. -/
def add (cls : List Nat) (v : Nat) : List Nat := if v ∈ cls then cls else cls ++ [v]

/-- The loop over works sorted by start time and the code after it (schedule.py:208-235). -/
def loop (parents : Nat → List Nat) (iter : List Nat → List Nat) (fuel : Nat) :
    List (Int × Nat) → Int → List Nat → List Nat → Option (List Nat)
  | [], _, cls, res => classLoop parents iter fuel cls res
  | (t, v) :: ws, cur, cls, res =>
    let cur := if cls.isEmpty then t else cur
    if t = cur then loop parents iter fuel ws cur (add cls v) res
    else (classLoop parents iter fuel cls res).bind fun res' => loop parents iter fuel ws t [v] res'

/-- `order_nodes_by_start_time` (schedule.py:193-237): works are pairs (start time, id); `parents` are the parents in the
work graph. -/
def order (parents : Nat → List Nat) (iter : List Nat → List Nat) (fuel : Nat) (works : List (Int × Nat)) :
    Option (List Nat) :=
  loop parents iter fuel (works.insertionSort fun a b => a.1 ≤ b.1) 0 [] []

end RowOrder

end Sampo
