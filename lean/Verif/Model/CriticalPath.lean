import Verif.Model.Heads
import Verif.Model.Prioritize
import Verif.Model.Time
import Mathlib.Algebra.Order.Ring.Rat

/-!
# Critical paths (`sampo/scheduler/utils/critical_path.py`, `ScheduledProject.critical_path`)
-/

namespace Sampo.CriticalPath

variable {α : Type} [AddCommGroup α] [LinearOrder α]

/-- `min(nodes, key=...)`: the first node with the smallest key; `none`: `ValueError`. -/
def argmin (key : Nat → α) : List Nat → Option Nat
  | [] => none
  | v :: vs => some (vs.foldl (fun best x => if key x < key best then x else best) v)

/-- The loop of `_critical_path` (critical_path.py:96-102) from a node on; `more` says whether a node has children, `chi` are the
children of a chain.  Outer `none`: no end within the fuel; inner `none`: an exception. -/
def loop (key : Nat → α) (chi : Nat → List Nat) (more : Nat → Bool) : Nat → Nat → Option (Option (List Nat))
  | 0, _ => none
  | fuel + 1, v =>
    if more v then
      match argmin key (chi v) with
      | none => some none
      | some c => (loop key chi more fuel c).map fun rest => rest.map fun l => v :: l
    else some (some [])

/-- `_critical_path` (critical_path.py:84-104); `cost` is the negated weight of a node. -/
def path (nodes : List Nat) (cost : Nat → α) (par chi : Nat → List Nat) (more : Nat → Bool) : Option (Option (List Nat)) :=
  let cum := Heft.fordBellman nodes (fun v => - cost v) par
  match argmin cum nodes with
  | none => some none
  | some start => loop cum chi more (nodes.length + 1) start

/-- `calculate_scheduled_time_cascade` (time_computaion.py:35-55); `dur` is the duration of a work in the schedule. -/
def cascade (g : Graph) (nodes : List Nat) (dur : Nat → Int) (v : Nat) : Int :=
  if (g.insepParent v).isSome then mkTime 0
  else (g.chainWithSelf nodes.length v).foldl (fun t x => tAdd t (dur x)) (mkTime 0)

/-- `work_priority` with the scheduled time (time_computaion.py:72-96), which is the same for both teams. -/
def cost (g : Graph) (nodes : List Nat) (dur : Nat → Int) (v : Nat) : ℚ :=
  (tAdd (cascade g nodes dur v) (cascade g nodes dur v) : ℚ) / 2 + 1

/-- `critical_path_schedule` (critical_path.py:63-66); every work of the graph is in the schedule. -/
def schedulePath (g : Graph) (nodes : List Nat) (dur : Nat → Int) : Option (Option (List Nat)) :=
  match Heads.collapse g nodes with
  | none => some none
  | some (order, par, chi) => path order (cost g nodes dur) (fun v => (par.lookup v).getD []) (fun v => (chi.lookup v).getD [])
      fun v => !(g.children v).isEmpty

/-- The end of the loop `while node.is_inseparable_parent(): node = node.inseparable_son` (critical_path.py:77-78). -/
def lastOf (g : Graph) (fuel : Nat) (v : Nat) : Nat := (g.chainFrom fuel v).getLastD v

/-- The loop of `critical_path_schedule_lag_optimized` (critical_path.py:76-80); `known` are the works of the original graph.
`none`: `KeyError`. -/
def report (g : Graph) (fuel : Nat) (known : List Nat) : List Nat → List Nat → Option (List Nat)
  | [], acc => some acc
  | v :: vs, acc =>
    if lastOf g fuel v ∈ known then report g fuel known vs (if lastOf g fuel v ∈ acc then acc else acc ++ [lastOf g fuel v])
    else none

/-- `ScheduledProject.critical_path` (schemas/project.py:40-44, critical_path.py:70-81). -/
def projectPath (g : Graph) (nodes : List Nat) (dur : Nat → Int) (known : List Nat) : Option (Option (List Nat)) :=
  (schedulePath g nodes dur).map fun r => r.bind fun cp => report g nodes.length known cp []

end Sampo.CriticalPath
