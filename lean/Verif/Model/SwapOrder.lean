import Verif.Prelude

/-!
# Model of `SwapOrderLocalOptimizer` (sampo/scheduler/utils/local_optimization.py)
-/

namespace Sampo.SwapOrder

/-- `node_order`, `node2ind`, `processed` (local_optimization.py:113-120). -/
structure State where
  order : List Nat
  ind : Nat → Option Nat
  processed : List Nat

/-- `{node: start + k for k, node in enumerate(node_order[start:stop])}` (local_optimization.py:114-115). -/
def indexOf (order : List Nat) (start stop : Nat) (v : Nat) : Option Nat :=
  (((order.take stop).drop start).findIdx? (· = v)).map (start + ·)

/-- `is_candidate_accepted` (local_optimization.py:79-90).  `node2ind.get(x, 0)` is `getD 0`; `node2ind[candidate]` exists as
candidates come from the area. -/
def accepted (par chi : Nat → List Nat) (ind : Nat → Option Nat) (processed : List Nat) (node i cand : Nat) : Bool :=
  decide (cand ∉ chi node) && decide (cand ∉ processed) &&
    (chi node).all (fun c => ! decide ((ind cand).getD 0 ≤ (ind c).getD 0)) &&
    (par cand).all fun p => ! decide ((ind p).getD 0 ≤ i)

/-- Body of the loop over the area (local_optimization.py:121-140).  `none` is an exception (`IndexError`). -/
def step (par chi : Nat → List Nat) (start : Nat) (s : State) (i : Nat) : Option State :=
  match s.order[i]? with
  | none => none
  | some node =>
    if node ∈ s.processed then some s
    else
      match ((s.order.take i).drop start).find? (accepted par chi s.ind s.processed node i) with
      | none => some { s with processed := node :: s.processed }
      | some cand =>
        let j := (s.ind cand).getD 0
        match s.order[j]? with
        | none => none
        | some x =>
          some {
            order := (s.order.set i x).set j node
            ind := fun v => if v = node then some j else if v = cand then some i else s.ind v
            processed := node :: cand :: s.processed }

/-- `SwapOrderLocalOptimizer.optimize` (local_optimization.py:100-143) for the area `range(start, stop)`. -/
def optimize (par chi : Nat → List Nat) (start stop : Nat) (order : List Nat) : Option (List Nat) :=
  ((List.range' start (stop - start)).reverse.foldlM (step par chi start) ⟨order, indexOf order start stop, []⟩).map (·.order)

end Sampo.SwapOrder
