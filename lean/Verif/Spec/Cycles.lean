import Mathlib.Data.List.Basic
import Mathlib.Logic.Relation

/-!
# Specification vocabulary: weighted edges (from, to, weight) and closed walks
-/

namespace Sampo

/-- There is an edge from `u` to `v`. -/
def EdgeTo (edges : List (Nat × Nat × Option Int)) (u v : Nat) : Prop := ∃ w, (u, v, w) ∈ edges

/-- The vertexes are a walk along edges that comes back to its start. -/
def ClosedWalk (edges : List (Nat × Nat × Option Int)) (c : List Nat) : Prop :=
  2 ≤ c.length ∧ c.head? = c.getLast? ∧ ∀ a x y b, c = a ++ x :: y :: b → EdgeTo edges x y

/-- There is an edge from `u` to `v` of a weight (a missing one counts as 1) not above the weight of any edge along a closed walk
through it. -/
def LightestOnCycle (edges : List (Nat × Nat × Option Int)) (u v : Nat) : Prop :=
  ∃ c w, ClosedWalk edges c ∧ (∃ a b, c = a ++ u :: v :: b) ∧ (u, v, w) ∈ edges ∧
    ∀ a x y b w', c = a ++ x :: y :: b → (x, y, w') ∈ edges → w.getD 1 ≤ w'.getD 1

end Sampo
