import Mathlib.Logic.Relation

/-!
# Specification vocabulary: dependencies, cycles, orders
-/

namespace Sampo

/-- In a dictionary of dependencies `x` depends on the other item `y`. -/
def DependsOn (d : List (Nat × List Nat)) (x y : Nat) : Prop := y ≠ x ∧ ∃ deps, (x, deps) ∈ d ∧ y ∈ deps

/-- `x` is mentioned in a dictionary of dependencies, as an item or as a dependency. -/
def Mentioned (d : List (Nat × List Nat)) (x : Nat) : Prop := ∃ e ∈ d, x = e.1 ∨ x ∈ e.2

/-- No item depends on itself through a chain of dependencies. -/
def Acyclic (r : Nat → Nat → Prop) : Prop := ∀ x, ¬ Relation.TransGen r x x

/-- Every item of a level has all its dependencies in earlier levels. -/
def LevelsRespect (r : Nat → Nat → Prop) (levels : List (List Nat)) : Prop :=
  ∀ before level after, levels = before ++ level :: after → ∀ x ∈ level, ∀ y, r x y → ∃ l ∈ before, y ∈ l

/-- In the list every item comes after everything (of this list) it depends on. -/
def OrderRespects (r : Nat → Nat → Prop) (l : List Nat) : Prop := l.Pairwise fun x y => ¬ r x y

/-- The first or the last position of a group of equal priorities. -/
def GroupEdge (prio : Nat → Int) (order : List Nat) (j : Nat) : Prop :=
  j = 0 ∨ j + 1 = order.length ∨ (order.map prio)[j - 1]? ≠ (order.map prio)[j]? ∨
    (order.map prio)[j]? ≠ (order.map prio)[j + 1]?

end Sampo
