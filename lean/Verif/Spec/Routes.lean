import Mathlib.Data.List.Basic

/-!
# Specification vocabulary: roads (from, to, weight), named by their position in a list, and routes along them
-/

namespace Sampo

/-- Road number `i` joins `a` and `b`, in either direction. -/
def RoadJoins (links : List (Nat × Nat × Nat)) (i a b w : Nat) : Prop :=
  links[i]? = some (a, b, w) ∨ links[i]? = some (b, a, w)

/-- A route from a node to a node along usable roads: the numbers of the roads and the total weight. -/
inductive Route (links : List (Nat × Nat × Nat)) (usable : Nat → Prop) : Nat → Nat → List Nat → Nat → Prop
  | nil (a : Nat) : Route links usable a a [] 0
  | cons {a b c i w : Nat} {is : List Nat} {len : Nat} : RoadJoins links i a b w → usable i →
      Route links usable b c is len → Route links usable a c (i :: is) (w + len)

/-- The route is one of the shortest. -/
def ShortestRoute (links : List (Nat × Nat × Nat)) (usable : Nat → Prop) (a b : Nat) (is : List Nat) (len : Nat) : Prop :=
  Route links usable a b is len ∧ ∀ is' len', Route links usable a b is' len' → len ≤ len'

/-- Two nodes are joined by at most one road. -/
def SingleRoads (links : List (Nat × Nat × Nat)) : Prop :=
  ∀ i j a b w w', RoadJoins links i a b w → RoadJoins links j a b w' → i = j

end Sampo
