import Mathlib.Data.List.Forall2

/-!
# Specification of best individuals

The fitness of an individual is a list of numbers, one for each objective; larger is better.
-/

namespace Sampo

/-- `u` is at least as good as `v` in every objective. -/
def AtLeast (u v : List Int) : Prop := List.Forall₂ (fun x y => y ≤ x) u v

/-- `front` is a set of best ones: no member is at least as good as another one. -/
def Incomparable {α : Type*} (fit : α → List Int) (front : List α) : Prop :=
  front.Pairwise fun a b => ¬ AtLeast (fit a) (fit b) ∧ ¬ AtLeast (fit b) (fit a)

/-- Every one of `pool` has someone in `front` that is at least as good. -/
def NoneBetter {α : Type*} (fit : α → List Int) (front pool : List α) : Prop :=
  ∀ a ∈ pool, ∃ h ∈ front, AtLeast (fit h) (fit a)

end Sampo
