import Verif.Model.Merge

/-! # Specification: stages of works -/

namespace Sampo.Merge

/-- `x` is the id of a stage of the work with id `b`: `b` itself (unsplit works and last stages) or `b`, the separator and more. -/
def Stage (b x : Str) : Prop := x = b ∨ b ++ sep <+: x

instance (b x : Str) : Decidable (Stage b x) := by unfold Stage; infer_instance

/-- In `b` followed by the separator the separator is only at the end. -/
def Clean (b : Str) : Prop := ∀ k < b.length, ¬ sep <+: (b ++ sep).drop k

instance (b : Str) : Decidable (Clean b) := by unfold Clean; infer_instance

/-- All ids are ids of stages of works with clean ids. -/
def Proper (works : List Work) : Prop := ∀ w ∈ works, ∃ b, Clean b ∧ Stage b w.id

/-- What is known of sorting by the first component. -/
def Sorts (sort : List (Int × Row) → List (Int × Row)) : Prop :=
  ∀ l, (sort l).Perm l ∧ (sort l).Pairwise fun a b => a.1 ≤ b.1

/-- What is known of the iteration over a set. -/
def Lists (listing : List Str → List Str) : Prop := ∀ l, (listing l).Perm l

end Sampo.Merge
