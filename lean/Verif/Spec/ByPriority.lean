import Mathlib.Data.List.Pairwise
import Mathlib.Data.List.Basic

/-!
# Specification: orders by priority
-/

namespace Sampo

/-- No work comes after a work with a greater priority number. -/
def ByPriority (prio : Nat → Int) (order : List Nat) : Prop :=
  ∀ before v middle w after, order = before ++ v :: middle ++ w :: after → prio v ≤ prio w

theorem byPriority_iff {prio : Nat → Int} {order : List Nat} :
    ByPriority prio order ↔ order.Pairwise fun v w => prio v ≤ prio w := by
  constructor
  · intro h
    rw [List.pairwise_iff_getElem]
    intro i j hi hj hij
    refine h (order.take i) order[i] ((order.drop (i + 1)).take (j - i - 1)) order[j] (order.drop (j + 1)) ?_
    have h1 : order = order.take i ++ order[i] :: order.drop (i + 1) := by simp
    have h2 : order.drop (i + 1) = (order.drop (i + 1)).take (j - i - 1) ++ order[j] :: order.drop (j + 1) := by
      have h3 := (List.take_append_drop (j - i - 1) (order.drop (i + 1))).symm
      rw [List.drop_drop, show i + 1 + (j - i - 1) = j by omega, List.drop_eq_getElem_cons hj] at h3
      exact h3
    rw [List.append_assoc, List.cons_append, ← h2]
    exact h1
  · rintro h before v middle w after rfl
    rw [List.append_assoc, List.pairwise_append] at h
    obtain ⟨-, h, -⟩ := h
    rw [List.cons_append, List.pairwise_cons] at h
    exact h.1 w (by simp)

end Sampo
