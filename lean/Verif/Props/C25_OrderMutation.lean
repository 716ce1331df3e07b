import Verif.Lemmas.GeneticMutate
import Verif.Spec.Order

/-!
# C25: mutation of work orders
-/

namespace Sampo.C25

open Genetic

/-- `mutate_scheduling_order` on a valid order never fails, whatever is drawn.  The result is a permutation of the order, every
work still follows its predecessors, every position keeps its priority, and the first and the last work of every group of
equal priorities stay in place. -/
theorem mutation_keeps_validity (parents children : Nat → List Nat) (hinv : ∀ v c, c ∈ children v ↔ v ∈ parents c)
    (prio : Nat → Int) (positions : Nat → Nat → List Nat) (pick : Nat → Nat → List Nat → Option Nat)
    (hc : ∀ i n, Choice n (positions i n) (pick i)) (order : List Nat) (hne : order ≠ []) (hnd : order.Nodup)
    (hv : OrderRespects (fun v p => p ∈ parents v) order) :
    ∃ c, mutate parents children prio positions pick order = some c ∧ c.Perm order ∧
      OrderRespects (fun v p => p ∈ parents v) c ∧ c.map prio = order.map prio ∧
      ∀ j, GroupEdge prio order j → c[j]? = order[j]? :=
  mutate_spec hinv prio positions pick hc order hne hv hnd

/-- `mutate_scheduling_order_core` on one group. -/
theorem group_mutation (parents children : Nat → List Nat) (hinv : ∀ v c, c ∈ children v ↔ v ∈ parents c)
    (positions : List Nat) (pick : Nat → List Nat → Option Nat) (group : List Nat)
    (hc : Choice group.length positions pick) (hnd : group.Nodup) (hv : OrderRespects (fun v p => p ∈ parents v) group) :
    ∃ c, mutateCore parents children positions pick group = some c ∧ c.Perm group ∧
      OrderRespects (fun v p => p ∈ parents v) c ∧ c.head? = group.head? ∧ c.getLast? = group.getLast? := by
  obtain ⟨c, h1, h2⟩ := mutateCore_spec hinv positions pick group hc hv hnd
  refine ⟨c, h1, h2.perm, h2.valid, ?_, ?_⟩
  · rw [List.head?_eq_getElem?, List.head?_eq_getElem?]; exact h2.first
  · rw [List.getLast?_eq_getElem?, List.getLast?_eq_getElem?, h2.perm.length_eq]; exact h2.last

/-- Finding: a group is mutated when the next priority begins, so the last group is never mutated; with one priority (the default)
the order does not change. -/
theorem one_priority_no_mutation (parents children : Nat → List Nat) (prio : Nat → Int) (positions : Nat → Nat → List Nat)
    (pick : Nat → Nat → List Nat → Option Nat) (order : List Nat) (hne : order ≠ [])
    (h : ∀ a ∈ order, ∀ b ∈ order, prio a = prio b) :
    mutate parents children prio positions pick order = some order := by
  unfold mutate
  obtain ⟨v, xs, rfl⟩ : ∃ v xs, order = v :: xs := by
    cases order with
    | nil => exact absurd rfl hne
    | cons x xs => exact ⟨x, xs, rfl⟩
  obtain ⟨y, hy, hP⟩ := foldlM_range_inv (mutateStep parents children prio positions pick)
    (fun _ s => s = (prio v, 0, v :: xs)) (prio v, 0, v :: xs) (v :: xs).length rfl (by
      rintro k _ hk rfl
      refine ⟨_, ?_, rfl⟩
      unfold mutateStep
      simp only [List.getElem?_eq_getElem hk]
      rw [if_pos (h _ (List.getElem_mem hk) _ (by simp))])
  simp only [List.getElem?_cons_zero]
  rw [hy, hP]; rfl

/-! Hypotheses are satisfiable: a group 0 → 1, 2, 3 → 4 with 1 → 3, then a second group. -/

private def edgesDemo : List (Nat × Nat) := [(0, 1), (0, 2), (1, 3), (2, 4), (3, 4), (4, 5)]

private def parentsDemo (v : Nat) : List Nat := (edgesDemo.filter fun e => e.2 = v).map (·.1)

private def childrenDemo (v : Nat) : List Nat := (edgesDemo.filter fun e => e.1 = v).map (·.2)

example : ∀ v c, c ∈ childrenDemo v ↔ v ∈ parentsDemo c := by
  intro v c
  simp only [childrenDemo, parentsDemo, List.mem_map, List.mem_filter, decide_eq_true_eq, Prod.exists]
  constructor
  · rintro ⟨a, b, ⟨h, rfl⟩, rfl⟩; exact ⟨a, b, ⟨h, rfl⟩, rfl⟩
  · rintro ⟨a, b, ⟨h, rfl⟩, rfl⟩; exact ⟨a, b, ⟨h, rfl⟩, rfl⟩

private def positionsDemo (_ n : Nat) : List Nat := if 4 ≤ n then [2, 1] else []

example : ∀ i n, Choice n (positionsDemo i n) (fun _ l => l.getLast?) := by
  intro i n
  simp only [positionsDemo]
  constructor
  · split <;> decide
  · intro k hk
    split at hk
    · simp only [List.mem_cons, List.not_mem_nil, or_false] at hk; omega
    · simp at hk
  · intro k l hl
    exact ⟨l.getLast hl, List.getLast_mem hl, List.getLast?_eq_some_getLast hl⟩

example : OrderRespects (fun v p => p ∈ parentsDemo v) [0, 1, 2, 3, 4, 5] := by unfold OrderRespects; decide

example : mutate parentsDemo childrenDemo (fun v => if v < 5 then 0 else 1) positionsDemo (fun _ _ l => l.getLast?)
    [0, 1, 2, 3, 4, 5] = some [0, 1, 3, 2, 4, 5] := by decide

end Sampo.C25
