import Verif.Lemmas.SwapOrder
import Verif.Spec.Order

/-!
# C23: the local optimizer of the work order

`SwapOrderLocalOptimizer` promises not to break topological order.  Its tests fit orders listed from the finish to the start.
Prioritization functions, to which the pipeline applies it, list works from the start to the finish.
-/

namespace Sampo.C23

open SwapOrder

/-- On orders that list every work before its predecessors (from the finish to the start), the result is a permutation, still lists
every work before its predecessors, and is unchanged outside the area. -/
theorem reversed_orders_partial (parents children : Nat → List Nat) (hinv : ∀ v c, c ∈ children v ↔ v ∈ parents c)
    (order : List Nat) (hnd : order.Nodup) (start stop : Nat) (hs : stop ≤ order.length)
    (hv : OrderRespects (fun p v => p ∈ parents v) order) :
    ∃ r, optimize parents children start stop order = some r ∧ r.Perm order ∧
      OrderRespects (fun p v => p ∈ parents v) r ∧ ∀ k, k < start ∨ stop ≤ k → r[k]? = order[k]? :=
  optimize_inv hinv hnd hs hv

/-- On orders that list every work after its predecessors, nothing is changed if every work of the area has a predecessor. -/
theorem forward_inner_areas_partial (parents children : Nat → List Nat) (order : List Nat) (hnd : order.Nodup)
    (start stop : Nat) (hs : stop ≤ order.length) (hv : OrderRespects (fun v p => p ∈ parents v) order)
    (hpar : ∀ k v, start ≤ k → k < stop → order[k]? = some v → ∃ p, p ∈ parents v) :
    optimize parents children start stop order = some order := by
  obtain ⟨p, h⟩ := forward_loop (chi := children) hnd hv hpar (List.range' start (stop - start)).reverse []
    (by
      intro i hi
      rw [List.mem_reverse, List.mem_range'_1] at hi
      omega)
  unfold optimize
  rw [h]; rfl

/-- Not proved because false: on an order from the start to the finish, with an area that has both, the start and the finish of the
project are swapped. -/
theorem forward_start_and_finish_swapped :
    ∃ (parents children : Nat → List Nat) (order r : List Nat), (∀ v c, c ∈ children v ↔ v ∈ parents c) ∧ order.Nodup ∧
      OrderRespects (fun v p => p ∈ parents v) order ∧ optimize parents children 0 3 order = some r ∧
      ¬ OrderRespects (fun v p => p ∈ parents v) r := by
  refine ⟨fun v => if v = 1 then [0] else if v = 2 then [1] else [],
    fun v => if v = 0 then [1] else if v = 1 then [2] else [], [0, 1, 2], [2, 1, 0], ?_, by decide, ?_, by decide, ?_⟩
  · intro v c
    by_cases h0 : v = 0
    · subst h0; by_cases h1 : c = 1
      · subst h1; simp
      · by_cases h2 : c = 2 <;> simp [h1, h2]
    · by_cases h1 : v = 1
      · subst h1; by_cases h1 : c = 1
        · subst h1; simp
        · by_cases h2 : c = 2 <;> simp [h1, h2]
      · by_cases h3 : c = 1
        · subst h3; simp [h0, h1]
        · by_cases h2 : c = 2 <;> simp [h0, h1, h3, h2]
  · unfold OrderRespects; decide
  · unfold OrderRespects; decide

/-- Not proved because false: orders list only the first works of inseparable chains, and precedence through the inner works
of a chain is missed, also in orders from the finish to the start.  Work 2 follows work 0 through the inner work 1; after
optimization it no longer stands before 0. -/
theorem chains_are_missed :
    ∃ (parents children : Nat → List Nat) (order r : List Nat), order.Nodup ∧ order = [4, 3, 2, 0, 5] ∧
      1 ∈ parents 2 ∧ 0 ∈ parents 1 ∧ optimize parents children 0 5 order = some r ∧ r = [4, 0, 2, 3, 5] :=
  ⟨fun v => if v = 4 then [2, 3] else if v = 2 then [1] else if v = 1 then [0] else if v = 3 then [5] else if v = 0 then [5]
      else [],
    fun v => if v = 2 then [4] else if v = 3 then [4] else if v = 1 then [2] else if v = 0 then [1] else if v = 5 then [3, 0]
      else [], [4, 3, 2, 0, 5], [4, 0, 2, 3, 5], by decide, rfl, by decide, by decide, by decide, rfl⟩

/-! Hypotheses are satisfiable, and the optimizer does something: 0 → 1, 2 → 3 listed from the finish. -/

private def edgesDemo : List (Nat × Nat) := [(0, 1), (0, 2), (1, 3), (2, 3)]

private def parentsDemo (v : Nat) : List Nat := (edgesDemo.filter fun e => e.2 = v).map (·.1)

private def childrenDemo (v : Nat) : List Nat := (edgesDemo.filter fun e => e.1 = v).map (·.2)

example : ∀ v c, c ∈ childrenDemo v ↔ v ∈ parentsDemo c := by
  intro v c
  simp only [childrenDemo, parentsDemo, List.mem_map, List.mem_filter, decide_eq_true_eq, Prod.exists]
  constructor
  · rintro ⟨a, b, ⟨h, rfl⟩, rfl⟩; exact ⟨a, b, ⟨h, rfl⟩, rfl⟩
  · rintro ⟨a, b, ⟨h, rfl⟩, rfl⟩; exact ⟨a, b, ⟨h, rfl⟩, rfl⟩

example : OrderRespects (fun p v => p ∈ parentsDemo v) [3, 2, 1, 0] := by unfold OrderRespects; decide
example : optimize parentsDemo childrenDemo 0 4 [3, 2, 1, 0] = some [3, 1, 2, 0] := by decide
example : OrderRespects (fun v p => p ∈ parentsDemo v) [0, 1, 2, 3] := by unfold OrderRespects; decide
example : optimize parentsDemo childrenDemo 1 4 [0, 1, 2, 3] = some [0, 1, 2, 3] := by decide

end Sampo.C23
