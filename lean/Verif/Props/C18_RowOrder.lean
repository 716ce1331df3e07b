import Verif.Lemmas.RowOrder

/-!
# C18: schedule rows are ordered by start time and topologically

`iter` is the order in which Python iterates a set; the theorem holds for every such order.  `time` is the start time of
each work.
-/

namespace Sampo.C18

/-- For an acyclic graph the ordering ends, and its result has every work exactly once, by non-decreasing start time, and
no work before a predecessor with the same start time. -/
theorem rows_ordered (parents : Nat → List Nat) (hac : Acyclic fun u v => v ∈ parents u)
    (iter : List Nat → List Nat) (hit : ∀ l, (iter l).Perm l) (time : Nat → Int) (works : List Nat)
    (hw : works.Nodup) (fuel : Nat) (hf : works.length ≤ fuel) :
    ∃ rows, RowOrder.order parents iter fuel (works.map fun v => (time v, v)) = some rows ∧
      rows.Perm works ∧ (rows.Pairwise fun u v => time u ≤ time v) ∧
      rows.Pairwise fun u v => time u = time v → v ∉ parents u := by
  have hsort : ((works.map fun v => (time v, v)).insertionSort fun a b => a.1 ≤ b.1)
      = (works.insertionSort fun u v => time u ≤ time v).map fun v => (time v, v) :=
    (List.map_insertionSort (r := fun u v => time u ≤ time v) (s := fun a b : Int × Nat => a.1 ≤ b.1)
      (fun v => (time v, v)) works (fun _ _ _ _ => Iff.rfl)).symm
  have hp : (works.insertionSort fun u v => time u ≤ time v).Perm works := List.perm_insertionSort _ _
  have : Std.Total (fun u v : Nat => time u ≤ time v) := ⟨fun u v => le_total _ _⟩
  have : IsTrans Nat (fun u v : Nat => time u ≤ time v) := ⟨fun _ _ _ h h' => le_trans h h'⟩
  have hs := List.pairwise_insertionSort (fun u v : Nat => time u ≤ time v) works
  obtain ⟨tail, h1, h2, h3⟩ := RowOrder.loop_spec (parents := parents) hit hac time fuel
    (works.insertionSort fun u v => time u ≤ time v) 0 [] []
    (by rw [List.nil_append]; exact hp.nodup_iff.2 hw) (by rw [hp.length_eq]; simpa using hf)
    (by simp) (by simp) hs
  refine ⟨tail, ?_, ?_, h3.imp fun h => h.1, h3.imp fun h => h.2⟩
  · unfold RowOrder.order
    rw [hsort, h1, List.nil_append]
  · rw [List.nil_append] at h2
    exact h2.trans hp

/-- If no predecessor starts later than its successor the rows are a topological order. -/
theorem rows_topological (parents : Nat → List Nat) (hac : Acyclic fun u v => v ∈ parents u)
    (iter : List Nat → List Nat) (hit : ∀ l, (iter l).Perm l) (time : Nat → Int) (works : List Nat)
    (hw : works.Nodup) (htime : ∀ u ∈ works, ∀ p ∈ parents u, time p ≤ time u) (fuel : Nat)
    (hf : works.length ≤ fuel) :
    ∃ rows, RowOrder.order parents iter fuel (works.map fun v => (time v, v)) = some rows ∧
      rows.Perm works ∧ OrderRespects (fun u v => v ∈ parents u) rows := by
  obtain ⟨rows, h1, h2, h3, h4⟩ := rows_ordered parents hac iter hit time works hw fuel hf
  refine ⟨rows, h1, h2, ?_⟩
  have hb := h3.and h4
  refine List.Pairwise.imp_of_mem ?_ hb
  rintro u v hu hv ⟨ha, hb⟩ hpar
  exact hb (le_antisymm ha (htime u (h2.mem_iff.1 hu) v hpar)) hpar

/-- Works 3 → 1 → 2 start at the same moment and 0 later; the set of works is iterated in the given and in the opposite
order. -/
def demoParents : Nat → List Nat
  | 1 => [3]
  | 2 => [1]
  | 0 => [2]
  | _ => []

example : RowOrder.order demoParents id 4 [(7, 0), (5, 2), (5, 1), (5, 3)] = some [3, 1, 2, 0] := by decide
example : RowOrder.order demoParents List.reverse 4 [(7, 0), (5, 2), (5, 1), (5, 3)] = some [3, 1, 2, 0] := by decide

/-- The example graph is acyclic. -/
example : Acyclic fun u v => v ∈ demoParents u := by
  have rank : ∀ x y, Relation.TransGen (fun u v => v ∈ demoParents u) x y →
      (match x with | 3 => 0 | 1 => 1 | 2 => 2 | _ => 3) > (match y with | 3 => 0 | 1 => 1 | 2 => 2 | _ => (3 : Nat)) := by
    intro x y h
    induction h with
    | single h => unfold demoParents at h; split at h <;> simp_all
    | tail _ h ih => refine lt_trans ?_ ih; unfold demoParents at h; split at h <;> simp_all
  intro x hx
  exact lt_irrefl _ (rank x x hx)

end Sampo.C18
