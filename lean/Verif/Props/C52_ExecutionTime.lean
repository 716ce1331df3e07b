import Verif.Model.Validate
import Verif.Props.C18_RowOrder

/-!
# C52: the execution time of a schedule

`Schedule.execution_time` is the finish of the last row.  For schedules created with their work graph the last row is the
project finish, and its finish is the latest of all.  For schedules created without a graph it is not
(`without_graph_last_row_only`).
-/

namespace Sampo.C52

open Validate

/-- A schedule for a work graph: `work v` is the scheduled work with id `v`; predecessors finish before successors start;
all works lead to `fin`. -/
structure ScheduleOf (parents : Nat → List Nat) (works : List Nat) (fin : Nat) (work : Nat → SWork) : Prop where
  once : works.Nodup
  acyclic : Acyclic fun u v => v ∈ parents u
  closed : ∀ v ∈ works, ∀ p ∈ parents v, p ∈ works
  fin_mem : fin ∈ works
  lead : ∀ v ∈ works, Relation.ReflTransGen (fun p u => u ∈ works ∧ p ∈ parents u) v fin
  forward : ∀ v ∈ works, (work v).start ≤ (work v).finish
  precedence : ∀ v ∈ works, ∀ p ∈ parents v, (work p).finish ≤ (work v).start

variable {parents : Nat → List Nat} {works : List Nat} {fin : Nat} {work : Nat → SWork}

private theorem lead_le (h : ScheduleOf parents works fin work) {v : Nat} (hv : v ∈ works)
    (hl : Relation.ReflTransGen (fun p u => u ∈ works ∧ p ∈ parents u) v fin) :
    (work v).start ≤ (work fin).start ∧ (work v).finish ≤ (work fin).finish := by
  induction hl using Relation.ReflTransGen.head_induction_on with
  | refl => exact ⟨le_refl _, le_refl _⟩
  | head hab _ ih =>
    obtain ⟨h1, h2⟩ := ih hab.1
    have h3 := h.precedence _ hab.1 _ hab.2
    have h4 := h.forward _ hab.1
    have h5 := h.forward _ hv
    omega

/-- The rows of a schedule created with its work graph end with the project finish, and the execution time is its finish,
not earlier than the finish of any work. -/
theorem execution_time_is_latest_finish (h : ScheduleOf parents works fin work) (iter : List Nat → List Nat)
    (hit : ∀ l, (iter l).Perm l) (fuel : Nat) (hf : works.length ≤ fuel) :
    ∃ rows, RowOrder.order parents iter fuel (works.map fun v => ((work v).start, v)) = some rows ∧ rows.Perm works ∧
      executionTime (rows.map work) = some (work fin).finish ∧ ∀ v ∈ works, (work v).finish ≤ (work fin).finish := by
  obtain ⟨rows, h1, h2, h3, h4⟩ := C18.rows_ordered parents h.acyclic iter hit (fun v => (work v).start) works h.once fuel hf
  have hle : ∀ v ∈ works, (work v).start ≤ (work fin).start ∧ (work v).finish ≤ (work fin).finish :=
    fun v hv => lead_le h hv (h.lead v hv)
  refine ⟨rows, h1, h2, ?_, fun v hv => (hle v hv).2⟩
  have hfm : fin ∈ rows := h2.mem_iff.2 h.fin_mem
  obtain ⟨before, after, hrows⟩ := List.append_of_mem hfm
  have hnd : rows.Nodup := h2.nodup_iff.2 h.once
  have hafter : after = [] := by
    rw [List.eq_nil_iff_forall_not_mem]
    intro x hx
    have hpair := (h3.and h4)
    rw [hrows, List.pairwise_append, List.pairwise_cons] at hpair
    have hxw : x ∈ works := h2.mem_iff.1 (by rw [hrows]; simp [hx])
    -- everything from `x` on to `fin` starts when `fin` does and comes after `fin`
    have key : ∀ y, y ∈ works → Relation.ReflTransGen (fun p u => u ∈ works ∧ p ∈ parents u) y fin → y ∈ after → False := by
      intro y hy hl
      induction hl using Relation.ReflTransGen.head_induction_on with
      | refl =>
        intro hya
        rw [hrows, List.nodup_append, List.nodup_cons] at hnd
        exact hnd.2.1.1 hya
      | head hab hbc ih =>
        rename_i a b
        intro hya
        have hfa := (hpair.2.1.1 a hya).1
        have s1 := (lead_le h hy (Relation.ReflTransGen.head hab hbc)).1
        have s2 := (lead_le h hab.1 hbc).1
        have s3 := h.precedence b hab.1 a hab.2
        have s4 := h.forward a hy
        have hab_eq : (work b).start = (work a).start := by omega
        have hbr : b ∈ rows := h2.mem_iff.2 hab.1
        rw [hrows, List.mem_append, List.mem_cons] at hbr
        rcases hbr with hbr | rfl | hbr
        · have := hpair.2.2 b hbr a (List.mem_cons_of_mem _ hya)
          exact this.2 hab_eq hab.2
        · exact (hpair.2.1.1 a hya).2 hab_eq hab.2
        · exact ih hab.1 hbr
    exact key x hxw (h.lead x hxw) hx
  unfold executionTime
  rw [hrows, hafter, List.map_append, List.map_cons, List.map_nil, List.getLast?_append]
  simp only [List.getLast?_singleton, Option.some_or, Option.map_some, Option.some.injEq]
  exact max_eq_right (h.forward fin h.fin_mem)

/-- A concrete schedule: 0 before 1 and 2, both before 3. -/
def demoParents : Nat → List Nat
  | 1 => [0]
  | 2 => [0]
  | 3 => [1, 2]
  | _ => []

def demoWork : Nat → SWork
  | 0 => ⟨0, 0, 0, [], 0, true⟩
  | 1 => ⟨1, 0, 9, [], 0, false⟩
  | 2 => ⟨2, 5, 7, [], 0, false⟩
  | v => ⟨v, 9, 9, [], 0, true⟩

example : ScheduleOf demoParents [3, 2, 1, 0] 3 demoWork where
  once := by decide
  acyclic := by
    have rank : ∀ x y, Relation.TransGen (fun u v => v ∈ demoParents u) x y → y < x := by
      intro x y h
      have one : ∀ u v, v ∈ demoParents u → v < u := by
        intro u v h
        unfold demoParents at h
        split at h <;> simp_all
        omega
      induction h with
      | single h => exact one _ _ h
      | tail _ h ih => exact lt_trans (one _ _ h) ih
    intro x hx
    exact lt_irrefl _ (rank x x hx)
  closed := by decide
  fin_mem := by decide
  lead := by
    have e1 : Relation.ReflTransGen (fun p u => u ∈ [3, 2, 1, 0] ∧ p ∈ demoParents u) 1 3 :=
      Relation.ReflTransGen.single (by decide)
    have e2 : Relation.ReflTransGen (fun p u => u ∈ [3, 2, 1, 0] ∧ p ∈ demoParents u) 2 3 :=
      Relation.ReflTransGen.single (by decide)
    have e0 : Relation.ReflTransGen (fun p u => u ∈ [3, 2, 1, 0] ∧ p ∈ demoParents u) 0 3 :=
      Relation.ReflTransGen.head (by decide) e1
    intro v hv
    simp only [List.mem_cons, List.not_mem_nil, or_false] at hv
    rcases hv with rfl | rfl | rfl | rfl
    · exact Relation.ReflTransGen.refl
    · exact e2
    · exact e1
    · exact e0
  forward := by decide
  precedence := by decide

example : (RowOrder.order demoParents id 4 ([3, 2, 1, 0].map fun v => ((demoWork v).start, v))) = some [0, 1, 2, 3] := by
  decide
example : executionTime ([0, 1, 2, 3].map demoWork) = some 9 := by decide

/-- A schedule created without a graph keeps the order of the works; the execution time is the finish of the last of them,
here 5 although a work lasts until 10. -/
theorem without_graph_last_row_only :
    executionTime [⟨0, 0, 10, [], 0, false⟩, ⟨1, 0, 5, [], 0, false⟩] = some 5 := by decide

end Sampo.C52
