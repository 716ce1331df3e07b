import Verif.Lemmas.Priority

/-!
# C21: priority correction makes priorities consistent and is minimal

`parents` gives the direct predecessors of a work.  The works are visited in any order; all predecessors of a work of the
graph are in the graph (`hcl`).
-/

namespace Sampo.C21

/-- `d` is `v` itself or depends on `v` through a chain of dependencies. -/
def DependsTransitively (parents : Nat → List Nat) (d v : Nat) : Prop :=
  Relation.ReflTransGen (fun x p => p ∈ parents x) d v

/-- On every acyclic graph the correction ends; afterwards every predecessor has a priority number not above its successor's,
and the new priority of each work is the smallest original priority of the work and all the works that depend on it. -/
theorem corrected_priorities (parents : Nat → List Nat) (nodes : List Nat) (hn : nodes.Nodup)
    (hcl : ∀ x ∈ nodes, ∀ y ∈ parents x, y ∈ nodes) (hac : Acyclic fun x p => p ∈ parents x)
    (fuel : Nat) (hf : nodes.length ≤ fuel) (pr : Nat → Int) :
    ∃ pr', Priority.correct parents fuel nodes pr = some pr' ∧
      (∀ v ∈ nodes, ∀ p ∈ parents v, pr' p ≤ pr' v) ∧
      (∀ v, pr' v ≤ pr v) ∧
      (∀ v d, d ∈ nodes → DependsTransitively parents d v → pr' v ≤ pr d) ∧
      (∀ v, ∃ d, DependsTransitively parents d v ∧ pr' v = pr d) := by
  obtain ⟨rank, hlt, hr⟩ := exists_rank hn hcl (fun x _ => hac x)
  obtain ⟨pr', h1, s1, -, f1⟩ := Priority.correct_spec hcl hr (fuel := fuel)
    (fun x hx => lt_of_lt_of_le (hlt x hx) hf) pr nodes pr (fun _ h => h)
    (fun x => ⟨le_refl _, x, Relation.ReflTransGen.refl, rfl⟩)
  refine ⟨pr', h1, f1, fun v => (s1 v).1, ?_, fun v => (s1 v).2⟩
  intro v d hd h
  have : pr' v ≤ pr' d ∧ v ∈ nodes := by
    induction h with
    | refl => exact ⟨le_refl _, hd⟩
    | tail _ hstep ih => exact ⟨le_trans (f1 _ ih.2 _ hstep) ih.1, hcl _ ih.2 _ hstep⟩
  exact le_trans this.1 (s1 d).1

/-- Priorities that are consistent already are not changed. -/
theorem consistent_unchanged (parents : Nat → List Nat) (fuel : Nat) (nodes : List Nat) (pr : Nat → Int)
    (h : ∀ v ∈ nodes, ∀ p ∈ parents v, pr p ≤ pr v) : Priority.correct parents fuel nodes pr = some pr := by
  have inner : ∀ v (ps : List Nat), (∀ p ∈ ps, pr p ≤ pr v) → Priority.correctNode parents fuel v ps pr = some pr := by
    intro v ps
    induction ps with
    | nil => intro _; rfl
    | cons p ps ih =>
      intro hp
      unfold Priority.correctNode
      rw [if_neg (by have := hp p List.mem_cons_self; omega)]
      exact ih fun x hx => hp x (List.mem_cons_of_mem _ hx)
  induction nodes with
  | nil => rfl
  | cons v vs ih =>
    unfold Priority.correct
    rw [inner v (parents v) (h v List.mem_cons_self), Option.bind_some]
    exact ih fun x hx => h x (List.mem_cons_of_mem _ hx)

/-- A diamond 0 → 1, 2 → 3 with priorities 9, 5, 7, 6. -/
def demoParents : Nat → List Nat
  | 1 => [0]
  | 2 => [0]
  | 3 => [1, 2]
  | _ => []

def demoPriority : Nat → Int
  | 0 => 9
  | 1 => 5
  | 2 => 7
  | _ => 6

example : (Priority.correct demoParents 4 [3, 1, 0, 2] demoPriority).map (fun p => [p 0, p 1, p 2, p 3])
    = some [5, 5, 6, 6] := by decide

example : (∀ x ∈ [3, 1, 0, 2], ∀ y ∈ demoParents x, y ∈ [3, 1, 0, 2]) := by decide

example : Acyclic fun x p => p ∈ demoParents x := by
  have rank : ∀ x y, Relation.TransGen (fun x p => p ∈ demoParents x) x y → y < x := by
    intro x y h
    induction h with
    | single h => unfold demoParents at h; split at h <;> simp_all <;> omega
    | tail _ h ih => refine lt_trans ?_ ih; unfold demoParents at h; split at h <;> simp_all <;> omega
  intro x hx
  exact lt_irrefl _ (rank x x hx)

end Sampo.C21
