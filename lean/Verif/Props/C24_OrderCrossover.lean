import Verif.Lemmas.GeneticOrder
import Verif.Spec.Order

/-!
# C24: crossover of work orders

Two orders of the same works, both listing lower priorities first, are crossed over at random points.  Both children are
orders of the same works, and whatever pairwise rule both parents respect, both children respect.
-/

namespace Sampo.C24

open Genetic

/-- `mate_scheduling_order` never fails on two orders of the same works sorted by priority; the children are permutations of the
works. Every pairwise rule `R x y` ("`x` may stand before `y`") that holds throughout both parents holds throughout both
children. -/
theorem mating_keeps_orders (prio : Nat → Int) (draws : Nat → (Nat × Nat) × (Nat × Nat)) (hd : Draws draws)
    (works o1 o2 : List Nat) (hne : works ≠ []) (hnd : works.Nodup) (hp1 : o1.Perm works) (hp2 : o2.Perm works)
    (h1 : o1.Pairwise fun a b => prio a ≤ prio b) (h2 : o2.Pairwise fun a b => prio a ≤ prio b) :
    ∃ c1 c2, mate prio draws o1 o2 = some (c1, c2) ∧ c1.Perm works ∧ c2.Perm works ∧
      ∀ R : Nat → Nat → Prop, o1.Pairwise R → o2.Pairwise R → c1.Pairwise R ∧ c2.Pairwise R := by
  have hne' : o1 ≠ [] := by
    rintro rfl
    exact hne (List.nil_perm.1 hp1)
  obtain ⟨c1, c2, h3, h4, h5, h6⟩ := mate_spec prio draws hd o1 o2 hne' (hp2.trans hp1.symm) (hp1.nodup_iff.2 hnd) h1 h2
  exact ⟨c1, c2, h3, h4.trans hp1, h5.trans hp1, h6⟩

/-- Hence valid orders stay valid: works after their predecessors, lower priorities first. -/
theorem mating_keeps_validity (prio : Nat → Int) (draws : Nat → (Nat × Nat) × (Nat × Nat)) (hd : Draws draws)
    (works o1 o2 : List Nat) (hne : works ≠ []) (hnd : works.Nodup) (hp1 : o1.Perm works) (hp2 : o2.Perm works)
    (h1 : o1.Pairwise fun a b => prio a ≤ prio b) (h2 : o2.Pairwise fun a b => prio a ≤ prio b)
    (parents : Nat → List Nat) (t1 : OrderRespects (fun v p => p ∈ parents v) o1)
    (t2 : OrderRespects (fun v p => p ∈ parents v) o2) :
    ∃ c1 c2, mate prio draws o1 o2 = some (c1, c2) ∧
      (c1.Perm works ∧ OrderRespects (fun v p => p ∈ parents v) c1 ∧ c1.Pairwise fun a b => prio a ≤ prio b) ∧
      (c2.Perm works ∧ OrderRespects (fun v p => p ∈ parents v) c2 ∧ c2.Pairwise fun a b => prio a ≤ prio b) := by
  obtain ⟨c1, c2, h3, h4, h5, h6⟩ := mating_keeps_orders prio draws hd works o1 o2 hne hnd hp1 hp2 h1 h2
  exact ⟨c1, c2, h3, ⟨h4, (h6 _ t1 t2).1, (h6 _ h1 h2).1⟩, ⟨h5, (h6 _ t1 t2).2, (h6 _ h1 h2).2⟩⟩

/-- `two_point_order_crossover` itself, for any two orders of the same works. -/
theorem crossover_keeps_order (child other : List Nat) (hp : other.Perm child) (hnd : child.Nodup) (amount head : Nat)
    (hd : Draw (child.length / 4) amount head) :
    ∃ c, crossover child other amount head = some c ∧ c.Perm child ∧
      ∀ R : Nat → Nat → Prop, child.Pairwise R → other.Pairwise R → c.Pairwise R :=
  crossover_spec child other hp hnd amount head hd

/-- The ends of the first parent are kept, the middle is in the order of the second parent. -/
theorem crossover_takes_both (child other : List Nat) (hp : other.Perm child) (hnd : child.Nodup) (amount head : Nat)
    (hd : Draw (child.length / 4) amount head) (ha : 1 < amount) :
    ∃ c middle, crossover child other amount head = some c ∧
      c = child.take head ++ middle ++ child.drop (child.length - (amount - head)) ∧ middle.Sublist other := by
  obtain ⟨c, h1, _, _⟩ := crossover_spec child other hp hnd amount head hd
  have h2 := h1
  unfold crossover at h2
  rw [if_pos ha] at h2
  simp only [Option.map_eq_some_iff] at h2
  obtain ⟨m, hm, rfl⟩ := h2
  refine ⟨_, m, h1, rfl, ?_⟩
  -- the sizes agree, so nothing is repeated by the assignment
  obtain ⟨_, hd2, hd3⟩ := hd
  have hd3 := hd3 ha
  have hlen : (child.take head ++ m ++ child.drop (child.length - (amount - head))).Perm child := by
    obtain ⟨c', e1, e2, _⟩ := crossover_spec child other hp hnd amount head ⟨by assumption, hd2, fun _ => hd3⟩
    rw [h1] at e1
    rw [← Option.some.inj e1] at e2
    exact e2
  unfold broadcast at hm
  by_cases hb : (orderPart (child.take head ++ child.drop (child.length - (amount - head))) other).length =
      child.length - head - (amount - head)
  · rw [if_pos hb] at hm
    rw [← Option.some.inj hm]
    exact List.filter_sublist
  · rw [if_neg hb] at hm
    split at hm
    · rename_i x hx
      rw [hx] at hb
      have hm' := Option.some.inj hm
      have hmem : x ∈ orderPart (child.take head ++ child.drop (child.length - (amount - head))) other := by
        rw [hx]; simp
      have hxo : x ∈ other := (List.mem_filter.1 hmem).1
      have hnd2 := hlen.nodup_iff.2 hnd
      have : m.Nodup := (List.nodup_append.1 (List.nodup_append.1 hnd2).1).2.1
      rw [← hm'] at this ⊢
      have hle := List.nodup_replicate.1 this
      generalize child.length - head - (amount - head) = n at hle
      have hn : n = 0 ∨ n = 1 := by omega
      rcases hn with rfl | rfl
      · simp
      · simpa using hxo
    · exact absurd hm (by simp)

/-- Finding: the loop crosses the orders only where the priority changes.  If all works have one priority (the default),
mating changes nothing. -/
theorem one_priority_no_crossover (prio : Nat → Int) (draws : Nat → (Nat × Nat) × (Nat × Nat)) (o1 o2 : List Nat)
    (hne : o1 ≠ []) (h : ∀ a ∈ o1, ∀ b ∈ o1, prio a = prio b) : mate prio draws o1 o2 = some (o1, o2) := by
  unfold mate
  obtain ⟨v, xs, rfl⟩ : ∃ v xs, o1 = v :: xs := by
    cases o1 with
    | nil => exact absurd rfl hne
    | cons x xs => exact ⟨x, xs, rfl⟩
  obtain ⟨y, hy, hP⟩ := foldlM_range_inv (mateStep prio draws) (fun _ s => s = (prio v, v :: xs, o2))
    (prio v, v :: xs, o2) (v :: xs).length rfl (by
      rintro k _ hk rfl
      refine ⟨_, ?_, rfl⟩
      unfold mateStep
      simp only [List.getElem?_eq_getElem hk]
      rw [if_pos (h _ (List.getElem_mem hk) _ (by simp))])
  simp only [List.getElem?_cons_zero]
  rw [hy, hP]; rfl

/-- Not proved because false: without the order by priority mating can fail, here on two orders of five independent works
(the parts before the change of priority hold different works, and the assignment of the middle raises `ValueError`). -/
theorem unsorted_orders_fail :
    ∃ (prio : Nat → Int) (draws : Nat → (Nat × Nat) × (Nat × Nat)), Draws draws ∧
      mate prio draws [0, 1, 2, 3, 4] [4, 0, 1, 2, 3] = none := by
  refine ⟨fun v => if v = 4 then 1 else 0, fun i => ((if i / 4 = 1 then 2 else i / 4, 1), (if i / 4 = 1 then 2 else i / 4, 1)),
    ?_, by decide⟩
  intro i
  simp only [Draw]
  split <;> omega

/-! Hypotheses are satisfiable: six works in two groups. -/

private def prioDemo (v : Nat) : Int := if v < 5 then 0 else 1

private def drawsDemo (i : Nat) : (Nat × Nat) × (Nat × Nat) := ((2 * (i / 4), 1), (3 * (i / 4), 1))

example : Draws drawsDemo := by
  intro i; simp only [drawsDemo, Draw]; omega

example : [0, 1, 2, 3, 4, 5].Pairwise (fun a b => prioDemo a ≤ prioDemo b) := by decide
example : [0, 3, 2, 1, 4, 5].Pairwise (fun a b => prioDemo a ≤ prioDemo b) := by decide
example : mate prioDemo drawsDemo [0, 1, 2, 3, 4, 5] [0, 3, 2, 1, 4, 5] = some ([0, 3, 2, 1, 4, 5], [0, 2, 3, 1, 4, 5]) := by
  decide

end Sampo.C24
