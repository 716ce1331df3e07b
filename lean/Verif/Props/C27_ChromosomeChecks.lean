import Verif.Lemmas.GeneticResources

/-!
# C27: the checks of chromosomes are exact
-/

namespace Sampo.C27

open GeneticRes

/-- `is_chromosome_order_correct` accepts exactly the orders in which every work stands after all its predecessors, none of which has a
later priority. -/
theorem order_check_exact (parents : Nat → List Nat) (hself : ∀ v, v ∉ parents v) (prio : Nat → Int) (order : List Nat) :
    orderCorrect parents prio order = true ↔
      ∀ before v after, order = before ++ v :: after → ∀ p ∈ parents v, p ∈ before ∧ prio p ≤ prio v := by
  unfold orderCorrect
  rw [orderLoop_iff]
  constructor
  · intro h before v after heq p hp
    obtain ⟨h1, h2⟩ := h before v after heq p hp
    rcases h1 with h1 | h1 | h1
    · subst h1; exact absurd hp (hself p)
    · exact ⟨h1, h2⟩
    · exact absurd h1 (by simp)
  · intro h before v after heq p hp
    obtain ⟨h1, h2⟩ := h before v after heq p hp
    exact ⟨Or.inr (Or.inl h1), h2⟩

/-- `is_chromosome_contractors_correct` accepts exactly the chromosomes in which every work of the order has an enabled contractor,
every amount is within the chromosome's border of its contractor, and these borders are within `contractor_borders`. -/
theorem contractor_check_exact (n m : Nat) (hn : n ≠ 0) (cap : Nat → Nat → Int) (enabled : Nat → Nat → Bool)
    (order : List Nat) (ch : Chrom) : contractorsCorrect n m cap enabled order ch = true ↔
      (∀ w ∈ order, enabled w (ch.contractor w) = true) ∧
      ∀ w < n, ∀ k < m, ch.amount w k ≤ ch.border (ch.contractor w) k ∧
        ch.border (ch.contractor w) k ≤ cap (ch.contractor w) k :=
  contractorsCorrect_iff n m hn cap enabled order ch

/-- What contractor `s` has of the kind: the count in its dictionary, nothing if the kind is absent. -/
def capacity (s : Staff) (kind : Nat) : Int := ((s.find? fun w => w.1 = kind).map (·.2)).getD 0

/-- `contractor_borders` are the capacities if every contractor lists the same kinds in the order of the pool. -/
theorem borders_are_capacities_partial (contractors : List Staff)
    (h : ∀ s ∈ contractors, s.map (·.1) = kinds contractors) (hnd : (kinds contractors).Nodup) (c k kind : Nat) (s : Staff)
    (hc : contractors[c]? = some s) (hk : (kinds contractors)[k]? = some kind) :
    contractorBorders contractors c k = capacity s kind := by
  unfold contractorBorders
  rw [hc]
  simp only
  have hs := h s (List.mem_of_getElem? hc)
  rw [← hs, List.getElem?_map, Option.map_eq_some_iff] at hk
  obtain ⟨w, hw, hwk⟩ := hk
  rw [hw]
  simp only
  rw [← hs] at hnd
  unfold capacity
  have hfind : s.find? (fun w => w.1 = kind) = some w := by
    have hmem := List.mem_of_getElem? hw
    clear hw hc h hs
    induction s with
    | nil => exact absurd hmem (by simp)
    | cons x xs ih =>
      rw [List.map_cons, List.nodup_cons] at hnd
      rw [List.mem_cons] at hmem
      rcases hmem with rfl | hmem
      · rw [List.find?_cons_of_pos (by simp [hwk])]
      · rw [List.find?_cons_of_neg]
        · exact ih hnd.2 hmem
        · intro hx
          have hx' := of_decide_eq_true hx
          exact hnd.1 (by rw [hx', ← hwk]; exact List.mem_map_of_mem hmem)
  rw [hfind]; rfl

/-- Not proved because false: `contractor_borders` takes the position of a worker in the contractor's own dictionary for the index
of its kind.  The second contractor has five workers of kind 1 and two of kind 0; its border for kind 0 is five, so the check
accepts a team of five of whom only two exist. -/
theorem borders_mixed_up :
    ∃ (contractors : List Staff) (s : Staff) (ch : Chrom), contractors[1]? = some s ∧ kinds contractors = [0, 1] ∧
      contractorsCorrect 1 2 (contractorBorders contractors) (fun _ _ => true) [0] ch = true ∧
      ch.contractor 0 = 1 ∧ capacity s 0 < ch.amount 0 0 := by
  refine ⟨[[(0, 1), (1, 9)], [(1, 5), (0, 2)]], [(1, 5), (0, 2)], ⟨fun _ k => if k = 0 then 5 else 0, fun _ => 1,
    fun _ k => if k = 0 then 5 else 2⟩, rfl, by decide, by decide, rfl, by decide⟩

/-- The order check does not ask for completeness: an order without any works passes. -/
theorem empty_order_accepted (parents : Nat → List Nat) (prio : Nat → Int) : orderCorrect parents prio [] = true := rfl

/-! Both answers occur. -/

private def parentsDemo (v : Nat) : List Nat := if v = 0 then [] else [v - 1]

example : ∀ v, v ∉ parentsDemo v := by
  intro v
  unfold parentsDemo
  split
  · simp
  · rw [List.mem_singleton]; omega

example : orderCorrect parentsDemo (fun v => v) [0, 1, 2] = true := by decide
example : orderCorrect parentsDemo (fun v => v) [0, 2, 1] = false := by decide
example : orderCorrect parentsDemo (fun v => -v) [0, 1, 2] = false := by decide

private def chromDemo : Chrom := ⟨fun w k => w + k, fun w => w, fun _ _ => 3⟩

example : contractorsCorrect 2 2 (fun _ _ => 4) (fun w c => w == c) [0, 1] chromDemo = true := by decide
example : contractorsCorrect 2 2 (fun _ _ => 2) (fun w c => w == c) [0, 1] chromDemo = false := by decide
example : contractorsCorrect 2 4 (fun _ _ => 4) (fun w c => w == c) [0, 1] chromDemo = false := by decide
example : contractorsCorrect 2 2 (fun _ _ => 4) (fun w c => w != c) [0, 1] chromDemo = false := by decide
example : (∀ s ∈ [[(0, 1), (1, 9)], [(0, 5), (1, 2)]], s.map (·.1) = kinds [[(0, 1), (1, 9)], [(0, 5), (1, 2)]]) ∧
    (kinds [[(0, 1), (1, 9)], [(0, 5), (1, 2)]]).Nodup := by decide

end Sampo.C27
