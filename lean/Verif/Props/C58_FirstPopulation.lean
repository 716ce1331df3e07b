import Verif.Props.C56_GeneticBest
import Mathlib.Algebra.Order.BigOperators.Group.List
import Mathlib.Data.List.Count

/-!
# C58: the first population
-/

namespace Sampo.C58

open GeneticLoop

private theorem ceil_sum (c W : Nat) (hW : 0 < W) (ws : List Nat) :
    W * (ws.map fun w => (c * w + W - 1) / W).sum + ws.length ≤ c * ws.sum + ws.length * W := by
  induction ws with
  | nil => simp
  | cons w ws ih =>
    simp only [List.map_cons, List.sum_cons, List.length_cons]
    have h1 := Nat.div_mul_le_self (c * w + W - 1) W
    have : W * ((c * w + W - 1) / W) + 1 ≤ c * w + W := by rw [Nat.mul_comm]; omega
    rw [Nat.mul_add, Nat.mul_add, Nat.add_mul]
    omega

/-- The copies of initial schedules number at least one for every schedule of positive weight, and at most `c + L - 1` in all. -/
private theorem specified_bounds (c : Nat) (hc : 0 < c) (weights : List Nat) (hpos : ∀ w ∈ weights, 0 < w) (hne : weights ≠ []) :
    (∀ w ∈ weights, 0 < (c * w + weights.sum - 1) / weights.sum) ∧
      (weights.map fun w => (c * w + weights.sum - 1) / weights.sum).sum + 1 ≤ c + weights.length := by
  have hW : 0 < weights.sum := by
    obtain ⟨w, hw⟩ := List.exists_mem_of_ne_nil weights hne
    exact lt_of_lt_of_le (hpos w hw) (List.single_le_sum (by simp) w hw)
  have hL : 0 < weights.length := List.length_pos_iff.2 hne
  constructor
  · intro w hw
    have := Nat.mul_pos hc (hpos w hw)
    exact Nat.div_pos (by omega) hW
  · have h := ceil_sum c weights.sum hW weights
    set S := (weights.map fun w => (c * w + weights.sum - 1) / weights.sum).sum
    have h' : weights.sum * S < weights.sum * (c + weights.length) := by
      rw [Nat.mul_add, Nat.mul_comm weights.sum c, Nat.mul_comm weights.sum weights.length]
      omega
    have := Nat.lt_of_mul_lt_mul_left h'
    omega

/-- The size of the urn: exactly the size of the population, or larger if the population is too small. -/
private theorem counts_sum (n : Nat) (weights : List Nat) :
    n ≤ (counts n weights).sum ∧ ((counts n weights).sum = n ∨
      n < (weights.map fun w => ((if 0 < n / 3 / weights.length then n / 3 / weights.length else 1) * w + weights.sum - 1) /
        weights.sum).sum + 2) := by
  unfold counts
  simp only [List.sum_append, List.sum_cons, List.sum_nil]
  set S := (weights.map fun w => ((if 0 < n / 3 / weights.length then n / 3 / weights.length else 1) * w + weights.sum - 1) /
    weights.sum).sum
  by_cases h1 : S < n / 2
  · simp only [if_pos h1]
    by_cases h2 : n / 2 - S + S < n
    · simp only [if_pos h2]; omega
    · simp only [if_neg h2]; omega
  · simp only [if_neg h1]
    by_cases h2 : 1 + S < n
    · simp only [if_pos h2]; omega
    · simp only [if_neg h2]; omega

private theorem urn_length (cs : List Nat) : (urn cs).length = cs.sum := by
  unfold urn
  rw [List.length_flatMap]
  congr 1
  apply List.ext_getElem?
  intro i
  rw [List.getElem?_map]
  by_cases hi : i < cs.length
  · simp [hi]
  · simp [hi]

private theorem mem_urn (cs : List Nat) (i : Nat) : i ∈ urn cs ↔ 0 < (cs[i]?).getD 0 := by
  unfold urn
  simp only [List.mem_flatMap, List.mem_range, List.mem_replicate]
  constructor
  · rintro ⟨j, hj, h0, rfl⟩; omega
  · intro h
    refine ⟨i, ?_, by omega, rfl⟩
    by_contra hc
    rw [List.getElem?_eq_none (by omega)] at h
    simp at h

/-- Drawing the first population never fails: the urn has at least as many elements as are drawn, so a sample exists; the population
has the requested size. -/
theorem population_size (n : Nat) (weights : List Nat) :
    n ≤ (urn (counts n weights)).length ∧ ∀ picked, Sample n (urn (counts n weights)) picked → picked.length = n :=
  ⟨by rw [urn_length]; exact (counts_sum n weights).1, fun _ h => h.1⟩

/-- If the population has at least two places more than there are initial schedules, all of positive weight, every initial schedule
is in the first population, and so are topological and randomized LFT ones. -/
theorem all_initial_schedules_included (n : Nat) (weights : List Nat) (hne : weights ≠ []) (hpos : ∀ w ∈ weights, 0 < w)
    (hn : weights.length + 2 ≤ n) (picked : List Nat) (h : Sample n (urn (counts n weights)) picked) :
    ∀ i < weights.length + 2, i ∈ picked := by
  set c := if 0 < n / 3 / weights.length then n / 3 / weights.length else 1 with hcdef
  have hL : 0 < weights.length := List.length_pos_iff.2 hne
  have hc : 0 < c := by rw [hcdef]; split <;> omega
  obtain ⟨hb1, hb2⟩ := specified_bounds c hc weights hpos hne
  have hS : (weights.map fun w => (c * w + weights.sum - 1) / weights.sum).sum + 2 ≤ n := by
    rw [hcdef] at hb2 ⊢
    by_cases h0 : 0 < n / 3 / weights.length
    · simp only [if_pos h0] at hb2 ⊢
      have h1 : n / 3 / weights.length * weights.length ≤ n / 3 := Nat.div_mul_le_self _ _
      have h2 : n / 3 / weights.length ≤ n / 3 := Nat.div_le_self _ _
      have h3 : weights.length ≤ n / 3 / weights.length * weights.length := Nat.le_mul_of_pos_left _ h0
      by_cases h4 : weights.length = 1
      · omega
      · omega
    · simp only [if_neg h0] at hb2 ⊢
      omega
  have hsum : (counts n weights).sum = n := by
    rcases (counts_sum n weights).2 with h' | h'
    · exact h'
    · exfalso
      have : n < (weights.map fun w => (c * w + weights.sum - 1) / weights.sum).sum + 2 := h'
      omega
  have hperm : picked.Perm (urn (counts n weights)) :=
    h.2.perm_of_length_le (by rw [urn_length, hsum, h.1])
  intro i hi
  rw [hperm.mem_iff, mem_urn]
  unfold counts
  simp only
  rw [← hcdef]
  by_cases hw : i < weights.length
  · rw [List.getElem?_append_left (by simpa using hw), List.getElem?_map, List.getElem?_eq_getElem hw]
    exact hb1 _ (List.getElem_mem hw)
  · rw [List.getElem?_append_right (by simpa using hw), List.length_map]
    have : i - weights.length = 0 ∨ i - weights.length = 1 := by omega
    rcases this with h0 | h0
    · rw [h0]
      simp only [List.getElem?_cons_zero, Option.getD_some]
      split <;> omega
    · rw [h0]
      simp only [List.getElem?_cons_succ, List.getElem?_cons_zero, Option.getD_some]
      split
      · split
        · omega
        · omega
      · split
        · omega
        · omega

/-- Together with C56: the individual returned is at least as good as every initial schedule. `make` is the individual made for a
drawn kind. -/
theorem at_least_every_initial_schedule {α : Type*} (n : Nat) (weights : List Nat) (hne : weights ≠ [])
    (hpos : ∀ w ∈ weights, 0 < w) (hn : weights.length + 2 ≤ n) (picked : List Nat)
    (h : Sample n (urn (counts n weights)) picked) (init : Nat → α) (other : Nat → α) (f : α → Int) (env : Env α)
    (hsh : ∀ g l, (env.shuffle g l).Perm l) (maxPlateau : Option Nat) (generations : Nat) :
    ∃ s b, runFree (fun a => [f a]) (select (fun a => [f a]) n) env maxPlateau generations
        (picked.map fun i => if i < weights.length then init i else other i) = some s ∧ s.hof = [b] ∧
      ∀ i < weights.length, f (init i) ≤ f b := by
  have hp : (picked.map fun i => if i < weights.length then init i else other i) ≠ [] := by
    intro hc
    have := congrArg List.length hc
    rw [List.length_map, h.1] at this
    simp at this
    omega
  obtain ⟨s, b, h1, h2, _, h4, h5⟩ := C56.best_of_all_evaluated f n (by omega) env hsh maxPlateau generations _ hp
  refine ⟨s, b, h1, h2, ?_⟩
  intro i hi
  apply h5 _ (h4 _ _)
  rw [List.mem_map]
  exact ⟨i, all_initial_schedules_included n weights hne hpos hn picked h i (by omega), by rw [if_pos hi]⟩

/-- The default: seven initial schedules with weights 2, 2, 2, 1, 1, 1, 1 and a population of 50. -/
example : counts 50 [2, 2, 2, 1, 1, 1, 1] = [1, 1, 1, 1, 1, 1, 1, 18, 25] := by decide

/-- With a smaller population initial schedules can be missing even if there is one place for each. -/
theorem small_population_can_miss : ∃ picked, Sample 7 (urn (counts 7 [2, 2, 2, 1, 1, 1, 1])) picked ∧ 0 ∉ picked ∧ 1 ∉ picked :=
  ⟨[2, 3, 4, 5, 6, 7, 8], ⟨rfl, List.Sublist.subperm (by decide)⟩, by decide, by decide⟩

end Sampo.C58
