import Verif.Model.Features
import Verif.Lemmas.Heads
import Verif.Lemmas.EditInsert
import Verif.Props.C33_Traversal
import Mathlib.Algebra.BigOperators.Group.List.Basic
import Mathlib.Algebra.Order.BigOperators.Group.List
import Mathlib.Algebra.Order.Field.Rat
import Mathlib.Tactic.Linarith
import Mathlib.Tactic.FieldSimp

/-!
# C118: the numbers that describe a work graph
-/

namespace Sampo.C118
open Features

variable {g : Graph} {iter : List Nat → List Nat} {start : Nat} {nodes : List Nat}

/-- Coding raises an error exactly for indices that are too great. -/
theorem one_hot_error (v n : Nat) : oneHot v n = none ↔ n ≤ v := by
  rw [oneHot]
  split <;> simp <;> omega

/-- An index is coded by as many numbers as asked for, a one at the index and zeros elsewhere, and decoding gives the index back. -/
theorem one_hot {v n : Nat} (h : v < n) :
    ∃ l, oneHot v n = some l ∧ l.length = n ∧ (∀ i, (hi : i < l.length) → l[i] = if i = v then 1 else 0) ∧ oneHotIndex l = some v := by
  refine ⟨(List.replicate n 0).set v 1, by rw [oneHot, if_pos h], by simp, ?_, ?_⟩
  · intro i hi
    rw [List.getElem_set]
    by_cases hv : i = v
    · subst hv; simp
    · rw [if_neg (fun h => hv h.symm), if_neg hv, List.getElem_replicate]
  · induction v generalizing n with
    | zero =>
      obtain ⟨n, rfl⟩ : ∃ m, n = m + 1 := ⟨n - 1, by omega⟩
      simp [List.replicate_succ, oneHotIndex]
    | succ v ih =>
      obtain ⟨n, rfl⟩ : ∃ m, n = m + 1 := ⟨n - 1, by omega⟩
      simp [List.replicate_succ, oneHotIndex, ih (n := n) (by omega)]

example : oneHot 1 3 = some [0, 1, 0] ∧ oneHotIndex [0, 1, 0] = some 1 ∧ oneHot 3 3 = none := by decide +kernel

private theorem thin_foldl (g : Graph) : ∀ (stack kept : List Nat),
    let r := stack.foldl (fun kept v => if kept.any fun u => (g.children u).contains v then kept else kept ++ [v]) kept
    (∀ u ∈ kept, u ∈ r) ∧ (∀ v ∈ r, v ∈ kept ∨ v ∈ stack) ∧ (∀ v ∈ stack, v ∈ r ∨ ∃ u ∈ r, v ∈ g.children u) ∧
      ((kept ++ stack).Nodup → r.Nodup)
  | [], kept => ⟨fun u hu => hu, fun v hv => .inl hv, fun v hv => by simp at hv, fun h => by simpa using h⟩
  | v :: stack, kept => by
    intro r
    by_cases hv : kept.any fun u => (g.children u).contains v
    · obtain ⟨h1, h2, h3, h4⟩ := thin_foldl g stack kept
      have hr : r = stack.foldl (fun kept v => if kept.any fun u => (g.children u).contains v then kept else kept ++ [v]) kept := by
        simp only [r, List.foldl_cons, if_pos hv]
      rw [← hr] at h1 h2 h3 h4
      refine ⟨h1, fun w hw => (h2 w hw).imp id (List.mem_cons_of_mem _), ?_, ?_⟩
      · intro w hw
        rcases List.mem_cons.1 hw with rfl | hw
        · obtain ⟨u, hu, hc⟩ := List.any_eq_true.1 hv
          exact .inr ⟨u, h1 u hu, by simpa using hc⟩
        · exact h3 w hw
      · intro hn
        exact h4 (hn.sublist (List.Sublist.append_left (List.sublist_cons_self _ _) _))
    · obtain ⟨h1, h2, h3, h4⟩ := thin_foldl g stack (kept ++ [v])
      have hr : r = stack.foldl (fun kept v => if kept.any fun u => (g.children u).contains v then kept else kept ++ [v]) (kept ++ [v]) := by
        simp only [r, List.foldl_cons, if_neg hv]
      rw [← hr] at h1 h2 h3 h4
      refine ⟨fun u hu => h1 u (List.mem_append_left _ hu), ?_, ?_, ?_⟩
      · intro w hw
        rcases h2 w hw with h | h
        · rcases List.mem_append.1 h with h | h
          · exact .inl h
          · rw [List.mem_singleton.1 h]; exact .inr List.mem_cons_self
        · exact .inr (List.mem_cons_of_mem _ h)
      · intro w hw
        rcases List.mem_cons.1 hw with rfl | hw
        · exact .inl (h1 _ (by simp))
        · exact h3 w hw
      · intro hn
        exact h4 (by simpa using hn)

private theorem thin_sub {stack : List Nat} {v : Nat} (h : v ∈ thin g stack) : v ∈ stack :=
  ((thin_foldl g stack []).2.1 v h).resolve_left (by simp)

private theorem thin_all {stack : List Nat} {v : Nat} (h : v ∈ stack) : v ∈ thin g stack ∨ ∃ u ∈ thin g stack, v ∈ g.children u :=
  (thin_foldl g stack []).2.2.1 v h

private theorem thin_nodup {stack : List Nat} (h : stack.Nodup) : (thin g stack).Nodup := (thin_foldl g stack []).2.2.2 (by simpa using h)

private theorem mem_next (hit : ∀ l, (iter l).Perm l) {kept : List Nat} {v : Nat} :
    v ∈ next g iter kept ↔ ∃ u ∈ kept, v ∈ g.children u := by
  unfold next
  rw [(hit _).mem_iff, List.mem_dedup, List.mem_flatMap]

private theorem next_nodup (hit : ∀ l, (iter l).Perm l) {kept : List Nat} : (next g iter kept).Nodup :=
  (hit _).nodup_iff.2 (List.nodup_dedup _)

private theorem stack_counted (hit : ∀ l, (iter l).Perm l) : ∀ {fuel : Nat} {stack : List Nat} {ws : List (List Nat)},
    waves g iter fuel stack = some ws → ∀ v ∈ stack, ∃ w ∈ ws, v ∈ w
  | 0, stack, ws, h, v, hv => by
    unfold waves at h
    split at h
    · rename_i he; rw [List.isEmpty_iff.1 he] at hv; simp at hv
    · simp at h
  | fuel + 1, stack, ws, h, v, hv => by
    unfold waves at h
    split at h
    · rename_i he; rw [List.isEmpty_iff.1 he] at hv; simp at hv
    · obtain ⟨rest, hrest, rfl⟩ := Option.map_eq_some_iff.1 h
      rcases thin_all hv with h1 | h1
      · exact ⟨_, List.mem_cons_self, h1⟩
      · obtain ⟨w, hw, hvw⟩ := stack_counted hit hrest v ((mem_next hit).2 h1)
        exact ⟨w, List.mem_cons_of_mem _ hw, hvw⟩

private theorem children_counted (hit : ∀ l, (iter l).Perm l) : ∀ {fuel : Nat} {stack : List Nat} {ws : List (List Nat)},
    waves g iter fuel stack = some ws → ∀ w ∈ ws, ∀ u ∈ w, ∀ v ∈ g.children u, ∃ w' ∈ ws, v ∈ w'
  | 0, stack, ws, h, w, hw => by
    unfold waves at h
    split at h
    · simp at h; rw [h] at hw; simp at hw
    · simp at h
  | fuel + 1, stack, ws, h, w, hw => by
    intro u hu v hv
    unfold waves at h
    split at h
    · simp at h; rw [h] at hw; simp at hw
    · obtain ⟨rest, hrest, rfl⟩ := Option.map_eq_some_iff.1 h
      have key : ∃ w' ∈ rest, v ∈ w' := by
        rcases List.mem_cons.1 hw with rfl | hw
        · exact stack_counted hit hrest v ((mem_next hit).2 ⟨u, hu, hv⟩)
        · exact children_counted hit hrest w hw u hu v hv
      obtain ⟨w', hw', hvw⟩ := key
      exact ⟨w', List.mem_cons_of_mem _ hw', hvw⟩

private theorem wave_ok (hit : ∀ l, (iter l).Perm l) (hch : ∀ v ∈ nodes, ∀ w ∈ g.children v, w ∈ nodes) :
    ∀ {fuel : Nat} {stack : List Nat} {ws : List (List Nat)}, stack.Nodup → (∀ v ∈ stack, v ∈ nodes) →
      waves g iter fuel stack = some ws → ∀ w ∈ ws, w.Nodup ∧ ∀ v ∈ w, v ∈ nodes
  | 0, stack, ws, _, _, h, w, hw => by
    unfold waves at h
    split at h
    · simp at h; rw [h] at hw; simp at hw
    · simp at h
  | fuel + 1, stack, ws, hn, hs, h, w, hw => by
    unfold waves at h
    split at h
    · simp at h; rw [h] at hw; simp at hw
    · obtain ⟨rest, hrest, rfl⟩ := Option.map_eq_some_iff.1 h
      rcases List.mem_cons.1 hw with rfl | hw
      · exact ⟨thin_nodup hn, fun v hv => hs v (thin_sub hv)⟩
      · refine wave_ok hit hch (next_nodup hit) ?_ hrest w hw
        intro v hv
        obtain ⟨u, hu, hvu⟩ := (mem_next hit).1 hv
        exact hch u (hs u (thin_sub hu)) v hvu

private theorem ends_of_rank (hit : ∀ l, (iter l).Perm l) (rank : Nat → Nat) (hch : ∀ v ∈ nodes, ∀ w ∈ g.children v, w ∈ nodes)
    (hrank : ∀ v ∈ nodes, ∀ w ∈ g.children v, rank v < rank w) (m : Nat) (hm : ∀ v ∈ nodes, rank v < m) :
    ∀ (fuel : Nat) (k : Nat) (stack : List Nat), (∀ v ∈ stack, v ∈ nodes ∧ k ≤ rank v) → m ≤ fuel + k → ∃ ws, waves g iter fuel stack = some ws
  | 0, k, stack, hs, hf => by
    have : stack = [] := by
      by_contra hne
      obtain ⟨v, hv⟩ := List.exists_mem_of_ne_nil _ hne
      have := hs v hv
      have := hm v this.1
      omega
    exact ⟨[], by simp [waves, this]⟩
  | fuel + 1, k, stack, hs, hf => by
    unfold waves
    split
    · exact ⟨_, rfl⟩
    · obtain ⟨ws, hw⟩ := ends_of_rank hit rank hch hrank m hm fuel (k + 1) (next g iter (thin g stack)) (by
        intro v hv
        obtain ⟨u, hu, hvu⟩ := (mem_next hit).1 hv
        have hu := hs u (thin_sub hu)
        exact ⟨hch u hu.1 v hvu, by have := hrank u hu.1 v hvu; omega⟩) (by omega)
      exact ⟨_, by rw [hw]; rfl⟩

private theorem idxOf_lt_of_before {order : List Nat} (hn : order.Nodup)
    (hb : ∀ before v after, order = before ++ v :: after → ∀ p, g.Before p v → p ∈ before) {p v : Nat} (hv : v ∈ order) (hpv : g.Before p v) :
    order.idxOf p < order.idxOf v := by
  obtain ⟨before, after, rfl⟩ := List.append_of_mem hv
  have hp := hb before v after rfl p hpv
  have hvb : v ∉ before := fun h => by
    rw [List.nodup_append] at hn
    exact hn.2.2 v h v List.mem_cons_self rfl
  rw [List.idxOf_append_of_mem hp, List.idxOf_append_of_notMem hvb]
  have := List.idxOf_lt_length_of_mem hp
  omega

/-- The rounds of the loop for every finite work graph, in whatever order sets are iterated: the loop ends; in no round a work is counted
twice; only works of the graph are counted; every work that the start leads to by dependencies is counted. -/
theorem rounds (hp : g.Project start nodes) (hit : ∀ l, (iter l).Perm l) {fuel : Nat} (hf : nodes.length ≤ fuel) :
    ∃ ws, waves g iter fuel [start] = some ws ∧ ws ≠ [] ∧ (∀ w ∈ ws, w.Nodup ∧ ∀ v ∈ w, v ∈ nodes) ∧
      ∀ v, Relation.ReflTransGen (fun p v => g.DependsOn v p) start v → ∃ w ∈ ws, v ∈ w := by
  have hch : ∀ v ∈ nodes, ∀ w ∈ g.children v, w ∈ nodes := Heads.children_closed hp.closed
  obtain ⟨order, ho, hperm⟩ := C33.ends hp (le_refl _)
  obtain ⟨h1, h2, h3⟩ := C33.reachable_once_predecessors_first hp.linked ho
  obtain ⟨ws, hw⟩ := ends_of_rank hit (order.idxOf ·) hch (by
      intro v hv w hw
      obtain ⟨e, he, hs, -⟩ := (Graph.mem_children hp.linked v w).1 hw
      exact idxOf_lt_of_before h1 h3 (hperm.mem_iff.2 (hch v hv w hw)) ⟨e, he, hs⟩) nodes.length (by
      intro v hv
      rw [← hperm.length_eq]
      exact List.idxOf_lt_length_of_mem (hperm.mem_iff.2 hv)) fuel 0 [start] (by
      intro v hv
      rw [List.mem_singleton.1 hv]
      exact ⟨hp.start_mem, Nat.zero_le _⟩) hf
  have hstart := stack_counted hit hw start (by simp)
  refine ⟨ws, hw, ?_, wave_ok hit hch (by simp) (by intro v hv; rw [List.mem_singleton.1 hv]; exact hp.start_mem) hw, ?_⟩
  · rintro rfl
    obtain ⟨w, hw, -⟩ := hstart
    simp at hw
  · intro v hv
    induction hv with
    | refl => exact hstart
    | tail _ hbc ih =>
      obtain ⟨w, hw1, hw2⟩ := ih
      exact children_counted hit hw w hw1 _ hw2 _ ((Graph.mem_children hp.linked _ _).2 hbc)

private theorem starts_foldlM {step : Nat} (hs : 0 < step) (f : Nat → ℚ) (a : List ℚ) : ∀ (n : Nat), n ≤ a.length →
    ((List.range n).map (· * step)).foldlM (fun a i => if i / step < a.length then some (a.set (i / step) (f i)) else none) a =
      some ((List.range n).map (fun k => f (k * step)) ++ a.drop n)
  | 0, _ => by simp
  | n + 1, h => by
    rw [List.range_succ, List.map_append, List.foldlM_append, starts_foldlM hs f a n (by omega)]
    simp only [List.map_cons, List.map_nil, List.foldlM_cons, List.foldlM_nil, Option.bind_eq_bind, Option.bind_some,
      Nat.mul_div_cancel n hs]
    rw [if_pos (by simp; omega)]
    simp only [Option.pure_def, Option.bind_some, List.map_append, List.map_cons, List.map_nil]
    rw [List.set_append_right _ _ (by simp)]
    simp only [List.length_map, List.length_range, Nat.sub_self]
    rw [List.drop_eq_getElem_cons (by omega : n < a.length), List.set_cons_zero, List.append_assoc]
    rfl

private theorem mean_unit {l : List ℚ} (h : ∀ x ∈ l, 0 ≤ x ∧ x ≤ 1) : 0 ≤ mean l ∧ mean l ≤ 1 := by
  have h1 : 0 ≤ l.sum := List.sum_nonneg fun x hx => (h x hx).1
  have h2 : l.sum ≤ l.length := by
    clear h1
    induction l with
    | nil => simp
    | cons x xs ih =>
      have := ih fun y hy => h y (List.mem_cons_of_mem _ hy)
      have := (h x List.mem_cons_self).2
      push_cast [List.sum_cons, List.length_cons]
      linarith
  unfold mean
  have h3 : (0 : ℚ) ≤ l.length := Nat.cast_nonneg _
  exact ⟨div_nonneg h1 h3, div_le_one_of_le₀ h2 h3⟩

/-- Partial: if works could be compared with 0, for every finite work graph the parallelism degrees are eight numbers from 0 to 1; the k-th is the mean of the k-th part of the
rounds, zero if the rounds are used up.  Missing: the comparison
raises (`parallelism_fails`), and the degrees do not depend on the graph alone (`not_determined`). -/
theorem parallelism_partial (hp : g.Project start nodes) (hit : ∀ l, (iter l).Perm l) {fuel : Nat} (hf : nodes.length ≤ fuel) :
    ∃ ws l, waves g iter fuel [start] = some ws ∧ parallelism (some false) g iter start nodes fuel = some (some l) ∧ l.length = 8 ∧
      (∀ x ∈ l, 0 ≤ x ∧ x ≤ 1) ∧
      ∃ step, 0 < step ∧ ws.length ≤ 8 * step ∧ 8 * step < ws.length + 8 ∧ ∀ k, (hk : k < l.length) → l[k] =
        if k * step < ws.length then mean (((ws.map fun w => (w.length : ℚ) / nodes.length).drop (k * step)).take step) else 0 := by
  obtain ⟨ws, hw, hne, hok, -⟩ := rounds hp hit hf
  have hlen : 0 < ws.length := List.length_pos_iff.2 hne
  obtain ⟨d, hd⟩ : ∃ d, d = ws.map fun w => (w.length : ℚ) / nodes.length := ⟨_, rfl⟩
  have hdl : d.length = ws.length := by rw [hd, List.length_map]
  have hunit : ∀ x ∈ d, 0 ≤ x ∧ x ≤ 1 := by
    intro x hx
    rw [hd] at hx
    obtain ⟨w, hw1, rfl⟩ := List.mem_map.1 hx
    have h1 : w.length ≤ nodes.length := (List.subperm_of_subset (hok w hw1).1 (hok w hw1).2).length_le
    have h2 : (w.length : ℚ) ≤ nodes.length := Nat.cast_le.2 h1
    exact ⟨div_nonneg (Nat.cast_nonneg _) (Nat.cast_nonneg _), div_le_one_of_le₀ h2 (Nat.cast_nonneg _)⟩
  obtain ⟨step, hst⟩ : ∃ step, step = (d.length + 8 - 1) / 8 := ⟨_, rfl⟩
  have hs0 : 0 < step := by omega
  obtain ⟨n, hn⟩ : ∃ n, n = (d.length + step - 1) / step := ⟨_, rfl⟩
  have hn1 : n * step < d.length + step ∧ d.length ≤ n * step := by
    have h1 := Nat.div_add_mod (d.length + step - 1) step
    have h2 := Nat.mod_lt (d.length + step - 1) hs0
    rw [← hn, Nat.mul_comm] at h1
    omega
  have hn8 : n ≤ 8 := by
    by_contra hh
    have : 9 * step ≤ n * step := Nat.mul_le_mul_right _ (by omega)
    omega
  have hag : aggregate 8 d = some ((List.range n).map (fun k => mean ((d.drop (k * step)).take step)) ++ (List.replicate 8 (0 : ℚ)).drop n) := by
    unfold aggregate
    rw [← hst]
    dsimp only
    rw [if_neg (by omega), ← hn, starts_foldlM hs0 (fun i => mean ((d.drop i).take step)) _ n (by simpa using hn8)]
  have hpar : ∀ k, k * step < ws.length ↔ k < n := by
    intro k
    constructor
    · intro h
      by_contra hh
      have : n * step ≤ k * step := Nat.mul_le_mul_right _ (by omega)
      omega
    · intro h
      have : (k + 1) * step ≤ n * step := Nat.mul_le_mul_right _ h
      rw [Nat.add_mul] at this
      omega
  refine ⟨ws, _, hw, by unfold parallelism; dsimp only; rw [hw, Option.map_some, ← hd, hag], ?_, ?_, step, hs0, by omega, by omega, ?_⟩
  · simp; omega
  · intro x hx
    rcases List.mem_append.1 hx with h | h
    · obtain ⟨k, -, rfl⟩ := List.mem_map.1 h
      exact mean_unit fun y hy => hunit y (List.mem_of_mem_drop (List.mem_of_mem_take hy))
    · rw [List.eq_of_mem_replicate (List.mem_of_mem_drop h)]
      exact ⟨le_refl _, by decide⟩
  · intro k hk
    rw [← hd]
    by_cases h : k < n
    · rw [if_pos ((hpar k).2 h), List.getElem_append_left (by simpa using h)]
      simp
    · rw [if_neg (fun hh => h ((hpar k).1 hh)), List.getElem_append_right (by simpa using h), List.getElem_drop, List.getElem_replicate]

private def demoEdges : List Edge := [⟨0, 1, 0, .finishStart⟩, ⟨0, 2, 0, .finishStart⟩, ⟨1, 2, 0, .finishStart⟩, ⟨2, 3, 0, .finishStart⟩]
private def demo : Graph := Graph.ofEdges demoEdges

private theorem demo_project : demo.Project 0 [0, 1, 2, 3] where
  once := by decide
  linked := Graph.linked_ofEdges _
  start_mem := by decide
  closed := Graph.closed_ofEdges (by decide)
  reach v hv := by
    have step : ∀ e ∈ demoEdges, demo.Before e.start e.finish := fun e he => Graph.before_ofEdges.2 ⟨e, he, rfl, rfl⟩
    have h01 := step ⟨0, 1, 0, .finishStart⟩ (by decide)
    have h02 := step ⟨0, 2, 0, .finishStart⟩ (by decide)
    have h23 := step ⟨2, 3, 0, .finishStart⟩ (by decide)
    have : v = 0 ∨ v = 1 ∨ v = 2 ∨ v = 3 := by simpa using hv
    rcases this with rfl | rfl | rfl | rfl
    · exact .refl
    · exact .single h01
    · exact .single h02
    · exact .tail (.single h02) h23
  acyclic := Graph.acyclic_before_ofEdges (fun v => v) (by decide)

example := rounds demo_project (iter := List.reverse) List.reverse_perm (le_refl _)
example := parallelism_partial demo_project (iter := List.reverse) List.reverse_perm (le_refl _)

/-- Not proved because false, even if works could be compared with 0: the parallelism degrees are a function of the graph.  Works of a round that depend on each other are told
apart only if the one needed first comes first in a set, so two runs for the same graph may describe it differently: here work 2 needs
work 1, and if the set `{1, 2}` is iterated in the other order, both are counted in the same round. -/
theorem not_determined : ∃ (g : Graph) (nodes : List Nat) (iter iter' : List Nat → List Nat), g.Project 0 nodes ∧
    (∀ l, (iter l).Perm l) ∧ (∀ l, (iter' l).Perm l) ∧ waves g iter 4 [0] = some [[0], [1], [2], [3]] ∧
    waves g iter' 4 [0] = some [[0], [2, 1], [2], [3]] ∧ parallelism (some false) g iter 0 nodes 4 ≠ parallelism (some false) g iter' 0 nodes 4 :=
  ⟨demo, [0, 1, 2, 3], id, List.reverse, demo_project, fun _ => .refl _, List.reverse_perm, by decide +kernel, by decide +kernel,
    by decide +kernel⟩

/-- Not proved because false: the parallelism degrees can be computed.  The comparison of the start with 0 raises an error for all graphs. -/
theorem parallelism_fails (g : Graph) (iter : List Nat → List Nat) (start : Nat) (nodes : List Nat) (fuel : Nat) :
    parallelism equalsZero g iter start nodes fuel = some none := rfl

/-- Not proved because false: `encode_graph` describes every work graph.  It raises an error for all graphs. -/
theorem encode_fails (g : Graph) (iter : List Nat → List Nat) (start : Nat) (nodes : List Nat) (volume : Nat → ℚ)
    (reqs : Nat → List WorkerReq) (fuel : Nat) : encode g iter start nodes volume reqs fuel = some none := by
  unfold encode
  cases maxChildren g nodes <;> rfl

private theorem pathStep_spec {v : Nat} {d : Nat → Nat} (hv : v ∉ g.children v) (h0 : d v = 0) (u : Nat) :
    pathStep g v d u = if u ∈ g.children v then max (d u) 1 else d u := by
  unfold pathStep
  generalize g.children v = l at hv
  induction l generalizing d with
  | nil => simp
  | cons c l ih =>
    rw [List.foldl_cons, ih (by
      rw [Function.update_of_ne (fun h => hv (by rw [h]; exact List.mem_cons_self)), h0]) (fun h => hv (List.mem_cons_of_mem _ h))]
    have h0' : d v + 1 = 1 := by rw [h0]
    rw [h0']
    by_cases hu : u = c
    · subst hu
      simp
    · rw [Function.update_of_ne hu]
      simp [hu]

private theorem dist_spec : ∀ {order : List Nat}, order.Nodup →
    (∀ before v after, order = before ++ v :: after → ∀ c ∈ g.children v, c ∈ after) →
    ∀ u, order.foldr (pathStep g) (fun _ => 0) u = if ∃ v ∈ order, u ∈ g.children v then 1 else 0
  | [], _, _, u => by simp
  | v :: l, hn, hb, u => by
    obtain ⟨hvl, hn'⟩ := List.nodup_cons.1 hn
    have ih := dist_spec hn' fun before w after he => hb (v :: before) w after (by rw [he]; rfl)
    have hv : v ∉ g.children v := fun h => hvl (hb [] v l rfl v h)
    have h0 : ¬ ∃ w ∈ l, v ∈ g.children w := by
      rintro ⟨w, hw, hc⟩
      obtain ⟨before, after, rfl⟩ := List.append_of_mem hw
      exact hvl (List.mem_append_right _ (List.mem_cons_of_mem _ (hb (v :: before) w after rfl v hc)))
    rw [List.foldr_cons, pathStep_spec hv (by rw [ih, if_neg h0]), ih]
    by_cases h1 : u ∈ g.children v
    · have h2 : ∃ w ∈ v :: l, u ∈ g.children w := ⟨v, List.mem_cons_self, h1⟩
      simp only [if_pos h1, if_pos h2]
      split <;> rfl
    · rw [if_neg h1]
      congr 1
      simp [h1]

private theorem foldl_max_spec : ∀ (l : List Nat) (a : Nat), a ≤ l.foldl max a ∧ (∀ x ∈ l, x ≤ l.foldl max a) ∧ (l.foldl max a = a ∨ l.foldl max a ∈ l)
  | [], a => by simp
  | x :: l, a => by
    obtain ⟨h1, h2, h3⟩ := foldl_max_spec l (max a x)
    rw [List.foldl_cons]
    refine ⟨by omega, fun y hy => ?_, ?_⟩
    · rcases List.mem_cons.1 hy with rfl | hy
      · omega
      · exact h2 y hy
    · rcases h3 with h3 | h3
      · rw [h3]
        rcases Nat.le_total a x with h | h
        · right; rw [max_eq_right h]; exact List.mem_cons_self
        · left; exact max_eq_left h
      · exact .inr (List.mem_cons_of_mem _ h3)

/-- Not proved because false: the loop of the longest path would find the length of the longest path if its order were passed correctly.
It takes the works of a topological order from the end, each before the works it depends on, and so its answer is 1 for every list of works
with a dependency among them, however long the paths are. -/
theorem longest_path_is_one {order : List Nat} (hn : order.Nodup) (hcl : ∀ v ∈ order, ∀ c ∈ g.children v, c ∈ order ∧ c ≠ v)
    (htop : order.Pairwise fun u v => u ∉ g.children v) {v : Nat} (hv : v ∈ order) (hc : g.children v ≠ []) : pathLoop g order = 1 := by
  have hb : ∀ before v after, order = before ++ v :: after → ∀ c ∈ g.children v, c ∈ after := by
    rintro before v after rfl c hc
    obtain ⟨h1, h2⟩ := hcl v (by simp) c hc
    rcases List.mem_append.1 h1 with h | h
    · exact absurd hc ((List.pairwise_append.1 htop).2.2 c h v List.mem_cons_self)
    · exact (List.mem_cons.1 h).resolve_left h2
  obtain ⟨c, hc⟩ := List.exists_mem_of_ne_nil _ hc
  obtain ⟨before, after, rfl⟩ := List.append_of_mem hv
  have hco := hb before v after rfl c hc
  obtain ⟨-, h2, h3⟩ := foldl_max_spec ((before ++ v :: after).map ((before ++ v :: after).foldr (pathStep g) fun _ => 0)) 0
  have hle : pathLoop g (before ++ v :: after) ≤ 1 := by
    unfold pathLoop
    rcases h3 with h3 | h3
    · omega
    · obtain ⟨u, -, hu⟩ := List.mem_map.1 h3
      rw [← hu, dist_spec hn hb]
      split <;> omega
  have hge := h2 _ (List.mem_map.2 ⟨c, List.mem_append_right _ (List.mem_cons_of_mem _ hco), rfl⟩)
  rw [dist_spec hn hb, if_pos ⟨v, hv, hc⟩] at hge
  unfold pathLoop at hle ⊢
  omega

example : pathLoop demo [0, 1, 2, 3] = 1 := by decide +kernel
example := longest_path_is_one (g := demo) (order := [0, 1, 2, 3]) (v := 1) (by decide) (by decide) (by decide) (by decide) (by decide)

private theorem max_spec {l : List Nat} (h : ∃ k ∈ l, k ≠ 0) : ∃ m, (l.filter fun k => k != 0).max? = some m ∧ m ∈ l ∧ m ≠ 0 ∧ ∀ k ∈ l, k ≤ m := by
  cases hm : (l.filter fun k => k != 0).max? with
  | none =>
    rw [List.max?_eq_none_iff] at hm
    obtain ⟨k, hk, h0⟩ := h
    have : k ∈ l.filter fun k => k != 0 := List.mem_filter.2 ⟨hk, by simpa using h0⟩
    rw [hm] at this
    simp at this
  | some m =>
    obtain ⟨h1, h2⟩ := List.max?_eq_some_iff.1 hm
    rw [List.mem_filter] at h1
    refine ⟨m, rfl, h1.1, by simpa using h1.2, fun k hk => ?_⟩
    by_cases h0 : k = 0
    · omega
    · exact h2 k (List.mem_filter.2 ⟨hk, by simpa using h0⟩)

/-- The relative numbers of children and parents of a graph with a dependency: the greatest number of dependencies that leave, or come
into, one work, per work of the graph. -/
theorem degrees (hp : g.Project start nodes) {v p : Nat} (hv : v ∈ nodes) (hd : g.DependsOn v p) :
    (∃ w ∈ nodes, maxChildren g nodes = some (((g.children w).length : ℚ) / nodes.length) ∧
      ∀ u ∈ nodes, (g.children u).length ≤ (g.children w).length) ∧
    ∃ w ∈ nodes, maxParents g nodes = some (((g.parents w).length : ℚ) / nodes.length) ∧
      ∀ u ∈ nodes, (g.parents u).length ≤ (g.parents w).length := by
  have hpm : p ∈ nodes := by
    obtain ⟨e, he, rfl, -⟩ := hd
    exact (hp.closed v hv).1 e he
  constructor
  · obtain ⟨m, h1, h2, -, h3⟩ := max_spec (l := nodes.map fun v => (g.children v).length) ⟨_, List.mem_map.2 ⟨p, hpm, rfl⟩, by
      have := (Graph.mem_children hp.linked p v).2 hd
      intro h0
      rw [List.length_eq_zero_iff.1 h0] at this
      simp at this⟩
    obtain ⟨w, hw, rfl⟩ := List.mem_map.1 h2
    exact ⟨w, hw, by unfold maxChildren; rw [h1], fun u hu => h3 _ (List.mem_map.2 ⟨u, hu, rfl⟩)⟩
  · obtain ⟨m, h1, h2, -, h3⟩ := max_spec (l := nodes.map fun v => (g.parents v).length) ⟨_, List.mem_map.2 ⟨v, hv, rfl⟩, by
      have := (Graph.mem_parents v p).2 hd
      intro h0
      rw [List.length_eq_zero_iff.1 h0] at this
      simp at this⟩
    obtain ⟨w, hw, rfl⟩ := List.mem_map.1 h2
    exact ⟨w, hw, by unfold maxParents; rw [h1], fun u hu => h3 _ (List.mem_map.2 ⟨u, hu, rfl⟩)⟩

example := degrees demo_project (v := 2) (p := 1) (by decide) ⟨⟨1, 2, 0, .finishStart⟩, by decide, rfl, .inl rfl⟩
example : maxChildren demo [0, 1, 2, 3] = some (2 / 4) ∧ maxParents demo [0, 1, 2, 3] = some (2 / 4) := by decide +kernel

/-- The averages per work: times the number of works they give the sum of the volumes of all works, and half the sum of the least and
greatest numbers of workers over all requirements. -/
theorem averages (hne : nodes ≠ []) (volume : Nat → ℚ) (reqs : Nat → List WorkerReq) :
    averageWork nodes volume * nodes.length = (nodes.map volume).sum ∧
    averageUsage nodes reqs * nodes.length * 2 = ((nodes.flatMap reqs).map fun r => (r.minCount : ℚ)).sum +
      ((nodes.flatMap reqs).map fun r => (r.maxCount : ℚ)).sum := by
  have hn : (nodes.length : ℚ) ≠ 0 := by
    rw [Ne, Nat.cast_eq_zero, List.length_eq_zero_iff]
    exact hne
  refine ⟨div_mul_cancel₀ _ hn, ?_⟩
  unfold averageUsage
  rw [div_mul_cancel₀ _ hn]
  clear hne hn
  induction nodes with
  | nil => simp
  | cons v l ih =>
    have one : ∀ rs : List WorkerReq, (rs.map fun r => ((r.minCount + r.maxCount : Int) : ℚ) / 2).sum * 2 =
        (rs.map fun r => (r.minCount : ℚ)).sum + (rs.map fun r => (r.maxCount : ℚ)).sum := by
      intro rs
      induction rs with
      | nil => simp
      | cons r rs ih =>
        simp only [List.map_cons, List.sum_cons]
        push_cast at ih ⊢
        linarith
    have := one (reqs v)
    simp only [List.map_cons, List.sum_cons, List.flatMap_cons, List.map_append, List.sum_append]
    linarith

example := averages (nodes := [0, 1]) (by decide) (fun v => v) fun v => [⟨0, 1, v⟩]
example : averageUsage [0, 1] (fun v => if v = 0 then [] else [⟨0, 1, 2⟩, ⟨1, 2, 4⟩]) = 9 / 4 := by decide +kernel

private theorem addReq_not_mem {k : String} {v : Volume} : ∀ {es : List (String × Nat × Volume)}, k ∉ es.map Prod.fst →
    addReq es (k, v) = es ++ [(k, 1, (Volume.num 0).add v)]
  | [], _ => rfl
  | e :: es, h => by
    rw [List.map_cons, List.mem_cons, not_or] at h
    rw [addReq, if_neg (fun he => h.1 he.symm), addReq_not_mem h.2, List.cons_append]

private theorem addReq_mem {k : String} {v : Volume} {f : String → Nat × Volume} : ∀ {ks : List String}, ks.Nodup → k ∈ ks →
    addReq (ks.map fun a => (a, f a)) (k, v) = ks.map fun a => (a, if a = k then ((f a).1 + 1, (f a).2.add v) else f a)
  | a :: ks, hn, h => by
    obtain ⟨ha, hn⟩ := List.nodup_cons.1 hn
    rw [List.map_cons, List.map_cons, addReq]
    by_cases hk : a = k
    · subst hk
      rw [if_pos rfl, if_pos rfl]
      refine congrArg _ (List.map_congr_left fun b hb => ?_)
      rw [if_neg (fun hb' : b = a => ha (hb' ▸ hb))]
    · rw [if_neg hk, if_neg hk, addReq_mem hn ((List.mem_cons.1 h).resolve_left fun h => hk h.symm)]

private theorem entries (l : List (String × ℚ)) :
    ∃ kinds : List String, kinds.Pairwise (fun a b => (l.map Prod.fst).idxOf a < (l.map Prod.fst).idxOf b) ∧
      (∀ k, k ∈ kinds ↔ k ∈ l.map Prod.fst) ∧
      (l.map fun r => (r.1, Volume.num r.2)).foldl addReq [] =
        kinds.map fun k => (k, (l.filter (·.1 = k)).length, .num ((l.filter (·.1 = k)).map Prod.snd).sum) := by
  induction l using List.reverseRecOn with
  | nil => exact ⟨[], .nil, by simp, rfl⟩
  | append_singleton l r ih =>
    obtain ⟨kinds, h1, h2, h3⟩ := ih
    have hn : kinds.Nodup := h1.imp fun hab he => by subst he; exact lt_irrefl _ hab
    rw [List.map_append, List.map_append, List.foldl_append, h3]
    by_cases hr : r.1 ∈ kinds
    · refine ⟨kinds, ?_, ?_, ?_⟩
      · refine List.Pairwise.imp_of_mem (fun {a b} ha hb hab => ?_) h1
        rw [List.idxOf_append_of_mem ((h2 a).1 ha), List.idxOf_append_of_mem ((h2 b).1 hb)]
        exact hab
      · intro k
        rw [h2, List.mem_append]
        refine ⟨.inl, fun h => h.elim id fun h => ?_⟩
        rw [List.map_singleton, List.mem_singleton] at h
        exact h ▸ (h2 _).1 hr
      · show addReq _ _ = _
        rw [addReq_mem (f := fun k => ((l.filter (·.1 = k)).length, .num ((l.filter (·.1 = k)).map Prod.snd).sum)) hn hr]
        refine List.map_congr_left fun k hk => ?_
        rw [List.filter_append]
        by_cases he : k = r.1
        · subst he
          simp [Volume.add]
        · have he' : ¬ r.1 = k := fun h => he h.symm
          simp [he, he']
    · have hr' : r.1 ∉ l.map Prod.fst := fun h => hr ((h2 _).2 h)
      refine ⟨kinds ++ [r.1], ?_, ?_, ?_⟩
      · rw [List.pairwise_append]
        refine ⟨List.Pairwise.imp_of_mem (fun {a b} ha hb hab => ?_) h1, List.pairwise_singleton _ _, ?_⟩
        · rw [List.idxOf_append_of_mem ((h2 a).1 ha), List.idxOf_append_of_mem ((h2 b).1 hb)]
          exact hab
        · intro a ha b hb
          rw [List.mem_singleton] at hb
          subst hb
          rw [List.idxOf_append_of_mem ((h2 a).1 ha), List.idxOf_append_of_notMem hr']
          exact Nat.lt_add_right _ (List.idxOf_lt_length_iff.2 ((h2 a).1 ha))
      · intro k
        rw [List.mem_append, List.mem_append, h2, List.map_singleton]
      · show addReq _ _ = _
        rw [addReq_not_mem (by rwa [List.map_map, show (Prod.fst ∘ fun k => (k, (l.filter (·.1 = k)).length,
          Volume.num ((l.filter (·.1 = k)).map Prod.snd).sum)) = id from rfl, List.map_id]), List.map_append]
        congr 1
        · refine List.map_congr_left fun k hk => ?_
          have he : ¬ r.1 = k := fun h => hr (h ▸ hk)
          simp [he]
        · have : l.filter (·.1 = r.1) = [] := List.filter_eq_nil_iff.2 fun x hx => by
            simpa using fun h : x.1 = r.1 => hr' (h ▸ List.mem_map_of_mem hx)
          simp [List.filter_append, this, Volume.add]

/-- The constrainedness of resources when all volumes are numbers: one number per type of workers, in the order of first requirements, the
number of requirements divided by the sum of their volumes; an error exactly if a sum is 0. -/
theorem constrainedness_partial (nodes : List Nat) (reqs : Nat → List (String × ℚ)) :
    ∃ kinds : List String,
      kinds.Pairwise (fun a b => ((nodes.flatMap reqs).map Prod.fst).idxOf a < ((nodes.flatMap reqs).map Prod.fst).idxOf b) ∧
      (∀ k, k ∈ kinds ↔ k ∈ (nodes.flatMap reqs).map Prod.fst) ∧
      ((∀ k ∈ kinds, (((nodes.flatMap reqs).filter (·.1 = k)).map Prod.snd).sum ≠ 0) →
        constrainedness nodes (fun v => (reqs v).map fun r => (r.1, .num r.2)) = some (kinds.map fun k =>
          (((nodes.flatMap reqs).filter (·.1 = k)).length : ℚ) / (((nodes.flatMap reqs).filter (·.1 = k)).map Prod.snd).sum)) ∧
      ((∃ k ∈ kinds, (((nodes.flatMap reqs).filter (·.1 = k)).map Prod.snd).sum = 0) →
        constrainedness nodes (fun v => (reqs v).map fun r => (r.1, .num r.2)) = none) := by
  obtain ⟨kinds, h1, h2, h3⟩ := entries (nodes.flatMap reqs)
  have he : constrainedness nodes (fun v => (reqs v).map fun r => (r.1, .num r.2)) =
      kinds.mapM fun k => divided ((nodes.flatMap reqs).filter (·.1 = k)).length
        (.num (((nodes.flatMap reqs).filter (·.1 = k)).map Prod.snd).sum) := by
    unfold constrainedness
    rw [← List.map_flatMap, h3, List.mapM_map]
    rfl
  refine ⟨kinds, h1, h2, fun h => ?_, fun h => ?_⟩
  · rw [he]
    clear h1 h2 h3 he
    induction kinds with
    | nil => rfl
    | cons k ks ih =>
      rw [List.mapM_cons, ih fun a ha => h a (List.mem_cons_of_mem _ ha), divided, if_neg (h k List.mem_cons_self)]
      rfl
  · rw [he]
    clear h1 h2 h3 he
    obtain ⟨k, hk, h0⟩ := h
    induction kinds with
    | nil => simp at hk
    | cons a ks ih =>
      rw [List.mapM_cons]
      rcases List.mem_cons.1 hk with rfl | hk
      · rw [h0, divided, if_pos rfl]
        rfl
      · rw [ih hk]
        cases divided _ _ <;> rfl

/-- Not proved because false: the constrainedness of resources cannot be computed as soon as one requirement has a `Time` as volume, which
is the declared type. -/
theorem constrainedness_fails (nodes : List Nat) (reqs : Nat → List (String × Volume)) {v : Nat} {k : String} {t : Int} (hv : v ∈ nodes)
    (h : (k, .time t) ∈ reqs v) : constrainedness nodes reqs = none := by
  have keep : ∀ (es : List (String × Nat × Volume)) r, (∃ c t, (k, c, Volume.time t) ∈ es) → ∃ c t, (k, c, Volume.time t) ∈ addReq es r := by
    intro es r
    induction es with
    | nil => rintro ⟨c, t, h⟩; simp at h
    | cons e es ih =>
      rintro ⟨c, t, h⟩
      rw [addReq]
      rcases List.mem_cons.1 h with rfl | h
      · split
        · cases hr : r.2 <;> exact ⟨_, _, List.mem_cons_self⟩
        · exact ⟨c, t, List.mem_cons_self⟩
      · split
        · exact ⟨c, t, List.mem_cons_of_mem _ h⟩
        · obtain ⟨c, t, h⟩ := ih ⟨c, t, h⟩
          exact ⟨c, t, List.mem_cons_of_mem _ h⟩
  have make : ∀ (es : List (String × Nat × Volume)) t, ∃ c t', (k, c, Volume.time t') ∈ addReq es (k, .time t) := by
    intro es t
    induction es with
    | nil => exact ⟨1, _, List.mem_cons_self⟩
    | cons e es ih =>
      rw [addReq]
      split
      · rename_i he
        obtain ⟨a, c, w⟩ := e
        obtain rfl : a = k := he
        cases w <;> exact ⟨_, _, List.mem_cons_self⟩
      · obtain ⟨c, t, h⟩ := ih
        exact ⟨c, t, List.mem_cons_of_mem _ h⟩
  have all : ∀ (l : List (String × Volume)), (k, Volume.time t) ∈ l → ∃ c t, (k, c, Volume.time t) ∈ l.foldl addReq [] := by
    intro l
    induction l using List.reverseRecOn with
    | nil => intro h; simp at h
    | append_singleton l r ih =>
      intro h
      rw [List.foldl_append]
      show ∃ c t, _ ∈ addReq _ r
      rcases List.mem_append.1 h with h | h
      · exact keep _ _ (ih h)
      · rw [← List.mem_singleton.1 h]
        exact make _ _
  obtain ⟨c, t', hm⟩ := all (nodes.flatMap reqs) (List.mem_flatMap.2 ⟨v, hv, h⟩)
  unfold constrainedness
  generalize (nodes.flatMap reqs).foldl addReq [] = es at hm
  induction es with
  | nil => simp at hm
  | cons e es ih =>
    rw [List.mapM_cons]
    rcases List.mem_cons.1 hm with rfl | hm
    · rfl
    · rw [ih hm]
      cases divided _ _ <;> rfl

example := constrainedness_partial [0, 1] fun v => [("driver", 2), ("fitter", v)]
example : constrainedness [0, 1] (fun v => [("driver", .num 2), ("fitter", .num v)]) = some [1 / 2, 2] := by decide +kernel
example : constrainedness [0] (fun v => [("driver", .num 2), ("fitter", .num v)]) = none := by decide +kernel
example := constrainedness_fails [0, 1] (fun v => [("driver", .num 2), ("fitter", .time v)]) (v := 1) (k := "fitter") (t := 1) (by decide) (by decide)

end Sampo.C118
