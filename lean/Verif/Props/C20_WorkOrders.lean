import Verif.Lemmas.Prioritize
import Verif.Model.Heads

/-!
# C20: work prioritizations are topological orders

All four prioritizations get the head works and the maps of parent and child ids from the collapse of inseparable chains
(C22).  `HeadGraph` says what that collapse guarantees.

HEFT, LFT and topological prioritization handle the priority groups one after another, so their orders can be topological
only if no head work precedes (in the priority order) a head work it depends on: `PrioritiesAgree`.  Priorities of works
agree with dependencies after the automatic correction (C21), but the priority of a chain is the priority of its first work,
and this may disagree although all works agree (`chain_priority_breaks_order`): hence `_partial`.
-/

namespace Sampo.C20

/-- Head works in a topological order with their direct predecessors and successors. -/
structure HeadGraph (heads : List Nat) (par chi : Nat → List Nat) : Prop where
  once : heads.Nodup
  topological : OrderRespects (fun x p => p ∈ par x) heads
  noSelf : ∀ v ∈ heads, v ∉ par v
  parents : ∀ v ∈ heads, ∀ p ∈ par v, p ∈ heads
  children : ∀ p ∈ heads, ∀ v, v ∈ chi p ↔ v ∈ heads ∧ p ∈ par v

/-- No head work has a smaller priority number than a head work it depends on. -/
def PrioritiesAgree (prio : Nat → Int) (heads : List Nat) (par : Nat → List Nat) : Prop :=
  ∀ x ∈ heads, ∀ p ∈ par x, prio p ≤ prio x

variable {heads : List Nat} {par chi : Nat → List Nat} {prio : Nat → Int}
variable {α : Type} [AddCommGroup α] [LinearOrder α] [IsOrderedAddMonoid α]

private theorem group_respects (hg : HeadGraph heads par chi) {g : List Nat} (hgm : g ∈ Priority.groups prio heads) :
    OrderRespects (fun x p => p ∈ par x) g :=
  List.Pairwise.sublist (Priority.groups_sublist hgm) hg.topological

/-- HEFT: every head work once, after all its predecessors, for all non-negative costs of works. -/
theorem heft_partial (hg : HeadGraph heads par chi) (hp : PrioritiesAgree prio heads par) (cost : Nat → α)
    (hc : ∀ v ∈ heads, 0 ≤ cost v) :
    (Heft.prioritize cost prio par heads).Perm heads ∧
      OrderRespects (fun x p => p ∈ par x) (Heft.prioritize cost prio par heads) := by
  have key : ∀ g ∈ Priority.groups prio heads, (Heft.prioritizeNodes cost par g).Perm g ∧
      OrderRespects (fun x y => y ∈ par x) (Heft.prioritizeNodes cost par g) := by
    intro g hgm
    have hsub := (Priority.groups_sublist hgm).subset
    exact Heft.prioritizeNodes_spec (fun v hv => hg.noSelf v (hsub hv)) (group_respects hg hgm)
      (fun v hv => hc v (hsub hv))
  exact Priority.groups_respect (fun g hgm => (key g hgm).1) (fun g hgm => (key g hgm).2)
    (fun x hx y _ hxy => hp x hx y hxy)

/-- The ranks HEFT sorts by are the (negated) costs of longest paths: a work's rank is zero if no path starts at it, else
minus its cost plus the smallest rank of its successors. -/
theorem heft_ranks_are_longest_paths (hg : HeadGraph heads par chi) (cost : Nat → α) :
    let rank := Heft.fordBellman heads (fun v => - cost v) par
    (∀ x ∈ heads, ∀ p ∈ par x, rank p ≤ rank x - cost p) ∧
      ∀ p, rank p = 0 ∨ ∃ x ∈ heads, p ∈ par x ∧ rank p = rank x - cost p := by
  obtain ⟨h1, h2⟩ := Heft.fordBellman_spec hg.noSelf hg.topological (fun v => - cost v)
  have hr : ∀ x ∈ heads, ∀ p ∈ par x, Heft.fordBellman heads (fun v => - cost v) par p
      ≤ Heft.fordBellman heads (fun v => - cost v) par x - cost p := by
    intro x hx p hp
    have := h1 (p, x, - cost p) (Heft.mem_edges.2 ⟨hx, hp, hg.parents x hx p hp, rfl⟩)
    simp only at this
    rwa [sub_eq_add_neg]
  refine ⟨hr, fun p => ?_⟩
  rcases h2 p with h | ⟨e, he, rfl, hle⟩
  · exact Or.inl h
  · right
    obtain ⟨m1, m2, -, m4⟩ := Heft.mem_edges.1 he
    refine ⟨e.2.1, m1, m2, le_antisymm (hr _ m1 _ m2) ?_⟩
    rw [m4] at hle
    rwa [sub_eq_add_neg]

/-- LFT: every head work once, after all its predecessors, for all non-negative durations. -/
theorem lft_partial (hg : HeadGraph heads par chi) (hp : PrioritiesAgree prio heads par) (dur : Nat → Int)
    (hd : ∀ v ∈ heads, 0 ≤ dur v) :
    (LFT.prioritize dur prio chi heads).Perm heads ∧
      OrderRespects (fun x p => p ∈ par x) (LFT.prioritize dur prio chi heads) := by
  unfold LFT.prioritize
  refine Priority.groups_respect (fun g _ => List.perm_insertionSort _ g) (fun g hgm => ?_)
    (fun x hx y _ hxy => hp x hx y hxy)
  have hsub := (Priority.groups_sublist hgm).subset
  refine insertionSort_respects _ g (group_respects hg hgm) ?_
  intro x hx y hy hxy
  exact LFT.lft_le hg.once hg.topological hg.noSelf (fun a ha b hb hab => (hg.children b hb a).2 ⟨ha, hab⟩) hd
    (hsub hx) (hsub hy) hxy

/-- Randomized LFT: whatever is drawn, the result has every head work once, after all its predecessors.  Priorities need
not agree with dependencies. -/
theorem randomized_lft (pick : Nat → Nat) (fuel : Nat) (order : List Nat)
    (h : LFT.prioritizeRandom par chi prio pick fuel heads = some (some order)) :
    order.Perm heads ∧ OrderRespects (fun x p => p ∈ par x) order := by
  unfold LFT.prioritizeRandom at h
  cases heads with
  | nil => simp at h
  | cons a as =>
    simp only [Option.map_eq_some_iff, Option.bind_eq_some_iff] at h
    obtain ⟨r, hr, sel, rfl, h⟩ := h
    split at h
    · rename_i hall
      rw [Option.some.injEq] at h
      subst h
      have htopo := LFT.randomLoop_spec fuel [a] [] sel hr (by simp)
      have hmem : ∀ v ∈ a :: as, v ∈ sel := by
        intro v hv
        have := List.all_eq_true.1 hall v hv
        simpa using this
      have hperm := List.perm_insertionSort (fun u v => sel.idxOf u ≤ sel.idxOf v) (a :: as)
      refine ⟨hperm, ?_⟩
      have : Std.Total (fun u v : Nat => sel.idxOf u ≤ sel.idxOf v) := ⟨fun u v => Nat.le_total _ _⟩
      have : IsTrans Nat (fun u v : Nat => sel.idxOf u ≤ sel.idxOf v) := ⟨fun _ _ _ h h' => Nat.le_trans h h'⟩
      refine List.Pairwise.imp_of_mem ?_
        (List.pairwise_insertionSort (fun u v : Nat => sel.idxOf u ≤ sel.idxOf v) (a :: as))
      intro x y hx hy hle hpar
      have := LFT.idxOf_lt_of_topo htopo (hmem x (hperm.mem_iff.1 hx)) hpar
      omega
    · simp at h

/-- Randomized LFT raises nothing and ends if the project start is the only work without predecessors. -/
theorem randomized_lft_ends (hg : HeadGraph heads par chi) (hne : heads ≠ [])
    (hsrc : ∀ v ∈ heads.tail, par v ≠ []) (pick : Nat → Nat) (fuel : Nat) (hf : heads.length ≤ fuel) :
    ∃ order, LFT.prioritizeRandom par chi prio pick fuel heads = some (some order) := by
  cases heads with
  | nil => exact absurd rfl hne
  | cons a as =>
    have inv : LFT.RandomInv par a (a :: as) [a] [] := by
      constructor
      · simp
      · simp
      · simp
      · simp
      · intro v _ _ h
        rcases h with rfl | ⟨p, -, hp⟩
        · simp
        · exact absurd hp (List.not_mem_nil)
      · simp
    obtain ⟨r, hr, hall⟩ := LFT.randomLoop_total (prio := prio) hg.topological hg.noSelf hg.parents hsrc hg.children pick
      fuel [a] [] inv (by simpa using hf)
    unfold LFT.prioritizeRandom
    simp only
    rw [hr]
    simp only [Option.map_some, Option.bind_some, Option.some.injEq]
    rw [if_pos (by rw [List.all_eq_true]; intro v hv; simpa using hall v hv)]
    exact ⟨_, rfl⟩

/-- Topological prioritization: no circular dependency is reported, and every head work comes once, after all its
predecessors, whatever the order inside the levels. -/
theorem topological_partial (hg : HeadGraph heads par chi) (hp : PrioritiesAgree prio heads par)
    (shuffle : List Nat → List Nat) (hs : ∀ l, (shuffle l).Perm l) :
    ∃ order, Topological.prioritize prio par shuffle heads = some order ∧ order.Perm heads ∧
      OrderRespects (fun x p => p ∈ par x) order := by
  let sort : List Nat → Option (List Nat) := fun g =>
    (toposort (g.map fun v => (v, (par v).filter fun p => p ∈ g))).map fun levels => levels.flatMap shuffle
  have key : ∀ g ∈ Priority.groups prio heads, ∃ o, sort g = some o ∧ o.Perm g ∧
      OrderRespects (fun x p => p ∈ par x) o := by
    intro g hgm
    have hsub := (Priority.groups_sublist hgm).subset
    have hnd : g.Nodup := hg.once.sublist (Priority.groups_sublist hgm)
    have hord := group_respects hg hgm
    have hkeys : Deps.keys (g.map fun v => (v, (par v).filter fun p => p ∈ g)) = g := by
      unfold Deps.keys
      rw [List.map_map]
      exact List.map_id _
    have hdep : ∀ x y, DependsOn (g.map fun v => (v, (par v).filter fun p => p ∈ g)) x y →
        x ∈ g ∧ y ∈ g ∧ y ∈ par x ∧ y ≠ x := by
      rintro x y ⟨hne, deps, hm, hy⟩
      obtain ⟨z, hz, heq⟩ := List.mem_map.1 hm
      rw [Prod.mk.injEq] at heq
      obtain ⟨rfl, rfl⟩ := heq
      rw [List.mem_filter] at hy
      exact ⟨hz, by simpa using hy.2, hy.1, hne⟩
    cases h : toposort (g.map fun v => (v, (par v).filter fun p => p ∈ g)) with
    | none =>
      exfalso
      obtain ⟨x, hx⟩ := toposort_none h
      have hidx : ∀ a b, Relation.TransGen (DependsOn (g.map fun v => (v, (par v).filter fun p => p ∈ g))) a b →
          g.idxOf b < g.idxOf a := by
        intro a b hab
        have one : ∀ a b, DependsOn (g.map fun v => (v, (par v).filter fun p => p ∈ g)) a b →
            g.idxOf b < g.idxOf a := fun a b hab => by
          obtain ⟨h1, h2, h3, h4⟩ := hdep a b hab
          exact idxOf_lt_of_respects hord h1 h2 h4 h3
        induction hab with
        | single h => exact one _ _ h
        | tail _ h ih => exact lt_trans (one _ _ h) ih
      exact lt_irrefl _ (hidx x x hx)
    | some levels =>
      obtain ⟨h1, h2, h3, -⟩ := toposort_some (by rw [hkeys]; exact hnd) h
      have hall : ∀ x, x ∈ levels.flatten ↔ x ∈ g := by
        intro x
        rw [h2]
        constructor
        · rintro ⟨e, he, hx⟩
          obtain ⟨z, hz, rfl⟩ := List.mem_map.1 he
          rcases hx with rfl | hx
          · exact hz
          · rw [List.mem_filter] at hx
            simpa using hx.2
        · intro hx
          exact ⟨(x, (par x).filter fun p => p ∈ g), List.mem_map.2 ⟨x, hx, rfl⟩, Or.inl rfl⟩
      obtain ⟨o1, o2⟩ := order_of_levels (shuffled := levels.map shuffle)
        (by rw [List.forall₂_map_left_iff]; exact List.forall₂_same.2 fun l _ => hs l) h1 h3
      refine ⟨levels.flatMap shuffle, by show Option.map _ _ = _; rw [h]; rfl, ?_, ?_⟩
      · rw [List.flatMap_def]
        exact o1.trans ((List.perm_ext_iff_of_nodup h1 hnd).2 hall)
      · rw [List.flatMap_def]
        refine List.Pairwise.imp_of_mem ?_ o2
        intro x y hx hy hxy hpar
        have hxg := (hall x).1 (o1.mem_iff.1 hx)
        have hyg := (hall y).1 (o1.mem_iff.1 hy)
        refine hxy ⟨?_, _, List.mem_map.2 ⟨x, hxg, rfl⟩, List.mem_filter.2 ⟨hpar, by simpa using hyg⟩⟩
        rintro rfl
        exact hg.noSelf _ (hsub hxg) hpar
  obtain ⟨o1, o2⟩ := Priority.groups_respect (r := fun x p => p ∈ par x) (f := fun g => (sort g).getD g)
    (nodes := heads) (prio := prio)
    (fun g hgm => by obtain ⟨o, ho, h1, -⟩ := key g hgm; rw [ho]; exact h1)
    (fun g hgm => by obtain ⟨o, ho, -, h2⟩ := key g hgm; rw [ho]; exact h2)
    (fun x hx y _ hxy => hp x hx y hxy)
  refine ⟨_, ?_, o1, o2⟩
  unfold Topological.prioritize
  have hm : ∀ gs : List (List Nat), (∀ g ∈ gs, ∃ o, sort g = some o) →
      gs.mapM sort = some (gs.map fun g => (sort g).getD g) := by
    intro gs
    induction gs with
    | nil => intro _; rfl
    | cons g gs ih =>
      intro h
      obtain ⟨o, ho⟩ := h g List.mem_cons_self
      rw [List.mapM_cons, ho, ih fun x hx => h x (List.mem_cons_of_mem _ hx)]
      simp [ho]
  rw [hm _ fun g hgm => by obtain ⟨o, ho, -⟩ := key g hgm; exact ⟨o, ho⟩, Option.map_some, List.flatMap_def]

/-! ### A concrete graph: 0 → 1, 2 → 3 -/

def demoPar : Nat → List Nat
  | 1 => [0]
  | 2 => [0]
  | 3 => [1, 2]
  | _ => []

def demoChi : Nat → List Nat
  | 0 => [1, 2]
  | 1 => [3]
  | 2 => [3]
  | _ => []

example : HeadGraph [0, 1, 2, 3] demoPar demoChi where
  once := by decide
  topological := by unfold OrderRespects; decide
  noSelf := by decide
  parents := by decide
  children := by
    intro p hp v
    simp only [List.mem_cons, List.not_mem_nil, or_false] at hp
    by_cases hv : v < 4
    · have : v = 0 ∨ v = 1 ∨ v = 2 ∨ v = 3 := by omega
      rcases hp with rfl | rfl | rfl | rfl <;> rcases this with rfl | rfl | rfl | rfl <;> decide
    · rcases hp with rfl | rfl | rfl | rfl <;> simp [demoChi] <;> omega

example : PrioritiesAgree (fun v => if v = 3 then 2 else 1) [0, 1, 2, 3] demoPar := by
  unfold PrioritiesAgree; decide

example : Heft.prioritize (fun v => if v = 2 then (5 : Int) else 1) (fun _ => 1) demoPar [0, 1, 2, 3]
    = [0, 2, 1, 3] := by decide

example : LFT.prioritize (fun v => if v = 2 then 5 else 1) (fun _ => 1) demoChi [0, 1, 2, 3] = [0, 1, 2, 3] := by decide

example : LFT.prioritizeRandom demoPar demoChi (fun _ => 1) (fun k => k) 4 [0, 1, 2, 3] = some (some [0, 1, 2, 3]) := by
  decide
example : LFT.prioritizeRandom demoPar demoChi (fun _ => 1) (fun k => k + 1) 4 [0, 1, 2, 3] = some (some [0, 2, 1, 3]) := by
  decide

example : Topological.prioritize (fun _ => 1) demoPar List.reverse [0, 1, 2, 3] = some [0, 2, 1, 3] := by decide

/-! ### Why `PrioritiesAgree` is needed -/

/-- Works 0 → 1 form an inseparable chain and 1 also depends on 2. -/
def chainGraph : Graph := ((Graph.empty.addParents 1 [(0, 0, .inseparable)]).addParents 1 [(2, 0, .finishStart)])

/-- Priorities that agree with all dependencies between works: 1, 5, 3. -/
def chainPriority : Nat → Int
  | 0 => 1
  | 1 => 5
  | _ => 3

/-- Not proved because false: "the orders of HEFT, LFT and topological prioritization are topological for all consistent
priorities".  Here the priorities of the works agree with all dependencies, the head 0 depends on 2 (through the chain), and
all three put 0 before 2. -/
theorem chain_priority_breaks_order :
    (∀ v ∈ [0, 1, 2], ∀ p ∈ chainGraph.parents v, chainPriority p ≤ chainPriority v) ∧
    Heads.collapse chainGraph [0, 2, 1] = some ([2, 0], [(0, [2]), (2, [])], [(0, []), (2, [0])]) ∧
    Heft.prioritize (fun _ => (1 : Int)) chainPriority (fun v => if v = 0 then [2] else []) [2, 0] = [0, 2] ∧
    LFT.prioritize (fun _ => 1) chainPriority (fun v => if v = 2 then [0] else []) [2, 0] = [0, 2] ∧
    Topological.prioritize chainPriority (fun v => if v = 0 then [2] else []) id [2, 0] = some [0, 2] := by
  refine ⟨by decide, by decide, by decide, by decide, by decide⟩

end Sampo.C20
