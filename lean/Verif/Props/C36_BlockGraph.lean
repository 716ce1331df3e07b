import Verif.Lemmas.Blocks
import Verif.Spec.Blocks

/-!
# C36: block graphs

The order of blocks and the whole work graph are right.  The copy of a block graph has all dependencies reversed
(`copy_reversed`); `to_work_graph` reads the copy the wrong way round as well, so that the two errors cancel.
-/

namespace Sampo.C36

open Blocks BlockGraph

variable {p : Plan}

/-- Blocks are processed in an order that contains every block once and puts it after all blocks it depends on. -/
theorem order_respects (h : p.Valid) : ∃ order, p.graph.toposort p.blocks.length = some order ∧ order.Nodup ∧
    (∀ b, b ∈ order ↔ b ∈ p.blocks) ∧ OrderRespects (fun b a => (a, b) ∈ p.edges) order := by
  have hnodes : p.graph.nodes = p.blocks := addEdges_nodes _ _
  have hto : ∀ a b, b ∈ p.graph.to_ a ↔ (a, b) ∈ p.edges := fun a b => mem_to
  have hcl : ∀ x ∈ p.graph.nodes, ∀ y ∈ p.graph.to_ x, y ∈ p.graph.nodes := by
    intro x _ y hy
    rw [hnodes]
    exact (h.known _ ((hto x y).mp hy)).2
  have hac : Acyclic fun a b => b ∈ p.graph.to_ a := by
    intro x hx
    exact h.acyclic x (Relation.TransGen.mono (fun a b h => (hto a b).mp h) _ _ hx)
  obtain ⟨order, ho⟩ := toposort_ends hcl (fuel := p.blocks.length) (by rw [hnodes])
  obtain ⟨h1, h2, h3⟩ := toposort_spec hac hcl ho
  refine ⟨order, ho, h1, fun b => by rw [h2, hnodes], pairwise_of_split ?_⟩
  intro pre x post he y hy hyx
  obtain ⟨p1, p2, rfl⟩ := List.append_of_mem hy
  have he' : order = (pre ++ x :: p1) ++ y :: p2 := by rw [he]; simp
  have hx := h3 _ _ _ he' x ((hto y x).mpr hyx)
  rw [he'] at h1
  exact (List.nodup_append.mp h1).2.2 x (by simp) x (List.mem_cons_of_mem _ hx) rfl

/-- In the work graph built for the blocks the start of a block follows the finish of another one exactly if it depends on
it. -/
theorem work_graph_links (h : p.Valid) (a b : Nat) : (Port.finish a, Port.start b) ∈ p.graph.links ↔ (a, b) ∈ p.edges := by
  have hnodes : p.graph.nodes = p.blocks := addEdges_nodes _ _
  unfold links
  dsimp only
  rw [List.mem_append, linkLoop_mem, copy_nodes, hnodes]
  constructor
  · rintro ((h1 | ⟨c, _, h2, ⟨_, h3⟩ | ⟨d, h3, h4⟩⟩) | h1)
    · cases h1
    · cases h3
    · cases h2; cases h4
      exact mem_to.mp (mem_copy_to.mp h3).2
    · obtain ⟨_, _, h1⟩ := List.mem_map.mp h1
      cases h1
  · intro hab
    exact Or.inl (Or.inr ⟨b, (h.known _ hab).2, rfl, Or.inr ⟨a, mem_copy_to.mpr
      ⟨by rw [hnodes]; exact (h.known _ hab).1, mem_to.mpr hab⟩, rfl⟩⟩)

private theorem copy_to_nil (h : p.Valid) {b : Nat} : p.graph.copy.to_ b = [] ↔ ∀ a, (a, b) ∉ p.edges := by
  have hnodes : p.graph.nodes = p.blocks := addEdges_nodes _ _
  rw [List.eq_nil_iff_forall_not_mem]
  refine forall_congr' fun a => not_congr ?_
  rw [mem_copy_to, hnodes]
  exact ⟨fun h => mem_to.mp h.2, fun hab => ⟨(h.known _ hab).1, mem_to.mpr hab⟩⟩

/-- The work graph built for the blocks hangs together: every block starts after the start of the project and finishes
before its end. -/
theorem work_graph_whole (h : p.Valid) {b : Nat} (hb : b ∈ p.blocks) :
    Relation.TransGen p.Leads .globalStart (.start b) ∧ Relation.TransGen p.Leads (.finish b) .globalEnd := by
  have hnodes : p.graph.nodes = p.blocks := addEdges_nodes _ _
  have hlink : ∀ a b, (a, b) ∈ p.edges → p.Leads (.finish a) (.start b) := fun a b hab => Or.inl ((work_graph_links h a b).mpr hab)
  classical
  constructor
  · by_contra hc
    obtain ⟨x, _, hx⟩ := cycle_of_successors (r := fun y x => (x, y) ∈ p.edges)
      (l := p.blocks.filter fun b => ¬ Relation.TransGen p.Leads .globalStart (.start b))
      (List.ne_nil_of_mem (List.mem_filter.mpr ⟨hb, by simpa using hc⟩)) (by
        intro x hx
        obtain ⟨h1, h2⟩ := List.mem_filter.mp hx
        have h2 : ¬ Relation.TransGen p.Leads .globalStart (.start x) := by simpa using h2
        by_cases hs : ∃ a, (a, x) ∈ p.edges
        · obtain ⟨a, ha⟩ := hs
          have hk := (h.known _ ha).1
          refine ⟨a, List.mem_filter.mpr ⟨hk, ?_⟩, ha⟩
          simp only [decide_eq_true_eq]
          exact fun hr => h2 ((hr.tail (Or.inr ⟨a, hk, rfl, rfl⟩)).tail (hlink a x ha))
        · push Not at hs
          refine absurd (Relation.TransGen.single (r := p.Leads) (Or.inl ?_)) h2
          unfold links
          refine List.mem_append_left _ ?_
          rw [linkLoop_mem, copy_nodes, hnodes]
          exact Or.inr ⟨x, h1, rfl, Or.inl ⟨(copy_to_nil h).mpr hs, rfl⟩⟩)
    exact h.acyclic x (Relation.transGen_swap.mp hx)
  · by_contra hc
    obtain ⟨x, _, hx⟩ := cycle_of_successors (r := fun x y => (x, y) ∈ p.edges)
      (l := p.blocks.filter fun b => ¬ Relation.TransGen p.Leads (.finish b) .globalEnd)
      (List.ne_nil_of_mem (List.mem_filter.mpr ⟨hb, by simpa using hc⟩)) (by
        intro x hx
        obtain ⟨h1, h2⟩ := List.mem_filter.mp hx
        have h2 : ¬ Relation.TransGen p.Leads (.finish x) .globalEnd := by simpa using h2
        by_cases hs : ∃ a, (x, a) ∈ p.edges
        · obtain ⟨a, ha⟩ := hs
          have hk := (h.known _ ha).2
          refine ⟨a, List.mem_filter.mpr ⟨hk, ?_⟩, ha⟩
          simp only [decide_eq_true_eq]
          exact fun hr => h2 (Relation.TransGen.head (hlink x a ha) (Relation.TransGen.head (Or.inr ⟨a, hk, rfl, rfl⟩) hr))
        · push Not at hs
          refine absurd (Relation.TransGen.single (r := p.Leads) (Or.inl ?_)) h2
          unfold links
          refine List.mem_append_right _ (List.mem_map.mpr ⟨x, ?_, rfl⟩)
          refine (linkLoop_last _ _ _ _ _).2.2 (by rw [copy_nodes, hnodes]; exact h1) fun y hy => ?_
          rw [linkLoop_mem] at hy
          rcases hy with hy | ⟨c, _, h3, ⟨_, h4⟩ | ⟨d, h4, h5⟩⟩
          · cases hy
          · cases h4
          · cases h5
            exact hs c (mem_to.mp (mem_copy_to.mp h4).2))
    exact h.acyclic x hx

/-- A plan of three blocks, given in the order 2, 1, 0, in which 0 comes before 1, and both before 2. -/
private def demo : Plan := ⟨[2, 1, 0], [(0, 2), (1, 2), (0, 1)]⟩

private theorem demo_valid : demo.Valid where
  known := by decide
  acyclic := by
    have key : ∀ a b, Relation.TransGen (fun a b => (a, b) ∈ demo.edges) a b → a < b := by
      intro a b h
      have hlt : ∀ x y, (x, y) ∈ demo.edges → x < y := by
        intro x y hxy
        simp only [demo, List.mem_cons, Prod.mk.injEq, List.not_mem_nil, or_false] at hxy
        omega
      induction h with
      | single h => exact hlt _ _ h
      | tail _ h ih => exact ih.trans (hlt _ _ h)
    intro x hx
    exact absurd (key x x hx) (Nat.lt_irrefl x)

example : demo.graph.toposort 3 = some [0, 1, 2] ∧ demo.graph.links =
    [(.finish 1, .start 2), (.finish 0, .start 2), (.finish 0, .start 1), (.globalStart, .start 0), (.finish 2, .globalEnd)] := by
  decide

/-- Not proved because false: in a copy of a block graph all dependencies are reversed. -/
theorem copy_reversed (h : p.Valid) (a b : Nat) : (b ∈ p.graph.copy.to_ a ↔ (b, a) ∈ p.edges) ∧
    (a ∈ p.graph.copy.from_ b ↔ (b, a) ∈ p.edges) := by
  have hnodes : p.graph.nodes = p.blocks := addEdges_nodes _ _
  have key : b ∈ p.graph.copy.to_ a ↔ (b, a) ∈ p.edges := by
    rw [mem_copy_to, hnodes]
    exact ⟨fun h => mem_to.mp h.2, fun hab => ⟨(h.known _ hab).1, mem_to.mpr hab⟩⟩
  refine ⟨key, ?_⟩
  rw [← key]
  unfold copy
  rw [mem_to, mem_from]

/-- Not proved because false: the copy of a valid plan may have dependencies that the plan does not have, and the order of its
blocks is wrong for the plan. -/
theorem copy_not_equal : ∃ p : Plan, p.Valid ∧ ∃ a b, b ∈ p.graph.to_ a ∧ b ∉ p.graph.copy.to_ a ∧ a ∈ p.graph.copy.to_ b ∧
    p.graph.copy.toposort 3 = some [2, 1, 0] :=
  ⟨demo, demo_valid, 0, 1, by decide⟩

end Sampo.C36
