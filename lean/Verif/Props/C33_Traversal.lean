import Verif.Lemmas.Traverse

/-!
# C33: the topological traversal

Edges of all types count.  `Reaches` is the reflexive transitive closure of "there is an edge from … to …".
-/

namespace Sampo.C33

variable {g : Graph} {start : Nat}

/-- If the traversal ends then it has yielded exactly the works reachable from the start, each once, and each after all
works with an edge to it. -/
theorem reachable_once_predecessors_first (hl : g.Linked) {fuel : Nat} {order : List Nat}
    (h : g.traverse fuel start = some order) :
    order.Nodup ∧ (∀ v, v ∈ order ↔ g.Reaches start v) ∧
      ∀ before v after, order = before ++ v :: after → ∀ p, g.Before p v → p ∈ before := by
  have inv := Graph.traverseLoop_sound hl fuel [start] [] order (Graph.travInv_init start) h
  refine ⟨inv.once, fun v => ⟨inv.reachV v, inv.mem_of_reaches hl⟩, ?_⟩
  rintro before v after heq p ⟨e, he, rfl⟩
  exact inv.parents before v after heq e he

/-- The traversal of a finite work graph ends after at most `(1 + number of edges)²` rounds of its loop. -/
theorem ends {nodes : List Nat} (hp : g.Project start nodes) {fuel : Nat}
    (hf : (1 + (nodes.map fun v => (g.edgesFrom v).length).sum) ^ 2 ≤ fuel) :
    ∃ order, g.traverse fuel start = some order ∧ order.Perm nodes := by
  obtain ⟨out, ho⟩ := Graph.traverseLoop_total hp _ [start] [] (Graph.travInv_init start) (le_refl _)
  have hm := Graph.traverseLoop_mono _ _ _ _ ho (fuel - (1 + (nodes.map fun v => (g.edgesFrom v).length).sum) ^ 2)
  have heq : ([start].length + g.outDeg (Graph.todo nodes [])) * ([start].length + g.outDeg (Graph.todo nodes []))
      + (fuel - (1 + (nodes.map fun v => (g.edgesFrom v).length).sum) ^ 2) = fuel := by
    have : Graph.todo nodes [] = nodes := by
      unfold Graph.todo
      exact List.filter_eq_self.2 (by simp)
    rw [this, ← pow_two]
    unfold Graph.outDeg
    simp only [List.length_singleton]
    omega
  rw [heq] at hm
  refine ⟨out, hm, ?_⟩
  obtain ⟨h1, h2, -⟩ := reachable_once_predecessors_first hp.linked hm
  refine (List.perm_ext_iff_of_nodup h1 hp.once).2 fun v => ?_
  rw [h2]
  refine ⟨fun hv => ?_, hp.reach v⟩
  induction hv with
  | refl => exact hp.start_mem
  | tail _ hstep ih =>
    obtain ⟨e, he, hf⟩ := Graph.from_of_before hp.linked hstep
    rw [← hf]
    exact (hp.closed _ ih).2 e he

/-- With finitely many reachable works the traversal ends exactly if their predecessors are all reachable too and there is
no cycle among them. -/
theorem ends_iff (hl : g.Linked) {nodes : List Nat} (hn : nodes.Nodup) (hr : ∀ v, v ∈ nodes ↔ g.Reaches start v) :
    (∃ fuel order, g.traverse fuel start = some order) ↔
      (∀ v ∈ nodes, ∀ p, g.Before p v → p ∈ nodes) ∧ ∀ v ∈ nodes, ¬ Relation.TransGen g.Before v v := by
  constructor
  · rintro ⟨fuel, order, h⟩
    obtain ⟨h1, h2, h3⟩ := reachable_once_predecessors_first hl h
    have hmem : ∀ v, v ∈ nodes ↔ v ∈ order := fun v => by rw [hr, h2]
    constructor
    · intro v hv p hpv
      rw [hmem] at hv ⊢
      obtain ⟨before, after, rfl⟩ := List.append_of_mem hv
      exact List.mem_append_left _ (h3 before v after rfl p hpv)
    · intro v hv
      exact Graph.acyclic_of_parents_first h1 h3 v ((hmem v).1 hv)
  · rintro ⟨h1, h2⟩
    have hp : g.Project start nodes := by
      refine ⟨hn, hl, (hr start).2 Relation.ReflTransGen.refl, ?_, fun v hv => (hr v).1 hv, h2⟩
      intro v hv
      refine ⟨fun e he => h1 v hv e.start ⟨e, he, rfl⟩, fun e he => ?_⟩
      exact (hr _).2 (Relation.ReflTransGen.tail ((hr v).1 hv) (Graph.before_of_from hl he))
    obtain ⟨order, ho, -⟩ := ends hp (le_refl _)
    exact ⟨_, order, ho⟩

/-! ### A concrete graph: start 0; 3 after 0 and 2; 1 after 0; 2 after 1 -/

def demo : Graph := Graph.ofEdges [⟨0, 3, 0, .finishStart⟩, ⟨0, 1, 0, .finishStart⟩, ⟨1, 2, 0, .inseparable⟩,
  ⟨2, 3, 0, .startStart⟩]

example : demo.Project 0 [0, 1, 2, 3] where
  once := by decide
  linked := Graph.linked_ofEdges _
  start_mem := by decide
  closed := Graph.closed_ofEdges (by decide)
  reach := by
    have e : ∀ p v, (p, v) ∈ [(0, 3), (0, 1), (1, 2)] → demo.Before p v := by
      intro p v h
      simp only [List.mem_cons, Prod.mk.injEq, List.not_mem_nil, or_false] at h
      rcases h with ⟨rfl, rfl⟩ | ⟨rfl, rfl⟩ | ⟨rfl, rfl⟩ <;> unfold Graph.Before <;> decide
    have h1 : demo.Reaches 0 1 := Relation.ReflTransGen.single (e 0 1 (by decide))
    intro v hv
    simp only [List.mem_cons, List.not_mem_nil, or_false] at hv
    rcases hv with rfl | rfl | rfl | rfl
    · exact Relation.ReflTransGen.refl
    · exact h1
    · exact h1.tail (e 1 2 (by decide))
    · exact Relation.ReflTransGen.single (e 0 3 (by decide))
  acyclic := Graph.acyclic_before_ofEdges id (by decide)

example : demo.traverse 25 0 = some [0, 1, 2, 3] := by decide

end Sampo.C33
