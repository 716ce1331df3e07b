import Verif.Lemmas.Serialize
import Verif.Props.C33_Traversal

/-!
# C31: serialization of work graphs

The `nodes` of a work graph are the traversal from its start (C33); they are written with their parent edges and read back.
The work units themselves (name, volume, requirements …) are opaque here.

Works, edges, lags, types, start and finish survive (`round_trip_partial`).  "In the same order" is false
(`order_can_change`): the rebuilt graph stores the outgoing edges of a work in the order of its successors in `nodes`, and the
traversal depends on that order.
-/

namespace Sampo.C31

variable {g : Graph} {start finish : Nat} {nodes order : List Nat}

/-- Reading back what was written succeeds and gives the same start, the same finish (the work all works lead to), the same
parent edges of every work in the same order, and the same outgoing edges of every work up to order. -/
theorem round_trip_partial (hp : g.Project start nodes) (hfin : finish ∈ nodes) (hlead : ∀ v ∈ nodes, g.Reaches v finish)
    {fuel : Nat} (ho : g.traverse fuel start = some order) :
    ∃ g' : Graph, Graph.deserialize (g.serialize order) = some (start, finish, g') ∧ g'.Project start nodes ∧
      ∀ v ∈ nodes, g'.edgesTo v = g.edgesTo v ∧ (g'.edgesFrom v).Perm (g.edgesFrom v) := by
  obtain ⟨h1, h2, h3⟩ := C33.reachable_once_predecessors_first hp.linked ho
  have hmem : ∀ v, v ∈ order ↔ v ∈ nodes := by
    obtain ⟨o, hoo, hperm⟩ := C33.ends hp (le_refl _)
    intro v
    rw [h2, ← (C33.reachable_once_predecessors_first hp.linked hoo).2.1 v, hperm.mem_iff]
  have hcl : g.ClosedIn order := by
    intro v hv
    rw [hmem] at hv
    exact ⟨fun e he => (hmem _).2 ((hp.closed v hv).1 e he), fun e he => (hmem _).2 ((hp.closed v hv).2 e he)⟩
  obtain ⟨rest, hrest⟩ := Graph.head_of_parents_first ((hmem start).2 hp.start_mem) (fun v hv => (h2 v).1 hv) h3
  have hlast := Graph.last_of_parents_first ((hmem finish).2 hfin) h1 (fun v hv => hlead v ((hmem v).1 hv)) h3
  have hreb := Graph.rebuild_eq hp.linked order [] Graph.empty (by simpa using h3)
  have hto : ∀ v ∈ nodes, (Graph.ofEdges (order.flatMap g.edgesTo)).edgesTo v = g.edgesTo v := fun v hv => by
    rw [Graph.edgesTo_eq hp.linked h1, if_pos ((hmem v).2 hv)]
  have hbefore : ∀ p v, (Graph.ofEdges (order.flatMap g.edgesTo)).Before p v → g.Before p v := by
    rintro p v ⟨e, he, rfl⟩
    rw [Graph.edgesTo_eq hp.linked h1] at he
    split at he
    · exact ⟨e, he, rfl⟩
    · simp at he
  refine ⟨Graph.ofEdges (order.flatMap g.edgesTo), ?_, ?_, ?_⟩
  · unfold Graph.deserialize
    have e1 : (g.serialize order).head? = some (start, (g.edgesTo start).map fun e => (e.start, e.lag, e.type)) := by
      rw [hrest]; rfl
    have e2 : (g.serialize order).getLast? = some (finish, (g.edgesTo finish).map fun e => (e.start, e.lag, e.type)) := by
      unfold Graph.serialize
      rw [List.getLast?_map, hlast]
      rfl
    have e3 : (g.edgesTo start) = [] := by
      rw [List.eq_nil_iff_forall_not_mem]
      intro e he
      exact absurd (h3 [] start rest hrest e.start ⟨e, he, rfl⟩) List.not_mem_nil
    rw [e1, e2, hreb]
    simp [e3, Graph.ofEdges]
  · refine ⟨hp.once, Graph.linked_ofEdges _, hp.start_mem, ?_, ?_, ?_⟩
    · apply Graph.closed_ofEdges
      intro e he
      obtain ⟨v, hv, he⟩ := List.mem_flatMap.1 he
      have hv' := (hmem v).1 hv
      exact ⟨(hp.closed v hv').1 e he, by rw [hp.linked.finish v e he]; exact hv'⟩
    · intro v hv
      have : ∀ w, g.Reaches start w → (Graph.ofEdges (order.flatMap g.edgesTo)).Reaches start w := by
        intro w hw
        induction hw with
        | refl => exact Relation.ReflTransGen.refl
        | tail hab hbc ih =>
          refine ih.tail ?_
          obtain ⟨e, he, rfl⟩ := hbc
          refine ⟨e, ?_, rfl⟩
          rw [hto _ ((hmem _).1 ((h2 _).2 (hab.tail ⟨e, he, rfl⟩)))]
          exact he
      exact this v (hp.reach v hv)
    · intro v hv hcyc
      exact hp.acyclic v hv (Relation.TransGen.mono hbefore v v hcyc)
  · intro v hv
    exact ⟨hto v hv, Graph.edgesFrom_perm hp.linked h1 hcl ((hmem v).2 hv)⟩

/-- The graph read back has the same works. -/
theorem same_works (hp : g.Project start nodes) (hfin : finish ∈ nodes) (hlead : ∀ v ∈ nodes, g.Reaches v finish)
    {fuel : Nat} (ho : g.traverse fuel start = some order) {g' : Graph}
    (hd : Graph.deserialize (g.serialize order) = some (start, finish, g')) :
    ∃ fuel' order', g'.traverse fuel' start = some order' ∧ order'.Perm order := by
  obtain ⟨g'', h1, h2, -⟩ := round_trip_partial hp hfin hlead ho
  rw [hd, Option.some.injEq, Prod.mk.injEq, Prod.mk.injEq] at h1
  obtain ⟨-, -, rfl⟩ := h1
  obtain ⟨o', ho', hperm'⟩ := C33.ends h2 (le_refl _)
  refine ⟨_, o', ho', hperm'.trans ?_⟩
  obtain ⟨k1, k2, -⟩ := C33.reachable_once_predecessors_first hp.linked ho
  obtain ⟨o, hoo, hperm⟩ := C33.ends hp (le_refl _)
  obtain ⟨m1, m2, -⟩ := C33.reachable_once_predecessors_first hp.linked hoo
  exact hperm.symm.trans ((List.perm_ext_iff_of_nodup m1 k1).2 fun v => by rw [m2, k2])

/-! ### A concrete graph, and why the order is not kept -/

/-- Seven works created in the order of their numbers: 1 after 0, 2 after 1, 3 after 0 and 2, 4 after 0 and 1, 5 after 4, 6
after 3 and 5. -/
def demo : Graph := Graph.ofEdges [⟨0, 1, 0, .finishStart⟩, ⟨1, 2, 0, .finishStart⟩, ⟨0, 3, 0, .finishStart⟩,
  ⟨2, 3, 0, .finishStart⟩, ⟨0, 4, 0, .finishStart⟩, ⟨1, 4, 3, .lagFinishStart⟩, ⟨4, 5, 0, .inseparable⟩,
  ⟨3, 6, 0, .finishStart⟩, ⟨5, 6, 0, .finishStart⟩]

private theorem demo_before {p v : Nat} (h : (p, v) ∈ [(0, 1), (1, 2), (0, 3), (2, 3), (0, 4), (4, 5), (3, 6), (5, 6)]) :
    demo.Before p v := by
  simp only [List.mem_cons, Prod.mk.injEq, List.not_mem_nil, or_false] at h
  rcases h with ⟨rfl, rfl⟩ | ⟨rfl, rfl⟩ | ⟨rfl, rfl⟩ | ⟨rfl, rfl⟩ | ⟨rfl, rfl⟩ | ⟨rfl, rfl⟩ | ⟨rfl, rfl⟩ | ⟨rfl, rfl⟩ <;>
    unfold Graph.Before <;> decide

private theorem demo_project : demo.Project 0 [0, 1, 2, 3, 4, 5, 6] where
  once := by decide
  linked := Graph.linked_ofEdges _
  start_mem := by decide
  closed := Graph.closed_ofEdges (by decide)
  reach := by
    have h1 : demo.Reaches 0 1 := Relation.ReflTransGen.single (demo_before (by decide))
    have h2 : demo.Reaches 0 2 := h1.tail (demo_before (by decide))
    have h3 : demo.Reaches 0 3 := h2.tail (demo_before (by decide))
    have h4 : demo.Reaches 0 4 := Relation.ReflTransGen.single (demo_before (by decide))
    have h5 : demo.Reaches 0 5 := h4.tail (demo_before (by decide))
    have h6 : demo.Reaches 0 6 := h5.tail (demo_before (by decide))
    intro v hv
    simp only [List.mem_cons, List.not_mem_nil, or_false] at hv
    rcases hv with rfl | rfl | rfl | rfl | rfl | rfl | rfl
    · exact Relation.ReflTransGen.refl
    all_goals assumption
  acyclic := Graph.acyclic_before_ofEdges id (by decide)

private theorem demo_lead : ∀ v ∈ [0, 1, 2, 3, 4, 5, 6], demo.Reaches v 6 := by
  have h6 : demo.Reaches 6 6 := Relation.ReflTransGen.refl
  have h5 : demo.Reaches 5 6 := Relation.ReflTransGen.head (demo_before (by decide)) h6
  have h4 : demo.Reaches 4 6 := Relation.ReflTransGen.head (demo_before (by decide)) h5
  have h3 : demo.Reaches 3 6 := Relation.ReflTransGen.head (demo_before (by decide)) h6
  have h2 : demo.Reaches 2 6 := Relation.ReflTransGen.head (demo_before (by decide)) h3
  have h1 : demo.Reaches 1 6 := Relation.ReflTransGen.head (demo_before (by decide)) h2
  have h0 : demo.Reaches 0 6 := Relation.ReflTransGen.head (demo_before (by decide)) h1
  intro v hv
  simp only [List.mem_cons, List.not_mem_nil, or_false] at hv
  rcases hv with rfl | rfl | rfl | rfl | rfl | rfl | rfl <;> assumption

/-- Not proved because false: "the works come back in the same order". -/
theorem order_can_change : demo.Project 0 [0, 1, 2, 3, 4, 5, 6] ∧ (∀ v ∈ [0, 1, 2, 3, 4, 5, 6], demo.Reaches v 6) ∧
    demo.traverse 30 0 = some [0, 1, 4, 2, 3, 5, 6] ∧
    ((Graph.deserialize (demo.serialize [0, 1, 4, 2, 3, 5, 6])).bind fun r => r.2.2.traverse 30 r.1)
      = some [0, 1, 4, 2, 5, 3, 6] :=
  ⟨demo_project, demo_lead, by decide, by decide⟩

end Sampo.C31
