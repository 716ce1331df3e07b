import Verif.Lemmas.Heads
import Verif.Lemmas.Traverse

namespace Sampo.Graph

theorem linked_foldl : ∀ (l : List Edge) {g : Graph}, g.Linked → (l.foldl addEdge g).Linked
  | [], _, h => h
  | e :: l, _, h => linked_foldl l (linked_addEdge h e)

/-- Edges from the start to the works without dependency predecessors. -/
def startEdges (g : Graph) (start : Nat) (nodes : List Nat) : List Edge :=
  (nodes.filter fun v => (g.parents v).isEmpty).map fun v => ⟨start, v, 0, .finishStart⟩

/-- Edges from the works without dependency successors to the finish. -/
def finishEdges (g : Graph) (finish : Nat) (nodes : List Nat) : List Edge :=
  (nodes.filter fun v => (g.children v).isEmpty).map fun v => ⟨v, finish, 0, .finishStart⟩

theorem linkStart_eq (start : Nat) : ∀ (nodes : List Nat) (g : Graph), nodes.Nodup →
    linkStart start nodes g = (g.startEdges start nodes).foldl addEdge g
  | [], g, _ => rfl
  | v :: vs, g, hn => by
    rw [List.nodup_cons] at hn
    unfold linkStart startEdges
    by_cases h : (g.parents v).isEmpty
    · rw [if_pos h, List.filter_cons_of_pos (by simpa using h), List.map_cons, List.foldl_cons]
      have ha : g.addParents v [(start, 0, .finishStart)] = g.addEdge ⟨start, v, 0, .finishStart⟩ := rfl
      rw [ha, linkStart_eq start vs _ hn.2]
      unfold startEdges
      have : (vs.filter fun w => ((g.addEdge ⟨start, v, 0, .finishStart⟩).parents w).isEmpty)
          = vs.filter fun w => (g.parents w).isEmpty := by
        apply List.filter_congr
        intro w hw
        have : w ≠ v := fun h => hn.1 (h ▸ hw)
        unfold parents addEdge
        simp [this]
      rw [this]
    · rw [if_neg h, List.filter_cons_of_neg (by simpa using h)]
      exact linkStart_eq start vs g hn.2

theorem fromNodes_eq {g : Graph} {start finish : Nat} {nodes : List Nat} (hn : nodes.Nodup) (hs : start ∉ nodes) :
    fromNodes g start finish nodes =
      if (nodes.filter fun v => (g.children v).isEmpty).isEmpty then none
      else some ((g.startEdges start nodes ++ g.finishEdges finish nodes).foldl addEdge g) := by
  unfold fromNodes
  rw [linkStart_eq start nodes g hn]
  have hch : ∀ v ∈ nodes, ((g.startEdges start nodes).foldl addEdge g).children v = g.children v := by
    intro v hv
    unfold children
    rw [(foldl_addEdge _ g).2 v]
    have : (g.startEdges start nodes).filter (fun e => decide (e.start = v)) = [] := by
      rw [List.filter_eq_nil_iff]
      intro e he
      unfold startEdges at he
      obtain ⟨w, -, rfl⟩ := List.mem_map.1 he
      have : start ≠ v := fun h => hs (h ▸ hv)
      simpa using this
    rw [this, List.append_nil]
  have hfil : (nodes.filter fun v => (((g.startEdges start nodes).foldl addEdge g).children v).isEmpty)
      = nodes.filter fun v => (g.children v).isEmpty := by
    apply List.filter_congr
    intro v hv
    rw [hch v hv]
  simp only
  rw [hfil]
  split
  · rfl
  · rw [List.foldl_append]
    unfold addParents finishEdges
    rw [List.foldl_map, List.foldl_map]

variable {g : Graph} {start finish : Nat} {nodes : List Nat}

theorem parents_isEmpty_iff (v : Nat) : (g.parents v).isEmpty = true ↔ ∀ p, ¬ g.DependsOn v p := by
  rw [List.isEmpty_iff, List.eq_nil_iff_forall_not_mem]
  exact forall_congr' fun p => not_congr (mem_parents v p)

theorem children_isEmpty_iff (hl : g.Linked) (v : Nat) : (g.children v).isEmpty = true ↔ ∀ c, ¬ g.DependsOn c v := by
  rw [List.isEmpty_iff, List.eq_nil_iff_forall_not_mem]
  exact forall_congr' fun p => not_congr (mem_children hl v p)

theorem mem_startEdges (e : Edge) : e ∈ g.startEdges start nodes ↔
    ∃ v ∈ nodes, (∀ p, ¬ g.DependsOn v p) ∧ e = ⟨start, v, 0, .finishStart⟩ := by
  unfold startEdges
  rw [List.mem_map]
  constructor
  · rintro ⟨v, hv, rfl⟩
    rw [List.mem_filter] at hv
    exact ⟨v, hv.1, (parents_isEmpty_iff v).1 hv.2, rfl⟩
  · rintro ⟨v, hv, h, rfl⟩
    exact ⟨v, List.mem_filter.2 ⟨hv, (parents_isEmpty_iff v).2 h⟩, rfl⟩

theorem mem_finishEdges (hl : g.Linked) (e : Edge) : e ∈ g.finishEdges finish nodes ↔
    ∃ v ∈ nodes, (∀ c, ¬ g.DependsOn c v) ∧ e = ⟨v, finish, 0, .finishStart⟩ := by
  unfold finishEdges
  rw [List.mem_map]
  constructor
  · rintro ⟨v, hv, rfl⟩
    rw [List.mem_filter] at hv
    exact ⟨v, hv.1, (children_isEmpty_iff hl v).1 hv.2, rfl⟩
  · rintro ⟨v, hv, h, rfl⟩
    exact ⟨v, List.mem_filter.2 ⟨hv, (children_isEmpty_iff hl v).2 h⟩, rfl⟩

theorem startEdges_nodup (hn : nodes.Nodup) : (g.startEdges start nodes).Nodup := by
  unfold startEdges
  exact (hn.sublist List.filter_sublist).map fun a b h => by simpa using h

theorem finishEdges_nodup (hn : nodes.Nodup) : (g.finishEdges finish nodes).Nodup := by
  unfold finishEdges
  exact (hn.sublist List.filter_sublist).map fun a b h => by simpa using h

end Sampo.Graph
