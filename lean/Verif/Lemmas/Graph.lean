import Verif.Spec.Graph
import Verif.Spec.Order

namespace Sampo.Graph

theorem linked_empty : empty.Linked := ⟨by simp [empty], by simp [empty], by simp [empty]⟩

theorem linked_addEdge {g : Graph} (h : g.Linked) (e : Edge) : (g.addEdge e).Linked := by
  refine ⟨?_, ?_, ?_⟩
  · intro v e' he
    unfold addEdge at he
    simp only at he
    split at he
    · rename_i hv
      rw [List.mem_append, List.mem_singleton] at he
      rcases he with he | rfl
      · exact h.finish v e' he
      · exact hv.symm
    · exact h.finish v e' he
  · intro v e' he
    unfold addEdge at he
    simp only at he
    split at he
    · rename_i hv
      rw [List.mem_append, List.mem_singleton] at he
      rcases he with he | rfl
      · exact h.start v e' he
      · exact hv.symm
    · exact h.start v e' he
  · intro e'
    have h1 : ((g.addEdge e).edgesTo e'.finish).count e' = (g.edgesTo e'.finish).count e' + if e' = e then 1 else 0 := by
      unfold addEdge
      simp only
      by_cases he : e' = e
      · subst he; simp
      · have : ¬ e = e' := fun h => he h.symm
        split <;> simp [List.count_append, this]
    have h2 : ((g.addEdge e).edgesFrom e'.start).count e' = (g.edgesFrom e'.start).count e' + if e' = e then 1 else 0 := by
      unfold addEdge
      simp only
      by_cases he : e' = e
      · subst he; simp
      · have : ¬ e = e' := fun h => he h.symm
        split <;> simp [List.count_append, this]
    rw [h1, h2, h.count e']

/-- Graphs built with `add_parents` are linked. -/
theorem linked_addParents {v : Nat} : ∀ {ps : List (Nat × Int × EdgeType)} {g : Graph}, g.Linked → (g.addParents v ps).Linked
  | [], _, h => h
  | p :: ps, g, h => linked_addParents (v := v) (ps := ps) (g := g.addEdge ⟨p.1, v, p.2.1, p.2.2⟩) (linked_addEdge h _)

/-- The graph with the given edges, built as `add_parents` does. -/
def ofEdges (l : List Edge) : Graph := l.foldl addEdge empty

theorem foldl_addEdge : ∀ (l : List Edge) (g : Graph),
    (∀ v, (l.foldl addEdge g).edgesTo v = g.edgesTo v ++ l.filter fun e => e.finish = v) ∧
    (∀ v, (l.foldl addEdge g).edgesFrom v = g.edgesFrom v ++ l.filter fun e => e.start = v)
  | [], g => by simp
  | e :: l, g => by
    obtain ⟨h1, h2⟩ := foldl_addEdge l (g.addEdge e)
    constructor
    · intro v
      rw [List.foldl_cons, h1, List.filter_cons]
      unfold addEdge
      by_cases h : e.finish = v
      · simp [h]
      · simp [h, Ne.symm h]
    · intro v
      rw [List.foldl_cons, h2, List.filter_cons]
      unfold addEdge
      by_cases h : e.start = v
      · simp [h]
      · simp [h, Ne.symm h]

theorem ofEdges_to (l : List Edge) (v : Nat) : (ofEdges l).edgesTo v = l.filter fun e => e.finish = v := by
  exact (foldl_addEdge l empty).1 v

theorem ofEdges_from (l : List Edge) (v : Nat) : (ofEdges l).edgesFrom v = l.filter fun e => e.start = v := by
  exact (foldl_addEdge l empty).2 v

theorem linked_ofEdges (l : List Edge) : (ofEdges l).Linked := by
  refine ⟨fun v e h => ?_, fun v e h => ?_, fun e => ?_⟩
  · rw [ofEdges_to, List.mem_filter] at h
    simpa using h.2
  · rw [ofEdges_from, List.mem_filter] at h
    simpa using h.2
  · rw [ofEdges_to, ofEdges_from, List.count_filter (by simp), List.count_filter (by simp)]

theorem chains_ofEdges {l : List Edge} (h : ∀ e ∈ l, ∀ e' ∈ l, e.type = .inseparable → e'.type = .inseparable →
    (e.finish = e'.finish → e.start = e'.start) ∧ (e.start = e'.start → e.finish = e'.finish)) : (ofEdges l).Chains := by
  refine ⟨?_, ?_⟩
  · rintro a b v ⟨e, he, rfl, ht⟩ ⟨e', he', rfl, ht'⟩
    rw [ofEdges_to, List.mem_filter] at he he'
    have h1 : e.finish = v := by simpa using he.2
    have h2 : e'.finish = v := by simpa using he'.2
    exact (h e he.1 e' he'.1 ht ht').1 (h1.trans h2.symm)
  · rintro a v w ⟨e, he, hs, ht⟩ ⟨e', he', hs', ht'⟩
    rw [ofEdges_to, List.mem_filter] at he he'
    have h1 : e.finish = v := by simpa using he.2
    have h2 : e'.finish = w := by simpa using he'.2
    rw [← h1, ← h2]
    exact (h e he.1 e' he'.1 ht ht').2 (hs.trans hs'.symm)

theorem closed_ofEdges {l : List Edge} {nodes : List Nat} (h : ∀ e ∈ l, e.start ∈ nodes ∧ e.finish ∈ nodes) :
    (ofEdges l).ClosedIn nodes := by
  intro v _
  rw [ofEdges_to, ofEdges_from]
  exact ⟨fun e he => (h e (List.mem_filter.1 he).1).1, fun e he => (h e (List.mem_filter.1 he).1).2⟩

theorem acyclic_ofEdges {l : List Edge} (rank : Nat → Nat) (h : ∀ e ∈ l, rank e.start < rank e.finish) :
    Acyclic (ofEdges l).DependsOn := by
  have key : ∀ a b, Relation.TransGen (ofEdges l).DependsOn a b → rank b < rank a := by
    have one : ∀ a b, (ofEdges l).DependsOn a b → rank b < rank a := by
      rintro a b ⟨e, he, rfl, -⟩
      rw [ofEdges_to, List.mem_filter] at he
      have h1 : e.finish = a := by simpa using he.2
      rw [← h1]
      exact h e he.1
    intro a b hab
    induction hab with
    | single h => exact one _ _ h
    | tail _ h ih => exact lt_trans (one _ _ h) ih
  intro x hx
  exact lt_irrefl _ (key x x hx)

theorem acyclic_before_ofEdges {l : List Edge} {nodes : List Nat} (rank : Nat → Nat)
    (h : ∀ e ∈ l, rank e.start < rank e.finish) : ∀ v ∈ nodes, ¬ Relation.TransGen (ofEdges l).Before v v := by
  have key : ∀ a b, Relation.TransGen (ofEdges l).Before a b → rank a < rank b := by
    have one : ∀ a b, (ofEdges l).Before a b → rank a < rank b := by
      rintro a b ⟨e, he, rfl⟩
      rw [ofEdges_to, List.mem_filter] at he
      have h1 : e.finish = b := by simpa using he.2
      rw [← h1]
      exact h e he.1
    intro a b hab
    induction hab with
    | single h => exact one _ _ h
    | tail _ h ih => exact lt_trans ih (one _ _ h)
  intro x _ hx
  exact lt_irrefl _ (key x x hx)

end Sampo.Graph
