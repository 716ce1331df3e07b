import Verif.Lemmas.FromNodes
import Verif.Props.C33_Traversal

/-!
# C32: building a work graph from nodes

`start` and `finish` are the two new service works; fresh works have no edges.
-/

namespace Sampo.C32

/-- The works given to `from_nodes` and the two new ones. -/
structure Input (g : Graph) (start finish : Nat) (nodes : List Nat) : Prop where
  once : nodes.Nodup
  linked : g.Linked
  start_new : start ∉ nodes
  finish_new : finish ∉ nodes
  distinct : start ≠ finish
  start_free : g.edgesTo start = [] ∧ g.edgesFrom start = []
  finish_free : g.edgesTo finish = [] ∧ g.edgesFrom finish = []

variable {g g' : Graph} {start finish : Nat} {nodes : List Nat}

/-- The edges of the graph built are the old ones and one finish-start edge without lag from the start to every given work
without dependency predecessor and from every given work without dependency successor to the finish. -/
theorem exact_edges (hi : Input g start finish nodes) (h : g.fromNodes start finish nodes = some g') :
    ∃ new : List Edge, new.Nodup ∧
      (∀ e, e ∈ new ↔ (∃ v ∈ nodes, (∀ p, ¬ g.DependsOn v p) ∧ e = ⟨start, v, 0, .finishStart⟩) ∨
        (∃ v ∈ nodes, (∀ c, ¬ g.DependsOn c v) ∧ e = ⟨v, finish, 0, .finishStart⟩)) ∧
      (∀ v, g'.edgesTo v = g.edgesTo v ++ new.filter fun e => e.finish = v) ∧
      (∀ v, g'.edgesFrom v = g.edgesFrom v ++ new.filter fun e => e.start = v) ∧ g'.Linked := by
  rw [Graph.fromNodes_eq hi.once hi.start_new] at h
  split at h
  · simp at h
  · rw [Option.some.injEq] at h
    subst h
    refine ⟨g.startEdges start nodes ++ g.finishEdges finish nodes, ?_, ?_, (Graph.foldl_addEdge _ g).1,
      (Graph.foldl_addEdge _ g).2, Graph.linked_foldl _ hi.linked⟩
    · rw [List.nodup_append]
      refine ⟨Graph.startEdges_nodup hi.once, Graph.finishEdges_nodup hi.once, ?_⟩
      intro a ha b hb hab
      obtain ⟨v, hv, -, rfl⟩ := (Graph.mem_startEdges a).1 ha
      obtain ⟨w, hw, -, rfl⟩ := (Graph.mem_finishEdges hi.linked b).1 hb
      rw [Edge.mk.injEq] at hab
      exact hi.start_new (hab.1 ▸ hw)
    · intro e
      rw [List.mem_append, Graph.mem_startEdges, Graph.mem_finishEdges hi.linked]

/-- The start has no predecessors and the finish no successors. -/
theorem source_and_sink (hi : Input g start finish nodes) (h : g.fromNodes start finish nodes = some g') :
    g'.edgesTo start = [] ∧ g'.edgesFrom finish = [] := by
  obtain ⟨new, -, hm, ht, hf, -⟩ := exact_edges hi h
  constructor
  · rw [ht, hi.start_free.1, List.nil_append, List.filter_eq_nil_iff]
    intro e he
    rcases (hm e).1 he with ⟨v, hv, -, rfl⟩ | ⟨v, hv, -, rfl⟩
    · have : v ≠ start := fun h => hi.start_new (h ▸ hv)
      simpa using this
    · simpa using hi.distinct.symm
  · rw [hf, hi.finish_free.2, List.nil_append, List.filter_eq_nil_iff]
    intro e he
    rcases (hm e).1 he with ⟨v, hv, -, rfl⟩ | ⟨v, hv, -, rfl⟩
    · simpa using hi.distinct
    · have : v ≠ finish := fun h => hi.finish_new (h ▸ hv)
      simpa using this

/-- Building raises exactly if every given work has a dependency successor (in particular for no works). -/
theorem error_iff (hi : Input g start finish nodes) :
    g.fromNodes start finish nodes = none ↔ ∀ v ∈ nodes, ∃ c, g.DependsOn c v := by
  rw [Graph.fromNodes_eq hi.once hi.start_new]
  constructor
  · intro h v hv
    split at h
    · rename_i he
      by_contra hno
      push Not at hno
      have hmem : v ∈ nodes.filter fun v => (g.children v).isEmpty :=
        List.mem_filter.2 ⟨hv, (Graph.children_isEmpty_iff hi.linked v).2 hno⟩
      rw [List.isEmpty_iff] at he
      rw [he] at hmem
      simp at hmem
    · simp at h
  · intro h
    rw [if_pos]
    rw [List.isEmpty_iff, List.filter_eq_nil_iff]
    intro v hv he
    obtain ⟨c, hc⟩ := h v hv
    exact (Graph.children_isEmpty_iff hi.linked v).1 he c hc

/-- For works without cycles whose edges stay among them, the result is a work graph: all works are reachable from the start
and lead to the finish, and there is still no cycle; so the traversal (C33) ends, begins with the start and ends with the
finish. -/
theorem project (hi : Input g start finish nodes) (hne : nodes ≠ []) (hcl : g.ClosedIn nodes)
    (hac : ∀ v ∈ nodes, ¬ Relation.TransGen g.Before v v) :
    ∃ g', g.fromNodes start finish nodes = some g' ∧ g'.Project start (start :: finish :: nodes) ∧
      ∀ v ∈ start :: finish :: nodes, g'.Reaches v finish := by
  have dep_before : ∀ {v p}, g.DependsOn v p → g.Before p v := fun ⟨e, he, hs, _⟩ => ⟨e, he, hs⟩
  have dep_mem : ∀ {v p}, g.DependsOn v p → v ∈ nodes → p ∈ nodes := by
    rintro v p ⟨e, he, rfl, -⟩ hv
    exact (hcl v hv).1 e he
  have dep_mem' : ∀ {v p}, g.DependsOn v p → p ∈ nodes → v ∈ nodes := by
    intro v p hd hp
    obtain ⟨e, he, rfl⟩ := Graph.from_of_before hi.linked (dep_before hd)
    exact (hcl p hp).2 e he
  cases h : g.fromNodes start finish nodes with
  | none =>
    exfalso
    have hall := (error_iff hi).1 h
    obtain ⟨x, hx, hcyc⟩ := cycle_of_successors (r := g.Before) hne (by
      intro x hx
      obtain ⟨c, hc⟩ := hall x hx
      exact ⟨c, dep_mem' hc hx, dep_before hc⟩)
    exact hac x hx hcyc
  | some g' =>
    refine ⟨g', rfl, ?_⟩
    obtain ⟨new, -, hm, ht, hf, hlinked⟩ := exact_edges hi h
    obtain ⟨hsrc, hsink⟩ := source_and_sink hi h
    have old : ∀ {p v}, g.Before p v → g'.Before p v := by
      rintro p v ⟨e, he, rfl⟩
      exact ⟨e, by rw [ht]; exact List.mem_append_left _ he, rfl⟩
    have newEdge : ∀ e ∈ new, g'.Before e.start e.finish := by
      intro e he
      exact ⟨e, by rw [ht, List.mem_append, List.mem_filter]; exact Or.inr ⟨he, by simp⟩, rfl⟩
    have inv : ∀ {p v}, g'.Before p v → g.Before p v ∨ (p = start ∧ v ∈ nodes) ∨ (v = finish ∧ p ∈ nodes) := by
      rintro p v ⟨e, he, rfl⟩
      rw [ht, List.mem_append, List.mem_filter] at he
      rcases he with he | ⟨he, hfv⟩
      · exact Or.inl ⟨e, he, rfl⟩
      · have hfv : e.finish = v := by simpa using hfv
        rcases (hm e).1 he with ⟨w, hw, -, rfl⟩ | ⟨w, hw, -, rfl⟩
        · exact Or.inr (Or.inl ⟨rfl, hfv ▸ hw⟩)
        · exact Or.inr (Or.inr ⟨hfv.symm, hw⟩)
    have noTo : ∀ {p}, ¬ g.Before p start := by
      rintro p ⟨e, he, -⟩
      rw [hi.start_free.1] at he
      simp at he
    have noTo' : ∀ {p}, ¬ g.Before p finish := by
      rintro p ⟨e, he, -⟩
      rw [hi.finish_free.1] at he
      simp at he
    have noFrom : ∀ {v}, ¬ g'.Before finish v := by
      intro v hb
      obtain ⟨e, he, -⟩ := Graph.from_of_before hlinked hb
      rw [hsink] at he
      simp at he
    have noTo2 : ∀ {p}, ¬ g'.Before p start := by
      rintro p ⟨e, he, -⟩
      rw [hsrc] at he
      simp at he
    have reach : ∀ v ∈ nodes, g'.Reaches start v := by
      classical
      by_contra hno
      push Not at hno
      obtain ⟨v, hv, hvr⟩ := hno
      obtain ⟨x, hx, hcyc⟩ := cycle_of_successors (r := fun a b => g.Before b a)
        (l := nodes.filter fun v => decide (¬ g'.Reaches start v)) (List.ne_nil_of_mem (List.mem_filter.2 ⟨hv, by simpa using hvr⟩)) (by
        intro x hx
        rw [List.mem_filter] at hx
        have hxr : ¬ g'.Reaches start x := by simpa using hx.2
        by_cases hd : ∀ p, ¬ g.DependsOn x p
        · exact absurd (Relation.ReflTransGen.single (newEdge _ ((hm _).2 (Or.inl ⟨x, hx.1, hd, rfl⟩)))) hxr
        · push Not at hd
          obtain ⟨p, hp⟩ := hd
          refine ⟨p, List.mem_filter.2 ⟨dep_mem hp hx.1, ?_⟩, dep_before hp⟩
          simp only [decide_eq_true_eq]
          exact fun hpr => hxr (hpr.tail (old (dep_before hp))))
      exact hac x (List.mem_filter.1 hx).1 (Relation.transGen_swap.1 hcyc)
    have lead : ∀ v ∈ nodes, g'.Reaches v finish := by
      classical
      by_contra hno
      push Not at hno
      obtain ⟨v, hv, hvr⟩ := hno
      obtain ⟨x, hx, hcyc⟩ := cycle_of_successors (r := g.Before)
        (l := nodes.filter fun v => decide (¬ g'.Reaches v finish)) (List.ne_nil_of_mem (List.mem_filter.2 ⟨hv, by simpa using hvr⟩)) (by
        intro x hx
        rw [List.mem_filter] at hx
        have hxr : ¬ g'.Reaches x finish := by simpa using hx.2
        by_cases hd : ∀ c, ¬ g.DependsOn c x
        · exact absurd (Relation.ReflTransGen.single (newEdge _ ((hm _).2 (Or.inr ⟨x, hx.1, hd, rfl⟩)))) hxr
        · push Not at hd
          obtain ⟨p, hp⟩ := hd
          refine ⟨p, List.mem_filter.2 ⟨dep_mem' hp hx.1, ?_⟩, dep_before hp⟩
          simp only [decide_eq_true_eq]
          exact fun hpr => hxr (Relation.ReflTransGen.head (old (dep_before hp)) hpr))
      exact hac x (List.mem_filter.1 hx).1 hcyc
    obtain ⟨v0, hv0⟩ := List.exists_mem_of_ne_nil _ hne
    have hsf : g'.Reaches start finish := (reach v0 hv0).trans (lead v0 hv0)
    refine ⟨⟨?_, hlinked, List.mem_cons_self, ?_, ?_, ?_⟩, ?_⟩
    · rw [List.nodup_cons, List.nodup_cons, List.mem_cons]
      exact ⟨fun hh => hh.elim hi.distinct hi.start_new, hi.finish_new, hi.once⟩
    · intro v hv
      constructor
      · intro e he
        rcases inv ⟨e, he, rfl⟩ with hb | ⟨h1, -⟩ | ⟨-, h1⟩
        · rw [List.mem_cons, List.mem_cons] at hv
          rcases hv with rfl | rfl | hv
          · exact absurd hb noTo
          · exact absurd hb noTo'
          · obtain ⟨e', he', hs⟩ := hb
            rw [← hs]
            exact List.mem_cons_of_mem _ (List.mem_cons_of_mem _ ((hcl v hv).1 e' he'))
        · rw [h1]; exact List.mem_cons_self
        · exact List.mem_cons_of_mem _ (List.mem_cons_of_mem _ h1)
      · intro e he
        have hb := Graph.before_of_from hlinked he
        rcases inv hb with hb | ⟨-, h1⟩ | ⟨h1, -⟩
        · rw [List.mem_cons, List.mem_cons] at hv
          obtain ⟨e', he', hs⟩ := Graph.from_of_before hi.linked hb
          rcases hv with rfl | rfl | hv
          · rw [hi.start_free.2] at he'; simp at he'
          · rw [hi.finish_free.2] at he'; simp at he'
          · rw [← hs]
            exact List.mem_cons_of_mem _ (List.mem_cons_of_mem _ ((hcl v hv).2 e' he'))
        · exact List.mem_cons_of_mem _ (List.mem_cons_of_mem _ h1)
        · rw [h1]; exact List.mem_cons_of_mem _ List.mem_cons_self
    · intro v hv
      rw [List.mem_cons, List.mem_cons] at hv
      rcases hv with rfl | rfl | hv
      · exact Relation.ReflTransGen.refl
      · exact hsf
      · exact reach v hv
    · have key : ∀ a b, Relation.TransGen g'.Before a b → Relation.TransGen g.Before a b ∨ a = start ∨ b = finish := by
        intro a b hab
        induction hab with
        | single h1 =>
          rcases inv h1 with h2 | ⟨h2, -⟩ | ⟨h2, -⟩
          · exact Or.inl (Relation.TransGen.single h2)
          · exact Or.inr (Or.inl h2)
          · exact Or.inr (Or.inr h2)
        | tail hab h1 ih =>
          rcases ih with ih | ih | ih
          · rcases inv h1 with h2 | ⟨h2, -⟩ | ⟨h2, -⟩
            · exact Or.inl (ih.tail h2)
            · subst h2
              obtain ⟨c, -, hc⟩ := Relation.TransGen.tail'_iff.1 ih
              exact absurd hc noTo
            · exact Or.inr (Or.inr h2)
          · exact Or.inr (Or.inl ih)
          · subst ih
            exact absurd h1 noFrom
      intro v hv hcyc
      rcases key v v hcyc with h1 | h1 | h1
      · rw [List.mem_cons, List.mem_cons] at hv
        obtain ⟨c, -, hc⟩ := Relation.TransGen.tail'_iff.1 h1
        rcases hv with rfl | rfl | hv
        · exact noTo hc
        · exact noTo' hc
        · exact hac v hv h1
      · subst h1
        obtain ⟨c, -, hc⟩ := Relation.TransGen.tail'_iff.1 hcyc
        exact noTo2 hc
      · subst h1
        obtain ⟨c, hc, -⟩ := Relation.TransGen.head'_iff.1 hcyc
        exact noFrom hc
    · intro v hv
      rw [List.mem_cons, List.mem_cons] at hv
      rcases hv with rfl | rfl | hv
      · exact hsf
      · exact Relation.ReflTransGen.refl
      · exact lead v hv

/-! ### A concrete case: works 1 → 2 and 3, start 8, finish 9 -/

def demo : Graph := Graph.ofEdges [⟨1, 2, 0, .finishStart⟩, ⟨2, 3, 0, .startStart⟩]

example : Input demo 8 9 [1, 2, 3] where
  once := by decide
  linked := Graph.linked_ofEdges _
  start_new := by decide
  finish_new := by decide
  distinct := by decide
  start_free := by decide
  finish_free := by decide

example : demo.ClosedIn [1, 2, 3] := Graph.closed_ofEdges (by decide)
example : ∀ v ∈ [1, 2, 3], ¬ Relation.TransGen demo.Before v v := Graph.acyclic_before_ofEdges id (by decide)
example : ((demo.fromNodes 8 9 [1, 2, 3]).bind fun g => g.traverse 40 8) = some [8, 1, 2, 3, 9] := by decide

end Sampo.C32
