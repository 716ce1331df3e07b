import Verif.Lemmas.EditInsert
import Verif.Props.C33_Traversal
import Verif.Model.Sched
import Std.Data.String.ToNat

/-!
# C59: inserting a work or a graph

`work_inserted`: the new graph has all works and edges of the given one and the new work with exactly the given edges.
`graph_inserted`: the new graph has the works and edges of both graphs without the start and the finish of the inserted one,
and every inserted work comes after the chosen start and before the chosen finish.  Both are work graphs if the insertion
closes no cycle.

Neighbours that are given as plain nodes get the lag −1, which lets the new work overlap with its predecessors
(`plain_neighbours_overlap`).  The insertion raises an exception without parents or children (`no_neighbours_fails`) and if
the start of the inserted graph is linked to its finish (`direct_link_fails`).
-/

namespace Sampo.C59

open Graph

variable {g h : Graph} {start new mStart mFinish hStart hFinish : Nat} {nodes hNodes : List Nat} {ν μ : Nat → Nat}

/-- Inserting a work with given edges from works `ps` and to works `cs` of the graph (work, lag, type), such that no given
child comes before a given parent or is one.  The new graph is a work graph of all works and the new one.  Every old work has its edges in
order and then the given ones from the new work, the new work has the given edges, and old works reach each other as before
or through the new work. -/
theorem work_inserted (hp : g.Project start nodes) (hν : DistinctNames ν nodes) (hnew : ∀ v ∈ nodes, ν v ≠ new)
    {ps cs : List (Nat × Int × EdgeType)} (hps : ∀ p ∈ ps, p.1 ∈ nodes) (hcs : ∀ c ∈ cs, c.1 ∈ nodes) (hne : ps ≠ [])
    (hnc : cs ≠ []) (hcyc : ∀ p ∈ ps, ∀ c ∈ cs, ¬ g.Reaches c.1 p.1) :
    ∃ g', g.insertWork nodes ν new (.tuples ps) (.tuples cs) = some g' ∧
      g'.Project (ν start) (nodes.map ν ++ [new]) ∧
      g'.edgesTo new = ps.map (fun p => ⟨ν p.1, new, p.2.1, p.2.2⟩) ∧
      (∀ v ∈ nodes, g'.edgesTo (ν v) = (g.edgesTo v).map (Edge.rename ν) ++
        (cs.filter fun c => c.1 = v).map fun c => ⟨new, ν v, c.2.1, c.2.2⟩) ∧
      (∀ u ∈ nodes, ∀ v ∈ nodes, (g'.Reaches (ν u) (ν v) ↔
        g.Reaches u v ∨ (∃ p ∈ ps, g.Reaches u p.1) ∧ ∃ c ∈ cs, g.Reaches c.1 v)) := by
  have hn : new ∉ nodes.map ν := by
    intro hm
    obtain ⟨v, hv, h1⟩ := List.mem_map.mp hm
    exact hnew v hv h1
  have hM : ∀ e ∈ (nodes.flatMap g.edgesTo).map (Edge.rename ν), e.start ∈ nodes.map ν ∧ e.finish ∈ nodes.map ν := by
    intro e he
    obtain ⟨x, hx, rfl⟩ := List.mem_map.mp he
    have := closed_flatMap hp.linked hp.closed x hx
    exact ⟨List.mem_map_of_mem this.1, List.mem_map_of_mem this.2⟩
  have hpr := withWork_project hp hν hn hps hcs hne hcyc
  refine ⟨ofEdges (withWork g nodes ν new ps cs),
    insertWork_eq (ps := ps) (cs := cs) hp (by simp [Neighbours.reduce, hne]) (by simp [Neighbours.reduce, hnc]) hps hcs,
    hpr, ?_, ?_, ?_⟩
  · rw [ofEdges_to]
    unfold withWork
    rw [List.filter_append, List.filter_append, (List.filter_eq_nil_iff (l := (nodes.flatMap g.edgesTo).map _)).mpr,
      (List.filter_eq_nil_iff (l := cs.map _)).mpr, List.nil_append, List.append_nil, List.filter_eq_self.mpr]
    · intro e he
      obtain ⟨p, _, rfl⟩ := List.mem_map.mp he
      simp
    · intro e he h1
      obtain ⟨c, hc, rfl⟩ := List.mem_map.mp he
      exact hnew c.1 (hcs c hc) (by simpa using h1)
    · intro e he h1
      exact hn ((by simpa using h1 : e.finish = new) ▸ (hM e he).2)
  · intro v hv
    rw [ofEdges_to]
    unfold withWork
    rw [List.filter_append, List.filter_append, (List.filter_eq_nil_iff (l := ps.map _)).mpr, List.append_nil, List.filter_map]
    · congr 1
      · have := copy_edgesTo hp.linked hp.once hp.closed hν hv
        rw [copy_eq hp.linked, among_nil hp.closed, ofEdges_to] at this
        rw [← List.filter_map]
        exact this
      · rw [List.filter_map]
        have : cs.filter ((fun e : Edge => decide (e.finish = ν v)) ∘ fun c => ⟨new, ν c.1, c.2.1, c.2.2⟩) =
            cs.filter fun c => c.1 = v := by
          refine List.filter_congr fun c hc => ?_
          simp only [Function.comp]
          exact decide_eq_decide.mpr ⟨fun h1 => hν _ (hcs c hc) _ hv h1, fun h1 => by rw [h1]⟩
        rw [this]
        refine List.map_congr_left fun c hc => ?_
        have := (List.mem_filter.mp hc).2
        rw [(by simpa using this : c.1 = v)]
    · intro e he h1
      obtain ⟨p, hpp, rfl⟩ := List.mem_map.mp he
      exact hnew v hv (by simpa using Eq.symm (by simpa using h1 : new = ν v))
  · intro u hu v hv
    constructor
    · intro hr
      have key : ∀ {a b : Nat}, (ofEdges (withWork g nodes ν new ps cs)).Reaches a b → a = ν u →
          (∃ v ∈ nodes, b = ν v ∧ (g.Reaches u v ∨ (∃ p ∈ ps, g.Reaches u p.1) ∧ ∃ c ∈ cs, g.Reaches c.1 v)) ∨
          (b = new ∧ ∃ p ∈ ps, g.Reaches u p.1) := by
        intro a b hr ha
        induction hr with
        | refl => exact Or.inl ⟨u, hu, ha, Or.inl Relation.ReflTransGen.refl⟩
        | tail _ hb ih =>
          rcases withWork_edge hp hb with ⟨x, y, hx, hy, h1, h2, h5⟩ | ⟨h1, p, hpp, h2⟩ | ⟨h1, c, hc, h2⟩
          · rcases ih with ⟨w, hw, k1, k2⟩ | ⟨k1, _⟩
            · have := hν _ hw _ hx (k1.symm.trans h1)
              subst this
              refine Or.inl ⟨y, hy, h2, ?_⟩
              rcases k2 with k2 | ⟨k2, c, hc, k3⟩
              · exact Or.inl (k2.tail h5)
              · exact Or.inr ⟨k2, c, hc, k3.tail h5⟩
            · exact absurd (h1.symm.trans k1) (hnew x hx)
          · rcases ih with ⟨w, hw, k1, k2⟩ | ⟨k1, _⟩
            · have := hν _ hw _ (hps p hpp) (k1.symm.trans h2)
              subst this
              refine Or.inr ⟨h1, ?_⟩
              rcases k2 with k2 | ⟨k2, _⟩
              · exact ⟨p, hpp, k2⟩
              · exact k2
            · exact absurd (h2.symm.trans k1) (hnew _ (hps p hpp))
          · rcases ih with ⟨w, hw, k1, k2⟩ | ⟨_, k2⟩
            · exact absurd (k1.symm.trans h1) (hnew w hw)
            · exact Or.inl ⟨c.1, hcs c hc, h2, Or.inr ⟨k2, c, hc, Relation.ReflTransGen.refl⟩⟩
      rcases key hr rfl with ⟨w, hw, k1, k2⟩ | ⟨k1, _⟩
      · rw [hν v hv w hw k1]; exact k2
      · exact absurd k1 (hnew v hv)
    · rintro (hr | ⟨⟨p, hpp, h1⟩, c, hc, h2⟩)
      · exact withWork_reaches hp hu hr
      · refine ((withWork_reaches hp hu h1).tail (c := new) (before_ofEdges.mpr ?_)).trans
          (Relation.ReflTransGen.head (b := ν c.1) (before_ofEdges.mpr ?_) (withWork_reaches hp (hcs c hc) h2))
        · exact ⟨⟨ν p.1, new, p.2.1, p.2.2⟩, List.mem_append_left _ (List.mem_append_right _ (List.mem_map.mpr ⟨p, hpp, rfl⟩)),
            rfl, rfl⟩
        · exact ⟨⟨new, ν c.1, c.2.1, c.2.2⟩, List.mem_append_right _ (List.mem_map.mpr ⟨c, hc, rfl⟩), rfl, rfl⟩

/-- Neighbours given as plain nodes are finish-start neighbours with lag −1. -/
theorem plain_neighbours (ps cs : List Nat) : g.insertWork nodes ν new (.plain ps) (.plain cs) =
    g.insertWork nodes ν new (.tuples (ps.map fun p => (p, -1, .finishStart))) (.tuples (cs.map fun c => (c, -1, .finishStart))) := by
  unfold insertWork
  simp only [Neighbours.reduce, List.isEmpty_map]

/-- Inserting a graph between two works of another one, such that the second does not come before the first and is not the
first.  The inserted graph leads from its start to its finish, and the two are not linked directly.  The new graph is a work
graph of the works of the given graph and the inner works of the inserted one.  All edges of the given graph and all inner
edges of the inserted graph are kept; works that followed its start follow the first work without lag, and the second work
follows all works that were followed by its finish. -/
theorem graph_inserted (hp : g.Project start nodes) (hh : h.Project hStart hNodes) (hν : DistinctNames ν nodes)
    (hμ : DistinctNames μ hNodes) (hdiff : ∀ v ∈ nodes, ∀ w ∈ hNodes, ν v ≠ μ w) (h1 : mStart ∈ nodes) (h2 : mFinish ∈ nodes)
    (hcyc : ¬ g.Reaches mFinish mStart) (hf : hFinish ∈ hNodes) (hsf : hFinish ≠ hStart)
    (hlast : ∀ v ∈ hNodes, h.Reaches v hFinish) (hdirect : ¬ h.Before hStart hFinish) :
    ∃ g', g.insertGraph nodes ν mStart mFinish h hNodes μ hStart hFinish = some g' ∧
      g'.Project (ν start) (nodes.map ν ++ (hNodes.filter fun v => v ≠ hStart ∧ v ≠ hFinish).map μ) ∧
      (∀ v ∈ nodes, ∀ e : Edge, e ∈ g'.edgesTo (ν v) ↔ (∃ x ∈ g.edgesTo v, e = x.rename ν) ∨
        v = mFinish ∧ ∃ x ∈ h.edgesTo hFinish, e = ⟨μ x.start, ν v, 0, .finishStart⟩) ∧
      (∀ v ∈ hNodes, v ≠ hStart → v ≠ hFinish → ∀ e : Edge, e ∈ g'.edgesTo (μ v) ↔
        (∃ x ∈ h.edgesTo v, x.start ≠ hStart ∧ e = x.rename μ) ∨
        h.Before hStart v ∧ e = ⟨ν mStart, μ v, 0, .finishStart⟩) ∧
      (∀ v ∈ hNodes, v ≠ hStart → v ≠ hFinish → g'.Reaches (ν mStart) (μ v) ∧ g'.Reaches (μ v) (ν mFinish)) := by
  have hno : h.edgesFrom hFinish = [] := by
    rw [List.eq_nil_iff_forall_not_mem]
    intro e he
    have hb := before_of_from hh.linked he
    have hm := (hh.closed _ hf).2 e he
    exact hh.acyclic _ hf (Relation.TransGen.head'_iff.mpr ⟨_, hb, hlast _ hm⟩)
  have ci : CanInsert g start nodes ν mStart mFinish h hNodes μ hStart hFinish :=
    ⟨hp, hh, hν, hμ, hdiff, h1, h2, hf, hsf, hno, hdirect⟩
  have hpr := ci.project hcyc
  have hinner : hNodes.filter (fun v => decide (v ≠ hStart ∧ v ≠ hFinish)) = innerNodes hNodes hStart hFinish := by
    unfold innerNodes
    refine List.filter_congr fun v _ => ?_
    rw [Bool.eq_iff_iff]; simp
  refine ⟨_, ci.insertGraph_eq, by rw [hinner]; exact hpr, ?_, ?_, ?_⟩
  · intro v hv e
    rw [ofEdges_to, List.mem_filter, decide_eq_true_eq]
    unfold withGraph
    simp only [List.mem_append, List.mem_map]
    constructor
    · rintro ⟨((⟨x, hx, rfl⟩ | ⟨x, hx, rfl⟩) | ⟨x, hx, rfl⟩) | ⟨x, hx, rfl⟩, hv'⟩
      · obtain ⟨m1, m2⟩ := (mem_nodes_flatMap hp).mp hx
        have := hν _ m1 _ hv hv'
        rw [this] at m2
        exact Or.inl ⟨x, m2, rfl⟩
      · obtain ⟨_, _, m2⟩ := (mem_among hh.linked).mp hx
        exact absurd hv'.symm (hdiff v hv _ m2.1)
      · exact absurd hv'.symm (hdiff v hv _ (mem_inner.mp (ci.from_start hx)).1)
      · have hvm := hν _ hv _ h2 hv'.symm
        exact Or.inr ⟨hvm, x, hx, by rw [hvm]⟩
    · rintro (⟨x, hx, rfl⟩ | ⟨rfl, x, hx, rfl⟩)
      · have := hp.linked.finish _ x hx
        subst this
        exact ⟨Or.inl (Or.inl (Or.inl ⟨x, (mem_nodes_flatMap hp).mpr ⟨hv, hx⟩, rfl⟩)), rfl⟩
      · exact ⟨Or.inr ⟨x, hx, rfl⟩, rfl⟩
  · intro v hv hvs hvf e
    rw [ofEdges_to, List.mem_filter, decide_eq_true_eq]
    unfold withGraph
    simp only [List.mem_append, List.mem_map]
    constructor
    · rintro ⟨((⟨x, hx, rfl⟩ | ⟨x, hx, rfl⟩) | ⟨x, hx, rfl⟩) | ⟨x, hx, rfl⟩, hv'⟩
      · obtain ⟨m1, m2⟩ := (mem_nodes_flatMap hp).mp hx
        exact absurd hv' (hdiff _ m1 _ hv)
      · obtain ⟨m0, m1, m2⟩ := (mem_among hh.linked).mp hx
        have := hμ _ m2.1 _ hv hv'
        subst this
        refine Or.inl ⟨x, m0, ?_, rfl⟩
        simp only [List.mem_cons, List.not_mem_nil, or_false, not_or] at m1
        exact m1.2.1
      · have := hμ _ (mem_inner.mp (ci.from_start hx)).1 _ hv hv'
        subst this
        exact Or.inr ⟨before_of_from hh.linked hx, rfl⟩
      · exact absurd hv' (hdiff _ h2 _ hv)
    · rintro (⟨x, hx, hxs, rfl⟩ | ⟨hb, rfl⟩)
      · have := hh.linked.finish _ x hx
        subst this
        refine ⟨Or.inl (Or.inl (Or.inr ⟨x, (mem_among hh.linked).mpr ⟨hx, ⟨(hh.closed _ hv).1 x hx, ?_⟩, hv, ?_⟩, rfl⟩)), rfl⟩
        · simp only [List.mem_cons, List.not_mem_nil, or_false, not_or]
          refine ⟨hxs, fun hxf => ?_⟩
          obtain ⟨e, he, _⟩ := from_of_before hh.linked (show h.Before hFinish x.finish from ⟨x, hx, hxf⟩)
          rw [hno] at he; cases he
        · simp only [List.mem_cons, List.not_mem_nil, or_false, not_or]
          exact ⟨hvs, hvf⟩
      · obtain ⟨x, hx, rfl⟩ := from_of_before hh.linked hb
        exact ⟨Or.inl (Or.inr ⟨x, hx, rfl⟩), rfl⟩
  · intro v hv hvs hvf
    have hi := mem_inner.mpr ⟨hv, hvs, hvf⟩
    exact ⟨ci.start_reaches hi, ci.reaches_finish hi (hlast v hv)⟩

/-- Numbering the works from `offset > 0` gives them the numbers `offset`, `offset + 1`, ... as different ids. -/
theorem ids_simplified {offset : Nat} (ho : 0 < offset) (fresh : Nat → String) (ids : List String) :
    simplifiedIds offset fresh ids = (List.range ids.length).map (fun i => toString (offset + i)) ∧
      (simplifiedIds offset fresh ids).Nodup := by
  have key : simplifiedIds offset fresh ids = (List.range ids.length).map (fun i => toString (offset + i)) := by
    unfold simplifiedIds
    refine List.ext_getElem (by simp) fun i hi1 hi2 => ?_
    rw [List.getElem_mapIdx, List.getElem_map, List.getElem_range]
    obtain ⟨k, hk⟩ : ∃ k, offset + i = k + 1 := ⟨offset + i - 1, by omega⟩
    rw [hk]; rfl
  refine ⟨key, ?_⟩
  rw [key]
  refine List.Nodup.map (fun a b hab => ?_) List.nodup_range
  have := Nat.repr_injective hab
  omega

/-! ### Examples -/

private def demo : Graph := ofEdges [⟨0, 1, 0, .finishStart⟩, ⟨0, 2, 0, .finishStart⟩, ⟨1, 3, 2, .lagFinishStart⟩, ⟨2, 3, 0, .finishStart⟩]

private theorem demo_project : demo.Project 0 [0, 1, 2, 3] where
  once := by decide
  linked := linked_ofEdges _
  start_mem := by decide
  closed := closed_ofEdges (by decide)
  reach := by
    intro v hv
    rcases (by simpa using hv : v = 0 ∨ v = 1 ∨ v = 2 ∨ v = 3) with rfl | rfl | rfl | rfl
    · exact Relation.ReflTransGen.refl
    · exact .single ⟨⟨0, 1, 0, .finishStart⟩, by decide, rfl⟩
    · exact .single ⟨⟨0, 2, 0, .finishStart⟩, by decide, rfl⟩
    · exact (Relation.ReflTransGen.single ⟨⟨0, 2, 0, .finishStart⟩, by decide, rfl⟩).tail ⟨⟨2, 3, 0, .finishStart⟩, by decide, rfl⟩
  acyclic := acyclic_before_ofEdges id (by decide)

private theorem demo_rank {a b : Nat} (h : demo.Reaches a b) : a ≤ b := by
  induction h with
  | refl => exact le_refl _
  | tail _ hb ih =>
    obtain ⟨e, he, rfl, rfl⟩ := before_ofEdges.mp hb
    have : ∀ e ∈ [(⟨0, 1, 0, .finishStart⟩ : Edge), ⟨0, 2, 0, .finishStart⟩, ⟨1, 3, 2, .lagFinishStart⟩,
      ⟨2, 3, 0, .finishStart⟩], e.start ≤ e.finish := by decide
    exact le_trans ih (this e he)

-- a work between 1 and 3: the hypotheses of `work_inserted` hold
example : (∀ p ∈ [((1 : Nat), (4 : Int), EdgeType.lagFinishStart)], ∀ c ∈ [((3 : Nat), (0 : Int), EdgeType.finishStart)],
    ¬ demo.Reaches c.1 p.1) ∧ DistinctNames (· + 10) [0, 1, 2, 3] ∧ ∀ v ∈ [0, 1, 2, 3], v + 10 ≠ 20 := by
  refine ⟨?_, fun _ _ _ _ h => Nat.add_right_cancel h, by decide⟩
  intro p hp c hc hr
  rw [List.mem_singleton.mp hp, List.mem_singleton.mp hc] at hr
  exact absurd (demo_rank hr) (by decide)

-- the graph itself inserted between its works 1 and 3: the hypotheses of `graph_inserted` hold
example : (∀ v ∈ [0, 1, 2, 3], ∀ w ∈ [0, 1, 2, 3], v + 10 ≠ w + 20) ∧ ¬ demo.Reaches 3 1 ∧
    (∀ v ∈ [0, 1, 2, 3], demo.Reaches v 3) ∧ ¬ demo.Before 0 3 ∧
    ((demo.insertGraph [0, 1, 2, 3] (· + 10) 1 3 demo [0, 1, 2, 3] (· + 20) 0 3).map (·.edgesTo 13)) =
      some [⟨11, 13, 2, .lagFinishStart⟩, ⟨12, 13, 0, .finishStart⟩, ⟨21, 13, 0, .finishStart⟩, ⟨22, 13, 0, .finishStart⟩] := by
  refine ⟨by decide, fun h => absurd (demo_rank h) (by decide), ?_, by unfold Before; decide, by decide +kernel⟩
  have h1 : demo.Reaches 1 3 := .single ⟨⟨1, 3, 2, .lagFinishStart⟩, by decide, rfl⟩
  intro v hv
  rcases (by simpa using hv : v = 0 ∨ v = 1 ∨ v = 2 ∨ v = 3) with rfl | rfl | rfl | rfl
  · exact demo_project.reach 3 (by decide)
  · exact h1
  · exact .single ⟨⟨2, 3, 0, .finishStart⟩, by decide, rfl⟩
  · exact Relation.ReflTransGen.refl

/-! ### Where the property does not hold -/

/-- Not proved because false: a work inserted after plain parents may start before they have finished.  Work 9 is inserted
between 1 and 3; when 1 is done from 0 to 5, it may start at 4. -/
theorem plain_neighbours_overlap : demo.Project 0 [0, 1, 2, 3] ∧ ∃ g',
    demo.insertWork [0, 1, 2, 3] id 9 (.plain [1]) (.plain [3]) = some g' ∧
    minStart ((g'.edgesTo 9).map fun e => (e.start, e.lag)) [(1, { start := 0, finish := 5, team := [], contractor := 0 })] = 4 :=
  ⟨demo_project, _, rfl, by decide +kernel⟩

/-- Not proved because false: a work without given parents or without given children cannot be inserted. -/
theorem no_neighbours_fails (parents children : Neighbours) (he : parents = .plain [] ∨ children = .plain []) :
    g.insertWork nodes ν new parents children = none := by
  unfold insertWork
  rcases he with rfl | rfl
  · rfl
  · cases parents.reduce <;> rfl

/-- Not proved because false: a graph whose start is linked to its finish cannot be inserted. -/
theorem direct_link_fails (hl : h.Linked) (hb : h.Before hStart hFinish) :
    g.insertGraph nodes ν mStart mFinish h hNodes μ hStart hFinish = none := by
  unfold insertGraph
  dsimp only
  rw [if_neg]
  rintro ⟨h1, _⟩
  obtain ⟨e, he, hf⟩ := from_of_before hl hb
  have := (List.mem_filter.mp (h1 e he)).2
  rw [hf] at this
  simp at this

/-- Not proved because false: numbering from 0 gives the first work a random id. -/
theorem first_id_random (fresh : Nat → String) (id : String) (ids : List String) :
    (simplifiedIds 0 fresh (id :: ids)).head? = some (fresh 0) := by
  unfold simplifiedIds
  rw [List.mapIdx_cons]; rfl

end Sampo.C59
