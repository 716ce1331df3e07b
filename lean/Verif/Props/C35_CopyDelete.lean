import Verif.Lemmas.EditWork
import Verif.Props.C33_Traversal

/-!
# C35: copying a graph and deleting a work

`copy_same` and `copied_fields`: a copy has the same works and edges and the same requirements; priority, description and
display name are lost (`copy_loses_priority`).

Deleting a work keeps the rest if the work has only finish-start edges (plain, lagged, inseparable) and does not head an
inseparable chain (`delete_keeps_rest_partial`).  The head of a chain takes the chain with it, except for its last work
(`delete_chain_partial`, `chain_not_deleted`), and works with start-start or finish-finish edges are not deleted
(`work_not_deleted`).
-/

namespace Sampo.C35

variable {g : Graph} {start finish r : Nat} {nodes : List Nat} {ν : Nat → Nat}

/-- A copy is a work graph with the renamed works, with the same incoming edges of every work in the same order and the same
outgoing edges up to order. -/
theorem copy_same (hp : g.Project start nodes) (hν : DistinctNames ν nodes) :
    (g.copy nodes [] ν).Project (ν start) (nodes.map ν) ∧
    ∀ v ∈ nodes, (g.copy nodes [] ν).edgesTo (ν v) = (g.edgesTo v).map (Edge.rename ν) ∧
      ((g.copy nodes [] ν).edgesFrom (ν v)).Perm ((g.edgesFrom v).map (Edge.rename ν)) :=
  ⟨Graph.copy_project hp hν, fun _ hv =>
    ⟨Graph.copy_edgesTo hp.linked hp.once hp.closed hν hv, Graph.copy_edgesFrom hp.linked hp.once hp.closed hν hv⟩⟩

/-- Traversing the copy gives the copies of all works. -/
theorem copy_works (hp : g.Project start nodes) (hν : DistinctNames ν nodes) :
    ∃ fuel order, (g.copy nodes [] ν).traverse fuel (ν start) = some order ∧ order.Perm (nodes.map ν) := by
  obtain ⟨order, h1, h2⟩ := C33.ends (Graph.copy_project hp hν) (le_refl _)
  exact ⟨_, order, h1, h2⟩

/-- A copied work has the name, the requirements, the group, the volume and the service flag of the original. -/
theorem copied_fields {Reqs : Type} (w : WorkFields Reqs) (id : String) :
    (w.copy id).id = id ∧ (w.copy id).name = w.name ∧ (w.copy id).reqs = w.reqs ∧ (w.copy id).group = w.group ∧
      (w.copy id).service = w.service ∧ (w.copy id).volume = w.volume := ⟨rfl, rfl, rfl, rfl, rfl, rfl⟩

/-- The works of a graph after a deletion, as its traversal gives them. -/
private theorem works_of {g' : Graph} {s : Nat} {rest : List Nat} (h : g'.ProjectOf s rest) :
    ∃ fuel order, g'.traverse fuel s = some order ∧ order.Perm rest := by
  obtain ⟨order, h1, h2⟩ := C33.ends h (le_refl _)
  unfold Graph.traverse at h1
  rw [← h.traverse_only (by intro v hv; rw [List.mem_singleton.mp hv]; exact h.start_mem)] at h1
  exact ⟨_, order, h1, h2⟩

private theorem not_head_copy (hp : g.Project start nodes) (hν : DistinctNames ν nodes) (hr : r ∈ nodes)
    (hi : (∀ w, ¬ g.Follows r w) ∨ ∃ a, g.Follows a r) :
    (((g.copy nodes [] ν).insepSon (ν r)).isSome && ((g.copy nodes [] ν).insepParent (ν r)).isNone) = false := by
  rcases hi with h | ⟨a, h⟩
  · have : (g.copy nodes [] ν).insepSon (ν r) = none := by
      rw [Graph.insepSon_eq_none (Graph.copy_linked hp.linked)]
      intro s hs
      obtain ⟨u, v, hu, hv, h1, rfl, h3⟩ := Graph.copy_follows_inv hp hν hs
      rw [hν r hr u hu h1] at h
      exact h v h3
    rw [this]; rfl
  · have ha : a ∈ nodes := by
      obtain ⟨e, he, rfl, _⟩ := h
      exact (hp.closed r hr).1 e he
    have : (g.copy nodes [] ν).insepParent (ν r) ≠ none := by
      rw [Ne, Graph.insepParent_eq_none]
      intro h0
      exact h0 _ ((Graph.copy_follows hp hν hr ha).mpr h)
    cases hq : (g.copy nodes [] ν).insepParent (ν r) with
    | none => exact absurd hq this
    | some q => simp

/-- Deleting a work, neither the start nor the finish, that has only finish-start edges and does not head an inseparable
chain.  The new graph has all other works.  Every other work has its edges from other works, in order, and new plain ones
without lag: from every work the deleted one depended on, if it depended on the deleted one.  Between remaining works
"comes before" and "waits for" are the same as in the given graph. -/
theorem delete_keeps_rest_partial (hp : g.Project start nodes) (hν : DistinctNames ν nodes) (hfin : finish ∈ nodes)
    (hr : r ∈ nodes) (hrs : r ≠ start) (hrf : r ≠ finish) (hd : g.OnlyDependencies r)
    (hi : (∀ w, ¬ g.Follows r w) ∨ ∃ a, g.Follows a r) (fuel : Nat) :
    ∃ g' : Graph, g.deleteFrom fuel start finish nodes ν r = some (some (g', (nodes.erase r).map ν)) ∧
      (∃ fuel' order, g'.traverse fuel' (ν start) = some order ∧ order.Perm ((nodes.erase r).map ν)) ∧
      (∀ v ∈ nodes.erase r, ∃ added : List Edge,
        g'.edgesTo (ν v) = ((g.edgesTo v).filter fun e => e.start ≠ r).map (Edge.rename ν) ++ added ∧
        ∀ e, e ∈ added ↔ g.DependsOn v r ∧ ∃ p, g.DependsOn r p ∧ e = ⟨ν p, ν v, 0, .finishStart⟩) ∧
      (∀ u ∈ nodes.erase r, ∀ v ∈ nodes.erase r, (g'.Reaches (ν u) (ν v) ↔ g.Reaches u v)) ∧
      (∀ v ∈ nodes.erase r, ∀ p ∈ nodes.erase r, (g'.WaitsFor (ν v) (ν p) ↔ g.WaitsFor v p)) := by
  have hmem : ∀ {x : Nat}, x ∈ nodes.erase r ↔ x ≠ r ∧ x ∈ nodes := fun {x} => hp.once.mem_erase_iff
  have hpc := (Graph.copy_project hp hν)
  have hpo := hpc.projectOf
  have hrn : ν r ∈ nodes.map ν := List.mem_map_of_mem hr
  have hdc := Graph.copy_only hp hν hr hd
  have hne : ∀ {x : Nat}, x ∈ nodes → x ≠ r → ν x ≠ ν r := fun hx hxr h => hxr (hν _ hx _ hr h)
  have her : (nodes.map ν).erase (ν r) = (nodes.erase r).map ν := by
    rw [(Graph.nodup_map_names hν hp.once).erase_eq_filter, hp.once.erase_eq_filter, List.filter_map]
    congr 1
    refine List.filter_congr fun x hx => ?_
    simp only [Function.comp]
    rw [Bool.eq_iff_iff, bne_iff_ne, bne_iff_ne]
    exact ⟨fun h he => h (by rw [he]), hne hx⟩
  have hp' := hpo.delete_project hrn (hne hp.start_mem hrs.symm).symm hdc
  have hk := hpo.delete_keeps hrn (hne hp.start_mem hrs.symm).symm hdc
  rw [her] at hp' hk
  refine ⟨(g.copy nodes [] ν).deleteNode (ν r), ?_, works_of hp', ?_, ?_, ?_⟩
  · unfold Graph.deleteFrom Graph.deleteWork
    rw [not_head_copy hp hν hr hi]
    simp only [Bool.false_eq_true, if_false, Option.map_some, her]
    rw [if_pos]
    exact ⟨List.mem_map_of_mem (hmem.mpr ⟨hrs.symm, hp.start_mem⟩), List.mem_map_of_mem (hmem.mpr ⟨hrf.symm, hfin⟩)⟩
  · intro v hv
    obtain ⟨hvr, hvn⟩ := hmem.mp hv
    refine ⟨((g.copy nodes [] ν).bridges (ν r)).filter fun e => e.finish = ν v, ?_, ?_⟩
    · rw [Graph.deleteNode_to hpo.linked hrn hdc (List.mem_map_of_mem hvn), Graph.copy_edgesTo hp.linked hp.once hp.closed hν hvn]
      congr 1
      rw [List.filter_map]
      congr 1
      refine List.filter_congr fun e he => ?_
      simp only [Function.comp, Edge.rename]
      refine decide_eq_decide.mpr ⟨fun h hs => h (by rw [hs]), fun h => hne ((hp.closed v hvn).1 e he) h⟩
    · intro e
      rw [List.mem_filter, Graph.mem_bridges, decide_eq_true_eq]
      constructor
      · rintro ⟨⟨h1, h2, h3, h4⟩, h5⟩
        have b1 := hpo.mem_parents hrn h1
        have b2 := hpo.mem_children hrn h2
        rw [h5] at b2
        refine ⟨?_, ?_⟩
        · exact (Graph.copy_depends hp hν hvn hr).mp ((hpo.dependsOn_deleted_iff hrn hdc b2.1).mpr b2.2.2)
        · obtain ⟨p, hpn, hps⟩ := List.mem_map.mp b1.1
          refine ⟨p, (Graph.copy_depends hp hν hr hpn).mp ?_, ?_⟩
          · rw [hps]; exact (Graph.ProjectOf.dependsOn_iff hdc).mpr b1.2.2
          · obtain ⟨s, f, l, t⟩ := e
            dsimp only at h3 h4 h5 hps
            subst h3 h4 h5 hps; rfl
      · rintro ⟨h1, p, h2, rfl⟩
        have hpn := hp.projectOf.depends_mem hr h2
        refine ⟨⟨?_, ?_, rfl, rfl⟩, rfl⟩
        · exact hpo.parents_of hdc ((Graph.ProjectOf.dependsOn_iff hdc).mp ((Graph.copy_depends hp hν hr hpn).mpr h2))
        · exact hpo.children_of hrn hdc (List.mem_map_of_mem hvn) ((hpo.dependsOn_deleted_iff hrn hdc (List.mem_map_of_mem hvn)).mp
            ((Graph.copy_depends hp hν hvn hr).mpr h1))
  · intro u hu v hv
    rw [hk.reaches _ (List.mem_map_of_mem hu) _ (List.mem_map_of_mem hv),
      Graph.copy_reaches_iff hp hν (hmem.mp hu).2 (hmem.mp hv).2]
  · intro v hv p hpn
    rw [hk.waits _ (List.mem_map_of_mem hv) _ (List.mem_map_of_mem hpn),
      Graph.copy_waits hp hν (hmem.mp hv).2 (hmem.mp hpn).2]

/-- Deleting the head of an inseparable chain of works with finish-start edges only: the new graph has all works except those
of the chain that are followed by another one, and between them "comes before" and "waits for" are as before.  Missing: the
last work of the chain should be deleted too. -/
theorem delete_chain_partial (hp : g.Project start nodes) (hν : DistinctNames ν nodes) (hc : g.Chains) (hfin : finish ∈ nodes)
    (hr : r ∈ nodes) (hhead : ∀ a, ¬ g.Follows a r) {s : Nat} (hson : g.Follows r s)
    (hd : ∀ v, g.InChain r v → g.OnlyDependencies v) (hstart : ¬ g.InChain r start) (hfinish : ∀ w, ¬ g.Follows finish w) :
    ∃ g' rest, g.deleteFrom nodes.length start finish nodes ν r = some (some (g', rest)) ∧
      (∀ v ∈ nodes, (ν v ∈ rest ↔ ¬ (g.InChain r v ∧ ∃ w, g.Follows v w))) ∧
      (∃ fuel' order, g'.traverse fuel' (ν start) = some order ∧ order.Perm rest) ∧
      (∀ u v, ν u ∈ rest → ν v ∈ rest → u ∈ nodes → v ∈ nodes → (g'.Reaches (ν u) (ν v) ↔ g.Reaches u v)) ∧
      (∀ v p, ν v ∈ rest → ν p ∈ rest → v ∈ nodes → p ∈ nodes → (g'.WaitsFor (ν v) (ν p) ↔ g.WaitsFor v p)) := by
  have hsn : s ∈ nodes := Graph.follows_closed hp.linked hp.closed hr (Relation.ReflTransGen.single hson)
  obtain ⟨g', rest, h1, h2, h3, h4⟩ := Graph.deleteWork_chain (Graph.copy_project hp hν) (Graph.copy_chains hp hν hc)
    (List.mem_map_of_mem hfin) (List.mem_map_of_mem hr)
    (by
      intro a ha
      obtain ⟨u, v, hu, hv, _, h5, h6⟩ := Graph.copy_follows_inv hp hν ha
      rw [hν r hr v hv h5] at hhead
      exact hhead u h6)
    ((Graph.copy_follows hp hν hsn hr).mpr hson)
    (by
      intro b hb
      obtain ⟨v, hv, rfl, hi⟩ := Graph.copy_chain_inv hp hν hr hb
      exact Graph.copy_only hp hν hv (hd v hi))
    (by
      intro h
      exact hstart ((Graph.copy_inChain hp hν hr hp.start_mem).mp h))
    (by
      intro w hw
      obtain ⟨u, v, hu, hv, h5, _, h6⟩ := Graph.copy_follows_inv hp hν hw
      rw [hν finish hfin u hu h5] at hfinish
      exact hfinish v h6)
  rw [List.length_map] at h1
  refine ⟨g', rest, h1, ?_, works_of h3, ?_, ?_⟩
  · intro v hv
    rw [h2]
    have e1 := Graph.copy_inChain hp hν hr hv
    have e2 : (∃ w, (g.copy nodes [] ν).Follows (ν v) w) ↔ ∃ w, g.Follows v w := by
      constructor
      · rintro ⟨w, hw⟩
        obtain ⟨u, x, hu, hx, h5, _, h6⟩ := Graph.copy_follows_inv hp hν hw
        rw [hν v hv u hu h5]; exact ⟨x, h6⟩
      · rintro ⟨w, hw⟩
        have hwn := Graph.follows_closed hp.linked hp.closed hv (Relation.ReflTransGen.single hw)
        exact ⟨_, (Graph.copy_follows hp hν hwn hv).mpr hw⟩
    rw [e1, e2]
    exact ⟨fun h => h.2, fun h => ⟨List.mem_map_of_mem hv, h⟩⟩
  · intro u v hu hv hun hvn
    rw [h4.reaches _ hu _ hv, Graph.copy_reaches_iff hp hν hun hvn]
  · intro v p hv hpp hvn hpn
    rw [h4.waits _ hv _ hpp, Graph.copy_waits hp hν hvn hpn]

/-! ### Examples -/

/-- A start 0, works 1-5 and a finish 6; 2 and 3 follow 1 (3 with a lag), 4 follows 2 and 3, 5 is done right after 4. -/
private def demo : Graph := Graph.ofEdges [⟨0, 1, 0, .finishStart⟩, ⟨1, 2, 0, .finishStart⟩, ⟨1, 3, 2, .lagFinishStart⟩,
  ⟨2, 4, 0, .finishStart⟩, ⟨3, 4, 0, .finishStart⟩, ⟨4, 5, 0, .inseparable⟩, ⟨5, 6, 0, .finishStart⟩,
  ⟨2, 6, 0, .finishStart⟩]

private theorem demo_before {p v : Nat} (h : (p, v) ∈ [(0, 1), (1, 2), (1, 3), (2, 4), (4, 5), (5, 6)]) : demo.Before p v := by
  unfold Graph.Before
  rcases (by simpa using h : (p = 0 ∧ v = 1) ∨ (p = 1 ∧ v = 2) ∨ (p = 1 ∧ v = 3) ∨ (p = 2 ∧ v = 4) ∨ (p = 4 ∧ v = 5) ∨
    (p = 5 ∧ v = 6)) with ⟨rfl, rfl⟩ | ⟨rfl, rfl⟩ | ⟨rfl, rfl⟩ | ⟨rfl, rfl⟩ | ⟨rfl, rfl⟩ | ⟨rfl, rfl⟩ <;> decide

private theorem demo_project : demo.Project 0 [0, 1, 2, 3, 4, 5, 6] where
  once := by decide
  linked := Graph.linked_ofEdges _
  start_mem := by decide
  closed := Graph.closed_ofEdges (by decide)
  reach := by
    have h1 : demo.Reaches 0 1 := .single (demo_before (by decide))
    have h2 : demo.Reaches 0 2 := h1.tail (demo_before (by decide))
    have h3 : demo.Reaches 0 3 := h1.tail (demo_before (by decide))
    have h4 : demo.Reaches 0 4 := h2.tail (demo_before (by decide))
    have h5 : demo.Reaches 0 5 := h4.tail (demo_before (by decide))
    have h6 : demo.Reaches 0 6 := h5.tail (demo_before (by decide))
    intro v hv
    rcases (by simpa using hv : v = 0 ∨ v = 1 ∨ v = 2 ∨ v = 3 ∨ v = 4 ∨ v = 5 ∨ v = 6) with
      rfl | rfl | rfl | rfl | rfl | rfl | rfl
    · exact Relation.ReflTransGen.refl
    all_goals assumption
  acyclic := Graph.acyclic_before_ofEdges id (by decide)

private theorem demo_names (k : Nat) (l : List Nat) : DistinctNames (· + k) l := fun _ _ _ _ h => Nat.add_right_cancel h

-- work 2 can be deleted: the edges 1 → 4 and 1 → 6 take its place
example : demo.OnlyDependencies 2 ∧ (∀ w, ¬ demo.Follows 2 w) := by
  refine ⟨⟨by decide, by decide⟩, ?_⟩
  rintro w ⟨e, he, hs, ht⟩
  have := (List.mem_filter.mp ((Graph.ofEdges_to _ _) ▸ he)).1
  have key : ∀ e ∈ [(⟨0, 1, 0, .finishStart⟩ : Edge), ⟨1, 2, 0, .finishStart⟩, ⟨1, 3, 2, .lagFinishStart⟩,
    ⟨2, 4, 0, .finishStart⟩, ⟨3, 4, 0, .finishStart⟩, ⟨4, 5, 0, .inseparable⟩, ⟨5, 6, 0, .finishStart⟩,
    ⟨2, 6, 0, .finishStart⟩], e.start = 2 → e.type ≠ .inseparable := by decide
  exact key e this hs ht
example : ((demo.deleteFrom 7 0 6 [0, 1, 2, 3, 4, 5, 6] (· + 10) 2).map (Option.map fun r => (r.2, r.1.edgesTo 14, r.1.edgesTo 16))) =
    some (some ([10, 11, 13, 14, 15, 16], [⟨13, 14, 0, .finishStart⟩, ⟨11, 14, 0, .finishStart⟩],
      [⟨15, 16, 0, .finishStart⟩, ⟨11, 16, 0, .finishStart⟩])) := by decide +kernel

-- work 4 heads the chain of 4 and 5
example : demo.Chains ∧ (∀ a, ¬ demo.Follows a 4) ∧ demo.Follows 4 5 := by
  have key : ∀ {a b : Nat}, demo.Follows a b → a = 4 ∧ b = 5 := by
    rintro a b ⟨e, he, hs, ht⟩
    obtain ⟨h1, h2⟩ := List.mem_filter.mp ((Graph.ofEdges_to _ _) ▸ he)
    have : ∀ e ∈ [(⟨0, 1, 0, .finishStart⟩ : Edge), ⟨1, 2, 0, .finishStart⟩, ⟨1, 3, 2, .lagFinishStart⟩,
        ⟨2, 4, 0, .finishStart⟩, ⟨3, 4, 0, .finishStart⟩, ⟨4, 5, 0, .inseparable⟩, ⟨5, 6, 0, .finishStart⟩,
        ⟨2, 6, 0, .finishStart⟩], e.type = .inseparable → e.start = 4 ∧ e.finish = 5 := by decide
    have h3 := this e h1 ht
    exact ⟨hs.symm.trans h3.1, (by simpa using h2 : e.finish = b).symm.trans h3.2⟩
  refine ⟨⟨fun a b v h1 h2 => (key h1).1.trans (key h2).1.symm, fun a v w h1 h2 => (key h1).2.trans (key h2).2.symm⟩,
    fun a h => absurd (key h).2 (by decide), ⟨⟨4, 5, 0, .inseparable⟩, by decide, rfl, rfl⟩⟩

/-! ### Where the property does not hold -/

/-- Not proved because false: a copied work has priority 1 and its name as display name, whatever the original has. -/
theorem copy_loses_priority : ∃ w : WorkFields Unit, ∀ id, (w.copy id).priority ≠ w.priority ∧
    (w.copy id).description ≠ w.description ∧ (w.copy id).displayName ≠ w.displayName :=
  ⟨⟨"1", "walls", (), "main project", false, 5, "outer walls", 3, "Walls of house 1"⟩, fun _ =>
    by simp only [WorkFields.copy]; decide⟩

/-- Not proved because false: a work with a start-start edge is still in the graph after its deletion, if its predecessor in
that edge is not a predecessor by another edge.  The start is 0, the finish 3; work 2 may not start before work 1. -/
theorem work_not_deleted : ∃ (g : Graph) (nodes : List Nat), g.Project 0 nodes ∧ 2 ∈ nodes ∧ ∃ g' rest,
    g.deleteFrom nodes.length 0 3 nodes id 2 = some (some (g', rest)) ∧
    ∃ fuel order, g'.traverse fuel 0 = some order ∧ 2 ∈ order := by
  refine ⟨Graph.ofEdges [⟨0, 1, 0, .finishStart⟩, ⟨0, 2, 0, .finishStart⟩, ⟨1, 2, 0, .startStart⟩, ⟨1, 3, 0, .finishStart⟩,
    ⟨2, 3, 0, .finishStart⟩], [0, 1, 2, 3], ⟨by decide, Graph.linked_ofEdges _, by decide, Graph.closed_ofEdges (by decide), ?_,
    Graph.acyclic_before_ofEdges id (by decide)⟩, by decide, _, _, rfl, 10, [0, 1, 3, 2], by decide +kernel, by decide⟩
  intro v hv
  rcases (by simpa using hv : v = 0 ∨ v = 1 ∨ v = 2 ∨ v = 3) with rfl | rfl | rfl | rfl
  · exact Relation.ReflTransGen.refl
  · exact .single ⟨⟨0, 1, 0, .finishStart⟩, by decide, rfl⟩
  · exact .single ⟨⟨0, 2, 0, .finishStart⟩, by decide, rfl⟩
  · exact (Relation.ReflTransGen.single ⟨⟨0, 2, 0, .finishStart⟩, by decide, rfl⟩).tail ⟨⟨2, 3, 0, .finishStart⟩, by decide, rfl⟩

/-- Not proved because false: the documentation of the deletion says that all works of an inseparable chain are deleted when
one of them is.  Deleting the first work of a chain leaves the last one, deleting the last one leaves the first one. -/
theorem chain_not_deleted : demo.Project 0 [0, 1, 2, 3, 4, 5, 6] ∧ demo.Follows 4 5 ∧
    ((demo.deleteFrom 7 0 6 [0, 1, 2, 3, 4, 5, 6] id 4).map (Option.map (·.2))) = some (some [0, 1, 2, 3, 5, 6]) ∧
    ((demo.deleteFrom 7 0 6 [0, 1, 2, 3, 4, 5, 6] id 5).map (Option.map (·.2))) = some (some [0, 1, 2, 3, 4, 6]) :=
  ⟨demo_project, ⟨⟨4, 5, 0, .inseparable⟩, by decide, rfl, rfl⟩, by decide +kernel, by decide +kernel⟩

end Sampo.C35
