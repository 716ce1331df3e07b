import Verif.Lemmas.EditWork

namespace Sampo.Graph

variable {g h : Graph} {nodes : List Nat} {start : Nat} {ν : Nat → Nat}

theorem addParents_foldl (g : Graph) (v : Nat) (ps : List (Nat × Int × EdgeType)) :
    g.addParents v ps = (ps.map fun p => (⟨p.1, v, p.2.1, p.2.2⟩ : Edge)).foldl addEdge g := by
  unfold addParents; rw [List.foldl_map]

theorem foldl_addParents_one {α : Type} (child : α → Nat) (par : α → Nat × Int × EdgeType) : ∀ (l : List α) (g : Graph),
    l.foldl (fun g c => g.addParents (child c) [par c]) g =
      (l.map fun c => (⟨(par c).1, child c, (par c).2.1, (par c).2.2⟩ : Edge)).foldl addEdge g
  | [], _ => rfl
  | c :: l, g => by rw [List.foldl_cons, foldl_addParents_one child par l]; rfl

theorem ofEdges_append (l m : List Edge) : m.foldl addEdge (ofEdges l) = ofEdges (l ++ m) := by
  unfold ofEdges; rw [List.foldl_append]

theorem before_ofEdges {l : List Edge} {a b : Nat} : (ofEdges l).Before a b ↔ ∃ e ∈ l, e.start = a ∧ e.finish = b := by
  unfold Before
  constructor
  · rintro ⟨e, he, rfl⟩
    rw [ofEdges_to, List.mem_filter] at he
    exact ⟨e, he.1, rfl, by simpa using he.2⟩
  · rintro ⟨e, he, rfl, rfl⟩
    exact ⟨e, by rw [ofEdges_to, List.mem_filter]; exact ⟨he, by simp⟩, rfl⟩

theorem mem_nodes_flatMap (hp : g.Project start nodes) {e : Edge} : e ∈ nodes.flatMap g.edgesTo ↔
    e.finish ∈ nodes ∧ e ∈ g.edgesTo e.finish := by
  rw [List.mem_flatMap]
  constructor
  · rintro ⟨v, hv, he⟩
    have := hp.linked.finish v e he
    subst this
    exact ⟨hv, he⟩
  · rintro ⟨h1, h2⟩; exact ⟨_, h1, h2⟩

theorem insertWork_eq (hp : g.Project start nodes) {new : Nat} {parents children : Neighbours}
    {ps cs : List (Nat × Int × EdgeType)} (h1 : parents.reduce = some ps) (h2 : children.reduce = some cs)
    (h3 : ∀ p ∈ ps, p.1 ∈ nodes) (h4 : ∀ c ∈ cs, c.1 ∈ nodes) :
    g.insertWork nodes ν new parents children = some (ofEdges ((nodes.flatMap g.edgesTo).map (Edge.rename ν) ++
      ps.map (fun p => ⟨ν p.1, new, p.2.1, p.2.2⟩) ++ cs.map fun c => ⟨new, ν c.1, c.2.1, c.2.2⟩)) := by
  unfold insertWork
  rw [h1, h2]
  simp only [Option.bind_some]
  rw [if_pos ⟨h3, h4⟩, addParents_foldl, List.map_map, copy_eq hp.linked, among_nil hp.closed,
    foldl_addParents_one (fun c : Nat × Int × EdgeType => ν c.1) (fun c => (new, c.2.1, c.2.2)), ofEdges_append, ofEdges_append]
  rfl

section work

variable {new : Nat} {ps cs : List (Nat × Int × EdgeType)}

/-- Edges of the graph with the new work. -/
def withWork (g : Graph) (nodes : List Nat) (ν : Nat → Nat) (new : Nat) (ps cs : List (Nat × Int × EdgeType)) : List Edge :=
  (nodes.flatMap g.edgesTo).map (Edge.rename ν) ++ ps.map (fun p => ⟨ν p.1, new, p.2.1, p.2.2⟩) ++
    cs.map fun c => ⟨new, ν c.1, c.2.1, c.2.2⟩

theorem withWork_edge {a b : Nat} (hp : g.Project start nodes) (h : (ofEdges (withWork g nodes ν new ps cs)).Before a b) :
    (∃ u v, u ∈ nodes ∧ v ∈ nodes ∧ a = ν u ∧ b = ν v ∧ g.Before u v) ∨ (b = new ∧ ∃ p ∈ ps, a = ν p.1) ∨
      (a = new ∧ ∃ c ∈ cs, b = ν c.1) := by
  obtain ⟨e, he, rfl, rfl⟩ := before_ofEdges.mp h
  rcases List.mem_append.mp he with he | he
  · rcases List.mem_append.mp he with he | he
    · obtain ⟨x, hx, rfl⟩ := List.mem_map.mp he
      obtain ⟨h1, h2⟩ := (mem_nodes_flatMap hp).mp hx
      exact Or.inl ⟨x.start, x.finish, (hp.closed _ h1).1 x h2, h1, rfl, rfl, x, h2, rfl⟩
    · obtain ⟨p, hpp, rfl⟩ := List.mem_map.mp he
      exact Or.inr (Or.inl ⟨rfl, p, hpp, rfl⟩)
  · obtain ⟨c, hc, rfl⟩ := List.mem_map.mp he
    exact Or.inr (Or.inr ⟨rfl, c, hc, rfl⟩)

theorem withWork_reaches (hp : g.Project start nodes) {u v : Nat} (hu : u ∈ nodes) (h : g.Reaches u v) :
    (ofEdges (withWork g nodes ν new ps cs)).Reaches (ν u) (ν v) := by
  induction h with
  | refl => exact Relation.ReflTransGen.refl
  | tail h1 h2 ih =>
    refine ih.tail (before_ofEdges.mpr ?_)
    have hc := reaches_mem hp.linked hp.closed hu (h1.tail h2)
    obtain ⟨e, he, rfl⟩ := h2
    have hf := hp.linked.finish _ e he
    subst hf
    exact ⟨Edge.rename ν e, List.mem_append_left _ (List.mem_append_left _ (List.mem_map_of_mem
      ((mem_nodes_flatMap hp).mpr ⟨hc, he⟩))), rfl, rfl⟩

theorem withWork_project (hp : g.Project start nodes) (hν : DistinctNames ν nodes) (hnew : new ∉ nodes.map ν)
    (h3 : ∀ p ∈ ps, p.1 ∈ nodes) (h4 : ∀ c ∈ cs, c.1 ∈ nodes) (hne : ps ≠ [])
    (hcyc : ∀ p ∈ ps, ∀ c ∈ cs, ¬ g.Reaches c.1 p.1) :
    (ofEdges (withWork g nodes ν new ps cs)).Project (ν start) (nodes.map ν ++ [new]) := by
  have hn : ∀ v ∈ nodes, ν v ≠ new := fun v hv h => hnew (h ▸ List.mem_map_of_mem hv)
  refine ⟨?_, linked_ofEdges _, List.mem_append_left _ (List.mem_map_of_mem hp.start_mem), closed_ofEdges ?_, ?_, ?_⟩
  · refine List.nodup_append.mpr ⟨nodup_map_names hν hp.once, List.nodup_singleton _, ?_⟩
    intro a ha b hb hab
    rw [List.mem_singleton.mp hb] at hab
    exact hnew (hab ▸ ha)
  · intro e he
    rcases withWork_edge hp (before_ofEdges.mpr ⟨e, he, rfl, rfl⟩) with
      ⟨u, v, hu, hv, h1, h2, _⟩ | ⟨h1, p, hpp, h2⟩ | ⟨h1, c, hc, h2⟩
    · rw [h1, h2]
      exact ⟨List.mem_append_left _ (List.mem_map_of_mem hu), List.mem_append_left _ (List.mem_map_of_mem hv)⟩
    · rw [h1, h2]; exact ⟨List.mem_append_left _ (List.mem_map_of_mem (h3 p hpp)), by simp⟩
    · rw [h1, h2]; exact ⟨by simp, List.mem_append_left _ (List.mem_map_of_mem (h4 c hc))⟩
  · intro x hx
    rcases List.mem_append.mp hx with hx | hx
    · obtain ⟨v, hv, rfl⟩ := List.mem_map.mp hx
      exact withWork_reaches hp hp.start_mem (hp.reach v hv)
    · rw [List.mem_singleton.mp hx]
      obtain ⟨p, ps', rfl⟩ := List.exists_cons_of_ne_nil hne
      refine (withWork_reaches hp hp.start_mem (hp.reach p.1 (h3 p List.mem_cons_self))).tail (before_ofEdges.mpr ?_)
      exact ⟨⟨ν p.1, new, p.2.1, p.2.2⟩, List.mem_append_left _ (List.mem_append_right _ (by simp)), rfl, rfl⟩
  · intro x _ hx
    have key : ∀ {a b : Nat}, Relation.TransGen (ofEdges (withWork g nodes ν new ps cs)).Before a b →
        (∃ u v, u ∈ nodes ∧ v ∈ nodes ∧ a = ν u ∧ b = ν v ∧ (Relation.TransGen g.Before u v ∨
          (∃ p ∈ ps, g.Reaches u p.1) ∧ ∃ c ∈ cs, g.Reaches c.1 v)) ∨
        (∃ u, u ∈ nodes ∧ a = ν u ∧ b = new ∧ ∃ p ∈ ps, g.Reaches u p.1) ∨
        (∃ v, v ∈ nodes ∧ a = new ∧ b = ν v ∧ ∃ c ∈ cs, g.Reaches c.1 v) := by
      intro a b h
      induction h with
      | single h =>
        rcases withWork_edge hp h with ⟨u, v, hu, hv, h1, h2, h5⟩ | ⟨h1, p, hpp, h2⟩ | ⟨h1, c, hc, h2⟩
        · exact Or.inl ⟨u, v, hu, hv, h1, h2, Or.inl (.single h5)⟩
        · exact Or.inr (Or.inl ⟨p.1, h3 p hpp, h2, h1, p, hpp, Relation.ReflTransGen.refl⟩)
        · exact Or.inr (Or.inr ⟨c.1, h4 c hc, h1, h2, c, hc, Relation.ReflTransGen.refl⟩)
      | tail _ h ih =>
        rcases withWork_edge hp h with ⟨u, v, hu, hv, h1, h2, h5⟩ | ⟨h1, p, hpp, h2⟩ | ⟨h1, c, hc, h2⟩
        · rcases ih with ⟨u', v', hu', hv', k1, k2, k3⟩ | ⟨u', hu', k1, k2, k3⟩ | ⟨v', hv', k1, k2, c, hc, k3⟩
          · have := hν _ hv' _ hu (k2.symm.trans h1)
            subst this
            refine Or.inl ⟨u', v, hu', hv, k1, h2, ?_⟩
            rcases k3 with k3 | ⟨k3, c, hc, k4⟩
            · exact Or.inl (k3.tail h5)
            · exact Or.inr ⟨k3, c, hc, k4.tail h5⟩
          · exact absurd (h1.symm.trans k2) (hn u hu)
          · have := hν _ hv' _ hu (k2.symm.trans h1)
            subst this
            exact Or.inr (Or.inr ⟨v, hv, k1, h2, c, hc, k3.tail h5⟩)
        · rcases ih with ⟨u', v', hu', hv', k1, k2, k3⟩ | ⟨u', hu', k1, k2, k3⟩ | ⟨v', hv', k1, k2, c, hc, k3⟩
          · have := hν _ hv' _ (h3 p hpp) (k2.symm.trans h2)
            subst this
            refine Or.inr (Or.inl ⟨u', hu', k1, h1, ?_⟩)
            rcases k3 with k3 | ⟨k3, _⟩
            · exact ⟨p, hpp, k3.to_reflTransGen⟩
            · exact k3
          · exact absurd (h2.symm.trans k2) (hn _ (h3 p hpp))
          · have := hν _ hv' _ (h3 p hpp) (k2.symm.trans h2)
            subst this
            exact absurd k3 (hcyc p hpp c hc)
        · rcases ih with ⟨u', v', hu', hv', k1, k2, k3⟩ | ⟨u', hu', k1, k2, k3⟩ | ⟨v', hv', k1, k2, _⟩
          · exact absurd (k2.symm.trans h1) (hn _ hv')
          · exact Or.inl ⟨u', c.1, hu', h4 c hc, k1, h2, Or.inr ⟨k3, c, hc, Relation.ReflTransGen.refl⟩⟩
          · exact absurd (k2.symm.trans h1) (hn _ hv')
    rcases key hx with ⟨u, v, hu, hv, h1, h2, h5⟩ | ⟨u, hu, h1, h2, _⟩ | ⟨v, hv, h1, h2, _⟩
    · have := hν _ hu _ hv (h1.symm.trans h2)
      subst this
      rcases h5 with h5 | ⟨⟨p, hpp, h6⟩, c, hc, h7⟩
      · exact hp.acyclic u hu h5
      · exact hcyc p hpp c hc (h7.trans h6)
    · exact hn u hu (h1.symm.trans h2)
    · exact hn v hv (h2.symm.trans h1)

end work

/-! ### Insertion of a graph -/

section graph

variable {hNodes : List Nat} {μ : Nat → Nat} {hStart hFinish mStart mFinish : Nat}

/-- Works of the inserted graph without its start and finish. -/
def innerNodes (hNodes : List Nat) (hStart hFinish : Nat) : List Nat := hNodes.filter fun v => !([hStart, hFinish].contains v)

theorem mem_inner {v : Nat} : v ∈ innerNodes hNodes hStart hFinish ↔ v ∈ hNodes ∧ v ≠ hStart ∧ v ≠ hFinish := by
  unfold innerNodes; rw [List.mem_filter]; simp

/-- Edges of the graph with the inserted graph. -/
def withGraph (g : Graph) (nodes : List Nat) (ν : Nat → Nat) (mStart mFinish : Nat) (h : Graph) (hNodes : List Nat)
    (μ : Nat → Nat) (hStart hFinish : Nat) : List Edge :=
  (nodes.flatMap g.edgesTo).map (Edge.rename ν) ++ (h.among hNodes [hStart, hFinish]).map (Edge.rename μ) ++
    (h.edgesFrom hStart).map (fun e => ⟨ν mStart, μ e.finish, 0, .finishStart⟩) ++
    (h.edgesTo hFinish).map fun e => ⟨μ e.start, ν mFinish, 0, .finishStart⟩

/-- The conditions under which a graph is inserted. -/
structure CanInsert (g : Graph) (start : Nat) (nodes : List Nat) (ν : Nat → Nat) (mStart mFinish : Nat) (h : Graph)
    (hNodes : List Nat) (μ : Nat → Nat) (hStart hFinish : Nat) : Prop where
  master : g.Project start nodes
  slave : h.Project hStart hNodes
  names : DistinctNames ν nodes
  slaveNames : DistinctNames μ hNodes
  different : ∀ v ∈ nodes, ∀ w ∈ hNodes, ν v ≠ μ w
  mStart_mem : mStart ∈ nodes
  mFinish_mem : mFinish ∈ nodes
  finish_mem : hFinish ∈ hNodes
  finish_ne : hFinish ≠ hStart
  last : h.edgesFrom hFinish = []
  not_direct : ¬ h.Before hStart hFinish

namespace CanInsert

variable (ci : CanInsert g start nodes ν mStart mFinish h hNodes μ hStart hFinish)
include ci

theorem first : h.edgesTo hStart = [] := by
  rw [List.eq_nil_iff_forall_not_mem]
  intro e he
  have hb : h.Before e.start hStart := ⟨e, he, rfl⟩
  have hm := (ci.slave.closed _ ci.slave.start_mem).1 e he
  rcases Relation.reflTransGen_iff_eq_or_transGen.mp (ci.slave.reach _ hm) with heq | ht
  · rw [heq] at hb; exact ci.slave.acyclic _ ci.slave.start_mem (.single hb)
  · exact ci.slave.acyclic _ ci.slave.start_mem (ht.tail hb)

theorem from_start {e : Edge} (he : e ∈ h.edgesFrom hStart) : e.finish ∈ innerNodes hNodes hStart hFinish := by
  have hs := ci.slave.linked.start _ e he
  have hb := before_of_from ci.slave.linked he
  refine mem_inner.mpr ⟨(ci.slave.closed _ ci.slave.start_mem).2 e he, ?_, ?_⟩
  · intro hf
    rw [hf] at hb
    exact ci.slave.acyclic _ ci.slave.start_mem (.single hb)
  · intro hf
    rw [hf] at hb
    exact ci.not_direct hb

theorem to_finish {e : Edge} (he : e ∈ h.edgesTo hFinish) : e.start ∈ innerNodes hNodes hStart hFinish := by
  refine mem_inner.mpr ⟨(ci.slave.closed _ ci.finish_mem).1 e he, ?_, ?_⟩
  · intro hs
    exact ci.not_direct ⟨e, he, hs⟩
  · intro hs
    exact ci.slave.acyclic _ ci.finish_mem (.single ⟨e, he, hs⟩)

theorem insertGraph_eq : g.insertGraph nodes ν mStart mFinish h hNodes μ hStart hFinish =
    some (ofEdges (withGraph g nodes ν mStart mFinish h hNodes μ hStart hFinish)) := by
  unfold insertGraph
  dsimp only
  rw [if_pos ⟨fun e he => ci.from_start he, fun e he => ci.to_finish he, ci.mStart_mem, ci.mFinish_mem⟩]
  have hM : ∀ e ∈ (nodes.flatMap g.edgesTo).map (Edge.rename ν), e.start ∈ nodes.map ν ∧ e.finish ∈ nodes.map ν := by
    intro e he
    obtain ⟨x, hx, rfl⟩ := List.mem_map.mp he
    have := closed_flatMap ci.master.linked ci.master.closed x hx
    exact ⟨List.mem_map_of_mem this.1, List.mem_map_of_mem this.2⟩
  have hS : ∀ e ∈ (h.among hNodes [hStart, hFinish]).map (Edge.rename μ), e.start ∉ nodes.map ν ∧ e.finish ∉ nodes.map ν := by
    intro e he
    obtain ⟨x, hx, rfl⟩ := List.mem_map.mp he
    obtain ⟨_, h1, h2⟩ := (mem_among ci.slave.linked).mp hx
    constructor
    · intro hm
      obtain ⟨v, hv, hvx⟩ := List.mem_map.mp hm
      exact ci.different v hv _ h1.1 hvx
    · intro hm
      obtain ⟨v, hv, hvx⟩ := List.mem_map.mp hm
      exact ci.different v hv _ h2.1 hvx
  have hu : (g.copy nodes [] ν).union (h.copy hNodes [hStart, hFinish] μ) (nodes.map ν) =
      ofEdges ((nodes.flatMap g.edgesTo).map (Edge.rename ν) ++ (h.among hNodes [hStart, hFinish]).map (Edge.rename μ)) := by
    rw [copy_eq ci.master.linked, among_nil ci.master.closed, copy_eq ci.slave.linked]
    have ext : ∀ {a b : Graph}, (∀ v, a.edgesTo v = b.edgesTo v) → (∀ v, a.edgesFrom v = b.edgesFrom v) → a = b := by
      rintro ⟨a1, a2⟩ ⟨b1, b2⟩ h1 h2
      rw [show a1 = b1 from funext h1, show a2 = b2 from funext h2]
    refine ext (fun v => ?_) fun v => ?_
    · unfold union
      dsimp only
      by_cases hv : v ∈ nodes.map ν
      · rw [if_pos hv, ofEdges_to, ofEdges_to, List.filter_append,
          (List.filter_eq_nil_iff (l := (h.among _ _).map _)).mpr, List.append_nil]
        intro e he h1
        exact (hS e he).2 ((by simpa using h1 : e.finish = v) ▸ hv)
      · rw [if_neg hv, ofEdges_to, ofEdges_to, List.filter_append,
          (List.filter_eq_nil_iff (l := (nodes.flatMap g.edgesTo).map _)).mpr, List.nil_append]
        intro e he h1
        exact hv ((by simpa using h1 : e.finish = v) ▸ (hM e he).2)
    · unfold union
      dsimp only
      by_cases hv : v ∈ nodes.map ν
      · rw [if_pos hv, ofEdges_from, ofEdges_from, List.filter_append,
          (List.filter_eq_nil_iff (l := (h.among _ _).map _)).mpr, List.append_nil]
        intro e he h1
        exact (hS e he).1 ((by simpa using h1 : e.start = v) ▸ hv)
      · rw [if_neg hv, ofEdges_from, ofEdges_from, List.filter_append,
          (List.filter_eq_nil_iff (l := (nodes.flatMap g.edgesTo).map _)).mpr, List.nil_append]
        intro e he h1
        exact hv ((by simpa using h1 : e.start = v) ▸ (hM e he).1)
  rw [hu, foldl_addParents_one (fun e : Edge => μ e.finish) (fun _ => (ν mStart, 0, .finishStart)), addParents_foldl,
    List.map_map, ofEdges_append, ofEdges_append]
  rfl

theorem edge {a b : Nat} (hb : (ofEdges (withGraph g nodes ν mStart mFinish h hNodes μ hStart hFinish)).Before a b) :
    (∃ u v, u ∈ nodes ∧ v ∈ nodes ∧ a = ν u ∧ b = ν v ∧ g.Before u v) ∨
    (∃ u v, u ∈ innerNodes hNodes hStart hFinish ∧ v ∈ innerNodes hNodes hStart hFinish ∧ a = μ u ∧ b = μ v ∧ h.Before u v) ∨
    (a = ν mStart ∧ ∃ v, v ∈ innerNodes hNodes hStart hFinish ∧ b = μ v) ∨
    (b = ν mFinish ∧ ∃ v, v ∈ innerNodes hNodes hStart hFinish ∧ a = μ v) := by
  obtain ⟨e, he, rfl, rfl⟩ := before_ofEdges.mp hb
  rcases List.mem_append.mp he with he | he
  · rcases List.mem_append.mp he with he | he
    · rcases List.mem_append.mp he with he | he
      · obtain ⟨x, hx, rfl⟩ := List.mem_map.mp he
        obtain ⟨h1, h2⟩ := (mem_nodes_flatMap ci.master).mp hx
        exact Or.inl ⟨x.start, x.finish, (ci.master.closed _ h1).1 x h2, h1, rfl, rfl, x, h2, rfl⟩
      · obtain ⟨x, hx, rfl⟩ := List.mem_map.mp he
        obtain ⟨h0, h1, h2⟩ := (mem_among ci.slave.linked).mp hx
        simp only [List.mem_cons, List.not_mem_nil, or_false, not_or] at h1 h2
        exact Or.inr (Or.inl ⟨x.start, x.finish, mem_inner.mpr h1, mem_inner.mpr h2, rfl, rfl, x, h0, rfl⟩)
    · obtain ⟨x, hx, rfl⟩ := List.mem_map.mp he
      exact Or.inr (Or.inr (Or.inl ⟨rfl, x.finish, ci.from_start hx, rfl⟩))
  · obtain ⟨x, hx, rfl⟩ := List.mem_map.mp he
    exact Or.inr (Or.inr (Or.inr ⟨rfl, x.start, ci.to_finish hx, rfl⟩))

theorem master_reaches {u v : Nat} (hu : u ∈ nodes) (hr : g.Reaches u v) :
    (ofEdges (withGraph g nodes ν mStart mFinish h hNodes μ hStart hFinish)).Reaches (ν u) (ν v) := by
  induction hr with
  | refl => exact Relation.ReflTransGen.refl
  | tail h1 h2 ih =>
    refine ih.tail (before_ofEdges.mpr ?_)
    have hc := reaches_mem ci.master.linked ci.master.closed hu (h1.tail h2)
    obtain ⟨e, he, rfl⟩ := h2
    have hf := ci.master.linked.finish _ e he
    subst hf
    exact ⟨Edge.rename ν e, List.mem_append_left _ (List.mem_append_left _ (List.mem_append_left _ (List.mem_map_of_mem
      ((mem_nodes_flatMap ci.master).mpr ⟨hc, he⟩)))), rfl, rfl⟩

theorem inner_step {u v : Nat} (hu : u ∈ innerNodes hNodes hStart hFinish) (hv : v ∈ innerNodes hNodes hStart hFinish)
    (hb : h.Before u v) : (ofEdges (withGraph g nodes ν mStart mFinish h hNodes μ hStart hFinish)).Before (μ u) (μ v) := by
  obtain ⟨e, he, rfl⟩ := hb
  have hf := ci.slave.linked.finish _ e he
  subst hf
  refine before_ofEdges.mpr ⟨Edge.rename μ e, List.mem_append_left _ (List.mem_append_left _ (List.mem_append_right _
    (List.mem_map_of_mem ((mem_among ci.slave.linked).mpr ⟨he, ?_, ?_⟩)))), rfl, rfl⟩
  · simpa using mem_inner.mp hu
  · simpa using mem_inner.mp hv

/-- A step of the inserted graph between works neither of which is its start or finish keeps inside. -/
theorem start_reaches {v : Nat} (hv : v ∈ innerNodes hNodes hStart hFinish) :
    (ofEdges (withGraph g nodes ν mStart mFinish h hNodes μ hStart hFinish)).Reaches (ν mStart) (μ v) := by
  have key : ∀ {v : Nat}, h.Reaches hStart v → v ∈ innerNodes hNodes hStart hFinish →
      (ofEdges (withGraph g nodes ν mStart mFinish h hNodes μ hStart hFinish)).Reaches (ν mStart) (μ v) := by
    intro v hr
    induction hr with
    | refl => intro hv; exact absurd rfl (mem_inner.mp hv).2.1
    | @tail b c h1 h2 ih =>
      intro hc
      by_cases hb : b = hStart
      · subst hb
        obtain ⟨e, he, hf⟩ := from_of_before ci.slave.linked h2
        refine Relation.ReflTransGen.single (before_ofEdges.mpr ?_)
        exact ⟨⟨ν mStart, μ e.finish, 0, .finishStart⟩, List.mem_append_left _ (List.mem_append_right _
          (List.mem_map.mpr ⟨e, he, rfl⟩)), rfl, by rw [hf]⟩
      · have hbn := reaches_mem ci.slave.linked ci.slave.closed ci.slave.start_mem h1
        have hbf : b ≠ hFinish := by
          rintro rfl
          obtain ⟨e, he, _⟩ := from_of_before ci.slave.linked h2
          rw [ci.last] at he; cases he
        have hbi := mem_inner.mpr ⟨hbn, hb, hbf⟩
        exact (ih hbi).tail (ci.inner_step hbi hc h2)
  exact key (ci.slave.reach v (mem_inner.mp hv).1) hv

theorem reaches_finish {v : Nat} (hv : v ∈ innerNodes hNodes hStart hFinish) (hl : h.Reaches v hFinish) :
    (ofEdges (withGraph g nodes ν mStart mFinish h hNodes μ hStart hFinish)).Reaches (μ v) (ν mFinish) := by
  have key : ∀ {v : Nat}, h.Reaches v hFinish → v ∈ innerNodes hNodes hStart hFinish →
      (ofEdges (withGraph g nodes ν mStart mFinish h hNodes μ hStart hFinish)).Reaches (μ v) (ν mFinish) := by
    intro v hr
    induction hr using Relation.ReflTransGen.head_induction_on with
    | refl => intro hv; exact absurd rfl (mem_inner.mp hv).2.2
    | @head a b h1 h2 ih =>
      intro ha
      by_cases hb : b = hFinish
      · subst hb
        obtain ⟨e, he, rfl⟩ := h1
        exact Relation.ReflTransGen.single (before_ofEdges.mpr
          ⟨⟨μ e.start, ν mFinish, 0, .finishStart⟩, List.mem_append_right _ (List.mem_map.mpr ⟨e, he, rfl⟩), rfl, rfl⟩)
      · have hbn : b ∈ hNodes := reaches_mem ci.slave.linked ci.slave.closed (mem_inner.mp ha).1 (.single h1)
        have hbs : b ≠ hStart := by
          rintro rfl
          obtain ⟨e, he, _⟩ := h1
          rw [ci.first] at he; cases he
        have hbi := mem_inner.mpr ⟨hbn, hbs, hb⟩
        exact Relation.ReflTransGen.head (ci.inner_step ha hbi h1) (ih hbi)
  exact key hl hv

theorem project (hcyc : ¬ g.Reaches mFinish mStart) :
    (ofEdges (withGraph g nodes ν mStart mFinish h hNodes μ hStart hFinish)).Project (ν start)
      (nodes.map ν ++ (innerNodes hNodes hStart hFinish).map μ) := by
  have hin : ∀ {v : Nat}, v ∈ innerNodes hNodes hStart hFinish → v ∈ hNodes := fun hv => (mem_inner.mp hv).1
  have hdiff : ∀ {u v : Nat}, u ∈ nodes → v ∈ innerNodes hNodes hStart hFinish → ν u ≠ μ v :=
    fun hu hv => ci.different _ hu _ (hin hv)
  refine ⟨?_, linked_ofEdges _, List.mem_append_left _ (List.mem_map_of_mem ci.master.start_mem), closed_ofEdges ?_, ?_, ?_⟩
  · refine List.nodup_append.mpr ⟨nodup_map_names ci.names ci.master.once, ?_, ?_⟩
    · exact nodup_map_names (fun v hv w hw => ci.slaveNames v (hin hv) w (hin hw)) (ci.slave.once.filter _)
    · intro a ha b hb hab
      obtain ⟨u, hu, rfl⟩ := List.mem_map.mp ha
      obtain ⟨v, hv, rfl⟩ := List.mem_map.mp hb
      exact hdiff hu hv hab
  · intro e he
    rcases ci.edge (before_ofEdges.mpr ⟨e, he, rfl, rfl⟩) with
      ⟨u, v, hu, hv, h1, h2, _⟩ | ⟨u, v, hu, hv, h1, h2, _⟩ | ⟨h1, v, hv, h2⟩ | ⟨h1, v, hv, h2⟩
    · rw [h1, h2]
      exact ⟨List.mem_append_left _ (List.mem_map_of_mem hu), List.mem_append_left _ (List.mem_map_of_mem hv)⟩
    · rw [h1, h2]
      exact ⟨List.mem_append_right _ (List.mem_map_of_mem hu), List.mem_append_right _ (List.mem_map_of_mem hv)⟩
    · rw [h1, h2]
      exact ⟨List.mem_append_left _ (List.mem_map_of_mem ci.mStart_mem), List.mem_append_right _ (List.mem_map_of_mem hv)⟩
    · rw [h1, h2]
      exact ⟨List.mem_append_right _ (List.mem_map_of_mem hv), List.mem_append_left _ (List.mem_map_of_mem ci.mFinish_mem)⟩
  · intro x hx
    rcases List.mem_append.mp hx with hx | hx
    · obtain ⟨v, hv, rfl⟩ := List.mem_map.mp hx
      exact ci.master_reaches ci.master.start_mem (ci.master.reach v hv)
    · obtain ⟨v, hv, rfl⟩ := List.mem_map.mp hx
      exact (ci.master_reaches ci.master.start_mem (ci.master.reach _ ci.mStart_mem)).trans (ci.start_reaches hv)
  · intro x _ hx
    have key : ∀ {a b : Nat},
        Relation.TransGen (ofEdges (withGraph g nodes ν mStart mFinish h hNodes μ hStart hFinish)).Before a b →
        (∃ u v, u ∈ nodes ∧ v ∈ nodes ∧ a = ν u ∧ b = ν v ∧ (Relation.TransGen g.Before u v ∨
          g.Reaches u mStart ∧ g.Reaches mFinish v)) ∨
        (∃ u v, u ∈ innerNodes hNodes hStart hFinish ∧ v ∈ innerNodes hNodes hStart hFinish ∧ a = μ u ∧ b = μ v ∧
          Relation.TransGen h.Before u v) ∨
        (∃ u v, u ∈ nodes ∧ v ∈ innerNodes hNodes hStart hFinish ∧ a = ν u ∧ b = μ v ∧ g.Reaches u mStart) ∨
        (∃ u v, u ∈ innerNodes hNodes hStart hFinish ∧ v ∈ nodes ∧ a = μ u ∧ b = ν v ∧ g.Reaches mFinish v) := by
      intro a b hab
      induction hab with
      | single hb =>
        rcases ci.edge hb with ⟨u, v, hu, hv, h1, h2, h5⟩ | ⟨u, v, hu, hv, h1, h2, h5⟩ | ⟨h1, v, hv, h2⟩ | ⟨h1, v, hv, h2⟩
        · exact Or.inl ⟨u, v, hu, hv, h1, h2, Or.inl (.single h5)⟩
        · exact Or.inr (Or.inl ⟨u, v, hu, hv, h1, h2, .single h5⟩)
        · exact Or.inr (Or.inr (Or.inl ⟨mStart, v, ci.mStart_mem, hv, h1, h2, Relation.ReflTransGen.refl⟩))
        · exact Or.inr (Or.inr (Or.inr ⟨v, mFinish, hv, ci.mFinish_mem, h2, h1, Relation.ReflTransGen.refl⟩))
      | tail _ hb ih =>
        rcases ci.edge hb with ⟨u, v, hu, hv, h1, h2, h5⟩ | ⟨u, v, hu, hv, h1, h2, h5⟩ | ⟨h1, v, hv, h2⟩ | ⟨h1, v, hv, h2⟩
        · rcases ih with ⟨u', v', hu', hv', k1, k2, k3⟩ | ⟨u', v', hu', hv', k1, k2, k3⟩ | ⟨u', v', hu', hv', k1, k2, k3⟩ |
            ⟨u', v', hu', hv', k1, k2, k3⟩
          · have := ci.names _ hv' _ hu (k2.symm.trans h1)
            subst this
            refine Or.inl ⟨u', v, hu', hv, k1, h2, ?_⟩
            rcases k3 with k3 | ⟨k3, k4⟩
            · exact Or.inl (k3.tail h5)
            · exact Or.inr ⟨k3, k4.tail h5⟩
          · exact absurd (h1.symm.trans k2) (hdiff hu hv')
          · exact absurd (h1.symm.trans k2) (hdiff hu hv')
          · have := ci.names _ hv' _ hu (k2.symm.trans h1)
            subst this
            exact Or.inr (Or.inr (Or.inr ⟨u', v, hu', hv, k1, h2, k3.tail h5⟩))
        · rcases ih with ⟨u', v', hu', hv', k1, k2, k3⟩ | ⟨u', v', hu', hv', k1, k2, k3⟩ | ⟨u', v', hu', hv', k1, k2, k3⟩ |
            ⟨u', v', hu', hv', k1, k2, k3⟩
          · exact absurd (k2.symm.trans h1) (hdiff hv' hu)
          · have := ci.slaveNames _ (hin hv') _ (hin hu) (k2.symm.trans h1)
            subst this
            exact Or.inr (Or.inl ⟨u', v, hu', hv, k1, h2, k3.tail h5⟩)
          · have := ci.slaveNames _ (hin hv') _ (hin hu) (k2.symm.trans h1)
            subst this
            exact Or.inr (Or.inr (Or.inl ⟨u', v, hu', hv, k1, h2, k3⟩))
          · exact absurd (k2.symm.trans h1) (hdiff hv' hu)
        · rcases ih with ⟨u', v', hu', hv', k1, k2, k3⟩ | ⟨u', v', hu', hv', k1, k2, k3⟩ | ⟨u', v', hu', hv', k1, k2, k3⟩ |
            ⟨u', v', hu', hv', k1, k2, k3⟩
          · have := ci.names _ hv' _ ci.mStart_mem (k2.symm.trans h1)
            subst this
            refine Or.inr (Or.inr (Or.inl ⟨u', v, hu', hv, k1, h2, ?_⟩))
            rcases k3 with k3 | ⟨k3, _⟩
            · exact k3.to_reflTransGen
            · exact k3
          · exact absurd (h1.symm.trans k2) (hdiff ci.mStart_mem hv')
          · exact absurd (h1.symm.trans k2) (hdiff ci.mStart_mem hv')
          · have := ci.names _ hv' _ ci.mStart_mem (k2.symm.trans h1)
            subst this
            exact absurd k3 hcyc
        · rcases ih with ⟨u', v', hu', hv', k1, k2, k3⟩ | ⟨u', v', hu', hv', k1, k2, k3⟩ | ⟨u', v', hu', hv', k1, k2, k3⟩ |
            ⟨u', v', hu', hv', k1, k2, k3⟩
          · exact absurd (k2.symm.trans h2) (hdiff hv' hv)
          · exact Or.inr (Or.inr (Or.inr ⟨u', mFinish, hu', ci.mFinish_mem, k1, h1, Relation.ReflTransGen.refl⟩))
          · exact Or.inl ⟨u', mFinish, hu', ci.mFinish_mem, k1, h1, Or.inr ⟨k3, Relation.ReflTransGen.refl⟩⟩
          · exact absurd (k2.symm.trans h2) (hdiff hv' hv)
    rcases key hx with ⟨u, v, hu, hv, h1, h2, h5⟩ | ⟨u, v, hu, hv, h1, h2, h5⟩ | ⟨u, v, hu, hv, h1, h2, _⟩ |
      ⟨u, v, hu, hv, h1, h2, _⟩
    · have := ci.names _ hu _ hv (h1.symm.trans h2)
      subst this
      rcases h5 with h5 | ⟨h6, h7⟩
      · exact ci.master.acyclic u hu h5
      · exact hcyc (h7.trans h6)
    · have := ci.slaveNames _ (hin hu) _ (hin hv) (h1.symm.trans h2)
      subst this
      exact ci.slave.acyclic u (hin hu) h5
    · exact hdiff hu hv (h1.symm.trans h2)
    · exact hdiff hv hu (h2.symm.trans h1)

end CanInsert

end graph

end Sampo.Graph
