import Verif.Lemmas.StageEdges
import Verif.Lemmas.Graph
import Verif.Lemmas.Heads
import Verif.Props.C21_PriorityCorrection
import Verif.Props.C22_HeadNodes
import Verif.Props.C33_Traversal
import Verif.Props.C34_Restructure
import Verif.Props.C89_Schedulers
import Verif.Spec.AutoPipeline

/-! # Lemmas: restructured graphs as work graphs -/

namespace Sampo.AutoPipeline
open Restructure

variable {p : Project} {opt : Bool} {N : New}

/-- What is known of a restructured graph. -/
structure Made (p : Project) (opt : Bool) (N : New) : Prop where
  sound : SoundProject p
  eq : restructure p.graph opt p.works = some N
  inv : Inv p.graph opt p.works N
  origin : Origin p.graph p.works N

theorem made (hp : SoundProject p) (opt : Bool) : ∃ N, Made p opt N := by
  obtain ⟨N, h, inv⟩ := restructure_inv hp.wf (opt := opt) fun _ => hp.simple
  exact ⟨N, hp, h, inv, restructure_origin hp.wf.nodup (fun v hv e he => (hp.wf.entering v hv e he).1)
    (fun v hv e he => (hp.wf.leaving v hv e he).1) h⟩

/-- The work of a numbered stage. -/
def wk (N : New) (i : Nat) : Option Nat := (N.ids[i]?).map NewId.work

theorem get_number {x : NewId} (h : x ∈ N.ids) : N.ids[number N.ids x]? = some x := List.getElem?_idxOf h

theorem wk_number {x : NewId} (h : x ∈ N.ids) : wk N (number N.ids x) = some x.work := by
  unfold wk; rw [get_number h]; rfl

theorem number_lt {x : NewId} (h : x ∈ N.ids) : number N.ids x < N.ids.length := List.idxOf_lt_length_iff.2 h

theorem number_inj {x y : NewId} (h : x ∈ N.ids) (he : number N.ids x = number N.ids y) : x = y := (List.idxOf_inj h).1 he

theorem number_getElem (hn : N.ids.Nodup) {i : Nat} {x : NewId} (h : N.ids[i]? = some x) : number N.ids x = i := by
  have hi := (List.getElem?_eq_some_iff.1 h).1
  have hx : x ∈ N.ids := List.mem_of_getElem? h
  exact (List.getElem?_inj (number_lt hx) hn).1 ((get_number hx).trans h.symm)

theorem sublist_lt {α : Type} [DecidableEq α] {l : List α} (hn : l.Nodup) {a b : α} (h : [a, b].Sublist l) :
    l.idxOf a < l.idxOf b := by
  induction l with
  | nil => cases h
  | cons x l ih =>
    rw [List.nodup_cons] at hn
    cases h with
    | cons _ h =>
      have ha : a ≠ x := fun he => hn.1 (he ▸ h.subset List.mem_cons_self)
      have hb : b ≠ x := fun he => hn.1 (he ▸ h.subset (by simp))
      rw [List.idxOf_cons_ne _ (Ne.symm ha), List.idxOf_cons_ne _ (Ne.symm hb)]
      exact Nat.succ_lt_succ (ih hn.2 h)
    | cons_cons _ h =>
      have hb : b ≠ a := fun he => hn.1 (he ▸ h.subset List.mem_cons_self)
      rw [List.idxOf_cons_self, List.idxOf_cons_ne _ (Ne.symm hb)]
      exact Nat.succ_pos _

theorem Made.forward (m : Made p opt N) {e : NewEdge} (he : e ∈ N.edges) :
    e.start ∈ N.ids ∧ e.finish ∈ N.ids ∧ number N.ids e.start < number N.ids e.finish := by
  have h := m.inv.sorted e he
  exact ⟨h.subset (by simp), h.subset (by simp), sublist_lt m.inv.nodup h⟩

theorem mem_to {v : Nat} {x : Edge} : x ∈ (graphOf N).edgesTo v ↔ ∃ e ∈ N.edges, numbered N.ids e = x ∧ number N.ids e.finish = v := by
  show x ∈ (Graph.ofEdges _).edgesTo v ↔ _
  rw [Graph.ofEdges_to, List.mem_filter, List.mem_map]
  constructor
  · rintro ⟨⟨e, he, rfl⟩, h⟩; exact ⟨e, he, rfl, of_decide_eq_true h⟩
  · rintro ⟨e, he, rfl, h⟩; exact ⟨⟨e, he, rfl⟩, decide_eq_true h⟩

theorem stages_mem {v : Nat} {x : NewId} (h : x ∈ (stagesOf N v).map (·.1)) : x ∈ N.ids ∧ x.work = v := by
  obtain ⟨n, hn, rfl⟩ := List.mem_map.1 h
  obtain ⟨h1, h2⟩ := List.mem_filter.1 hn
  exact ⟨List.mem_map_of_mem h1, by simpa using h2⟩

theorem mem_stages {x : NewId} (h : x ∈ N.ids) : x ∈ (stagesOf N x.work).map (·.1) := by
  obtain ⟨n, hn, rfl⟩ := List.mem_map.1 h
  exact List.mem_map_of_mem (List.mem_filter.2 ⟨hn, by simp⟩)

theorem Made.work_mem (m : Made p opt N) {x : NewId} (h : x ∈ N.ids) : x.work ∈ p.works := by
  obtain ⟨n, hn, rfl⟩ := List.mem_map.1 h
  exact m.inv.works n hn

/-- Where an edge comes from. -/
theorem Made.edge_cases (m : Made p opt N) {e : NewEdge} (he : e ∈ N.edges) :
    (e.type = .inseparable ∧ e.lag = 0 ∧ e.start.work = e.finish.work ∧
      ∃ l₁ l₂, (stagesOf N e.finish.work).map (·.1) = l₁ ++ e.start :: e.finish :: l₂) ∨
    (e.type = .finishStart ∧ ∃ v ∈ p.works, ∃ o ∈ p.graph.edgesTo v, MadeFor v o e) := by
  rcases m.origin.edges e he with ⟨v, hv, h⟩ | ⟨v, hv, o, ho, hm⟩
  · obtain ⟨l₁, l₂, h1, h2, h3⟩ := mem_chainEdges h
    have hs := (stages_mem (N := N) (v := v) (x := e.start) (h1 ▸ by simp)).2
    have hf := (stages_mem (N := N) (v := v) (x := e.finish) (h1 ▸ by simp)).2
    exact .inl ⟨h3, h2, hs.trans hf.symm, l₁, l₂, hf.symm ▸ h1⟩
  · refine .inr ⟨?_, v, hv, o, ho, hm⟩
    rcases m.inv.types e he with h | h
    · exact h
    · exact absurd (hm.type h) (m.sound.separable v hv o ho)

theorem Made.chain_edge (m : Made p opt N) {e : NewEdge} (he : e ∈ N.edges) (ht : e.type = .inseparable) :
    e.lag = 0 ∧ e.start.work = e.finish.work ∧
      ∃ l₁ l₂, (stagesOf N e.finish.work).map (·.1) = l₁ ++ e.start :: e.finish :: l₂ := by
  rcases m.edge_cases he with ⟨-, h⟩ | ⟨h, -⟩
  · exact h
  · rw [ht] at h; cases h

theorem Made.stages_nodup (m : Made p opt N) (v : Nat) : ((stagesOf N v).map (·.1)).Nodup :=
  ((List.filter_sublist (l := N.nodes)).map _).nodup m.inv.nodup

private theorem neighbours {α : Type} {l l₁ l₂ m₁ m₂ : List α} {a b a' b' : α} (hn : l.Nodup) (h : l = l₁ ++ a :: b :: l₂)
    (h' : l = m₁ ++ a' :: b' :: m₂) : a = a' ↔ b = b' := by
  have g1 : l[l₁.length]? = some a := by rw [h]; simp
  have g2 : l[l₁.length + 1]? = some b := by rw [h]; simp
  have g1' : l[m₁.length]? = some a' := by rw [h']; simp
  have g2' : l[m₁.length + 1]? = some b' := by rw [h']; simp
  have hl : l₁.length + 1 < l.length := (List.getElem?_eq_some_iff.1 g2).1
  constructor
  · rintro rfl
    have := (List.getElem?_inj (by omega) hn).1 (g1.trans g1'.symm)
    rw [← this, g2] at g2'
    exact Option.some.inj g2'
  · rintro rfl
    have := (List.getElem?_inj (by omega) hn).1 (g2.trans g2'.symm)
    rw [← Nat.succ.inj this, g1] at g1'
    exact Option.some.inj g1'

theorem Made.chains (m : Made p opt N) : (graphOf N).Chains := by
  refine Graph.chains_ofEdges fun x hx y hy tx ty => ?_
  obtain ⟨e, he, rfl⟩ := List.mem_map.1 hx
  obtain ⟨f, hf, rfl⟩ := List.mem_map.1 hy
  obtain ⟨-, we, l₁, l₂, hl⟩ := m.chain_edge he tx
  obtain ⟨-, wf, k₁, k₂, hk⟩ := m.chain_edge hf ty
  obtain ⟨e1, e2, -⟩ := m.forward he
  obtain ⟨f1, f2, -⟩ := m.forward hf
  constructor
  · intro h
    have h := number_inj e2 h
    have hk' : (stagesOf N e.finish.work).map (·.1) = k₁ ++ f.start :: f.finish :: k₂ := by rw [h]; exact hk
    show number N.ids e.start = number N.ids f.start
    rw [(neighbours (m.stages_nodup _) hl hk').2 h]
  · intro h
    have h := number_inj e1 h
    have hw : e.finish.work = f.finish.work := by rw [← we, ← wf, h]
    rw [← hw] at hk
    show number N.ids e.finish = number N.ids f.finish
    rw [(neighbours (m.stages_nodup _) hl hk).1 h]

/-- Restructured graphs are work graphs. -/
theorem Made.workGraph (m : Made p opt N) {nodes : List Nat} (hn : nodes.Perm (List.range N.ids.length)) :
    C22.WorkGraph (graphOf N) nodes where
  once := hn.nodup_iff.2 List.nodup_range
  linked := Graph.linked_ofEdges _
  closed := by
    refine Graph.closed_ofEdges fun x hx => ?_
    obtain ⟨e, he, rfl⟩ := List.mem_map.1 hx
    obtain ⟨h1, h2, -⟩ := m.forward he
    exact ⟨hn.mem_iff.2 (List.mem_range.2 (number_lt h1)), hn.mem_iff.2 (List.mem_range.2 (number_lt h2))⟩
  chains := m.chains
  acyclic := by
    refine Graph.acyclic_ofEdges id fun x hx => ?_
    obtain ⟨e, he, rfl⟩ := List.mem_map.1 hx
    exact (m.forward he).2.2

theorem Made.onlyDependencies (m : Made p opt N) : C89.OnlyDependencies (graphOf N) := by
  intro v x hx
  obtain ⟨e, he, rfl, -⟩ := mem_to.1 hx
  exact (m.inv.types e he).imp_right .inr

theorem Made.chain_lag (m : Made p opt N) {v : Nat} {x : Edge} (hx : x ∈ (graphOf N).edgesTo v) (ht : x.type = .inseparable) :
    x.lag = 0 := by
  obtain ⟨e, he, rfl, -⟩ := mem_to.1 hx
  show ⌈e.lag⌉ = 0
  rw [(m.chain_edge he ht).1]; rfl

theorem Made.follows_work (m : Made p opt N) {a b : Nat} (h : (graphOf N).Follows a b) : wk N a = wk N b := by
  obtain ⟨x, hx, rfl, ht⟩ := h
  obtain ⟨e, he, rfl, rfl⟩ := mem_to.1 hx
  obtain ⟨h1, h2, -⟩ := m.forward he
  show wk N (number N.ids e.start) = _
  rw [wk_number h1, wk_number h2, (m.chain_edge he ht).2.1]

theorem Made.inChain_work (m : Made p opt N) {a b : Nat} (h : (graphOf N).InChain a b) : wk N a = wk N b := by
  induction h with
  | refl => rfl
  | tail _ h ih => exact ih.trans (m.follows_work h)

theorem position (hp : SoundProject p) {v : Nat} (hv : v ∈ p.works) {o : OEdge} (ho : o ∈ p.graph.edgesTo v) :
    o.start ∈ p.works ∧ p.works.idxOf o.start < p.works.idxOf v := by
  obtain ⟨l₁, l₂, hl⟩ := List.append_of_mem hv
  have h1 : o.start ∈ l₁ := hp.wf.topo l₁ v l₂ hl o.start (List.mem_map_of_mem ho)
  refine ⟨hl ▸ List.mem_append_left _ h1, sublist_lt hp.wf.nodup ?_⟩
  rw [hl]
  exact List.Sublist.append (l₁ := [o.start]) (List.singleton_sublist.2 h1) (List.singleton_sublist.2 (by simp))

/-- An edge of the new graph joins stages of one work or leads from the start to the finish of a given edge. -/
theorem Made.depends (m : Made p opt N) {v w : Nat} (h : (graphOf N).Before w v) :
    (graphOf N).Follows w v ∨ ∃ o ∈ p.graph.edgesTo ((wk N v).getD 0), (wk N v).getD 0 ∈ p.works ∧ wk N w = some o.start ∧
      wk N v = some o.finish := by
  obtain ⟨x, hx, rfl⟩ := h
  obtain ⟨e, he, rfl, rfl⟩ := mem_to.1 hx
  obtain ⟨h1, h2, -⟩ := m.forward he
  rcases m.edge_cases he with ⟨ht, -⟩ | ⟨-, u, hu, o, ho, hm⟩
  · exact .inl ⟨_, hx, rfl, ht⟩
  · refine .inr ⟨o, ?_, ?_, ?_, ?_⟩
    · rw [wk_number h2, hm.finish]; exact ho
    · rw [wk_number h2, hm.finish]; exact hu
    · show wk N (number N.ids e.start) = _
      rw [wk_number h1, hm.start]
    · rw [wk_number h2, hm.finish, (m.sound.wf.entering u hu o ho).1]

theorem dependsOn_before {g : Graph} {v w : Nat} (h : g.DependsOn v w) : g.Before w v := by
  obtain ⟨e, he, hs, -⟩ := h
  exact ⟨e, he, hs⟩

theorem Made.headDepends (m : Made p opt N) {nodes : List Nat} {a b : Nat} (h : (graphOf N).HeadDependsOn nodes a b) :
    ∃ v ∈ p.works, ∃ o ∈ p.graph.edgesTo v, wk N a = some v ∧ wk N b = some o.start := by
  obtain ⟨ha, hb, hne, v, w, hv, hw, hd⟩ := h
  rcases m.depends (dependsOn_before hd) with hf | ⟨o, ho, hm, h1, h2⟩
  · exact absurd (Graph.head_unique m.chains hb ha (hw.tail hf) hv) hne
  · refine ⟨_, hm, o, ho, ?_, (m.inChain_work hw).trans h1⟩
    rw [m.inChain_work hv, h2]; rfl

theorem Made.headAcyclic (m : Made p opt N) (nodes : List Nat) : Acyclic ((graphOf N).HeadDependsOn nodes) := by
  have one : ∀ a b, (graphOf N).HeadDependsOn nodes a b →
      p.works.idxOf ((wk N b).getD 0) < p.works.idxOf ((wk N a).getD 0) := by
    intro a b h
    obtain ⟨v, hv, o, ho, h1, h2⟩ := m.headDepends h
    rw [h1, h2]
    exact (position m.sound hv ho).2
  have key : ∀ a b, Relation.TransGen ((graphOf N).HeadDependsOn nodes) a b →
      p.works.idxOf ((wk N b).getD 0) < p.works.idxOf ((wk N a).getD 0) := by
    intro a b h
    induction h with
    | single h => exact one _ _ h
    | tail _ h ih => exact Nat.lt_trans (one _ _ h) ih
  intro x hx
  exact Nat.lt_irrefl _ (key x x hx)

/-! ### Priorities -/

theorem parents_mem {g : Graph} {v w : Nat} (h : w ∈ g.parents v) : g.Before w v := by
  unfold Graph.parents at h
  obtain ⟨e, he, rfl⟩ := List.mem_map.1 h
  exact ⟨e, (List.mem_filter.1 he).1, rfl⟩

/-- The first correction. -/
theorem corrected (hp : SoundProject p) : ∃ prio, Priority.correct (parentsOf p.graph) p.works.length p.works p.prio = some prio ∧
    ∀ v ∈ p.works, ∀ e ∈ p.graph.edgesTo v, prio e.start ≤ prio v := by
  have hpar : ∀ {v x}, x ∈ parentsOf p.graph v → ∃ e ∈ p.graph.edgesTo v, e.type.isDependency = true ∧ e.start = x := by
    intro v x h
    obtain ⟨e, he, rfl⟩ := List.mem_map.1 h
    obtain ⟨h1, h2⟩ := List.mem_filter.1 he
    exact ⟨e, h1, h2, rfl⟩
  rcases hp.prios with h | h
  · refine ⟨p.prio, C21.consistent_unchanged _ _ _ _ fun v hv x hx => ?_, h⟩
    obtain ⟨e, he, -, rfl⟩ := hpar hx
    exact h v hv e he
  · have hpos : ∀ v ∈ p.works, ∀ x ∈ parentsOf p.graph v, x ∈ p.works ∧ p.works.idxOf x < p.works.idxOf v := by
      intro v hv x hx
      obtain ⟨e, he, -, rfl⟩ := hpar hx
      exact position hp hv he
    obtain ⟨pr, h1, -, -, h2⟩ := Priority.correct_spec (parents := parentsOf p.graph) (rank := fun v => p.works.idxOf v)
      (fun v hv x hx => (hpos v hv x hx).1) (fun v hv x hx => (hpos v hv x hx).2) (fuel := p.works.length)
      (fun v hv => List.idxOf_lt_length_iff.2 hv) p.prio p.works p.prio (fun _ h => h)
      (fun x => ⟨le_refl _, x, Relation.ReflTransGen.refl, rfl⟩)
    refine ⟨pr, h1, fun v hv e he => h2 v hv _ ?_⟩
    refine List.mem_map_of_mem (List.mem_filter.2 ⟨he, ?_⟩)
    rcases h v hv e he with h | h <;> rw [h] <;> rfl

/-- The priority of a stage is that of its work. -/
def stagePrio (N : New) (prio : Nat → Int) (i : Nat) : Int := ((wk N i).map prio).getD 0

theorem Made.stagePrio_le (m : Made p opt N) {prio : Nat → Int} (h : ∀ v ∈ p.works, ∀ e ∈ p.graph.edgesTo v, prio e.start ≤ prio v)
    {v w : Nat} (hb : (graphOf N).Before w v) : stagePrio N prio w ≤ stagePrio N prio v := by
  rcases m.depends hb with hf | ⟨o, ho, hm, h1, h2⟩
  · unfold stagePrio; rw [m.follows_work hf]
  · have := h _ hm o ho
    unfold stagePrio
    rw [h2] at this ⊢
    rw [h1]
    exact this

theorem Made.prioritiesAgree (m : Made p opt N) {prio : Nat → Int}
    (h : ∀ v ∈ p.works, ∀ e ∈ p.graph.edgesTo v, prio e.start ≤ prio v) (nodes : List Nat) :
    C89.PrioritiesAgree (stagePrio N prio) (graphOf N) nodes := by
  intro a b hd
  obtain ⟨v, hv, o, ho, h1, h2⟩ := m.headDepends hd
  unfold stagePrio
  rw [h1, h2]
  exact h v hv o ho

/-! ### The nodes found from the start -/

theorem Made.start_stage (m : Made p opt N) : firstOf N p.start = .last p.start ∧ NewId.last p.start ∈ N.ids := by
  have h := C34.undivided_unchanged m.sound.wf.nodup m.eq p.start m.sound.start_mem
    (fun e he => by rw [m.sound.start_whole e he]; exact ⟨nofun, fun _ => nofun⟩)
    (fun e he => by rw [m.sound.start_first] at he; cases he)
  refine ⟨by unfold firstOf; rw [h]; rfl, ?_⟩
  exact (stages_mem (N := N) (v := p.start) (by rw [h]; simp)).1

theorem Made.project (m : Made p opt N) :
    (graphOf N).Project (number N.ids (.last p.start)) (List.range N.ids.length) := by
  have hw := m.workGraph (List.Perm.refl _)
  obtain ⟨h1, h2⟩ := m.start_stage
  refine ⟨hw.once, hw.linked, List.mem_range.2 (number_lt h2), hw.closed, ?_, ?_⟩
  · intro v
    induction v using Nat.strongRecOn with
    | _ v ih =>
      intro hv
      have hx := List.getElem?_eq_getElem (List.mem_range.1 hv)
      generalize N.ids[v]'(List.mem_range.1 hv) = x at hx
      have hmem : x ∈ N.ids := List.mem_of_getElem? hx
      rw [← number_getElem m.inv.nodup hx]
      by_cases he : x = .last p.start
      · rw [he]; exact Relation.ReflTransGen.refl
      · obtain ⟨e, hee, rfl⟩ := C34.every_stage_reached m.sound.wf (fun _ => m.sound.simple) m.eq p.start m.sound.reached x hmem
          (by rw [h1]; exact he)
        obtain ⟨e1, e2, e3⟩ := m.forward hee
        rw [number_getElem m.inv.nodup hx] at e3
        exact (ih _ e3 (List.mem_range.2 (number_lt e1))).tail ⟨_, mem_to.2 ⟨e, hee, rfl, rfl⟩, rfl⟩
  · refine Graph.acyclic_before_ofEdges id fun x hx => ?_
    obtain ⟨e, he, rfl⟩ := List.mem_map.1 hx
    exact (m.forward he).2.2

/-- Restructuring and the second correction of priorities succeed. -/
theorem prepare_spec (hp : SoundProject p) {prio : Nat → Int}
    (h : ∀ v ∈ p.works, ∀ e ∈ p.graph.edgesTo v, prio e.start ≤ prio v) (opt : Bool) :
    ∃ N nodes, Made p opt N ∧ nodes.Perm (List.range N.ids.length) ∧
      prepare p prio opt = some ⟨N.ids, graphOf N, nodes, stagePrio N prio⟩ := by
  obtain ⟨N, m⟩ := made hp opt
  obtain ⟨nodes, h1, h2⟩ := C33.ends m.project (le_refl _)
  refine ⟨N, nodes, m, h2, ?_⟩
  unfold prepare
  rw [m.eq, Option.bind_some, h1, Option.bind_some]
  have h3 : Priority.correct (graphOf N).parents nodes.length nodes (stagePrio N prio) = some (stagePrio N prio) :=
    C21.consistent_unchanged _ _ _ _ fun v _ w hw => m.stagePrio_le h (parents_mem hw)
  exact (congrArg _ h3).trans rfl

/-! ### Stages of a work form a chain -/

private theorem chain_reach {α : Type} {R : α → α → Prop} {l : List α} (h : l.IsChain R) (d : α) :
    ∀ x ∈ l, Relation.ReflTransGen R (l.headD d) x ∧ Relation.ReflTransGen R x (l.getLastD d) := by
  induction l with
  | nil => intro x hx; cases hx
  | cons a l ih =>
    cases l with
    | nil => intro x hx; rw [List.mem_singleton.1 hx]; exact ⟨.refl, .refl⟩
    | cons b l =>
      rw [List.isChain_cons_cons] at h
      have ih := ih h.2
      have hlast : (a :: b :: l).getLastD d = (b :: l).getLastD d := by simp
      intro x hx
      rw [hlast]
      rcases List.mem_cons.1 hx with rfl | hx
      · exact ⟨.refl, .head h.1 (ih b List.mem_cons_self).2⟩
      · exact ⟨.head h.1 (ih x hx).1, (ih x hx).2⟩

theorem Made.stages_chain (m : Made p opt N) {v : Nat} (hv : v ∈ p.works) {x : NewId} (hx : x ∈ (stagesOf N v).map (·.1)) :
    (graphOf N).InChain (number N.ids (firstOf N v)) (number N.ids x) ∧
      (graphOf N).InChain (number N.ids x) (number N.ids (lastOf N v)) := by
  have lift : ∀ {a b}, Relation.ReflTransGen (fun a b => (⟨a, b, 0, .inseparable⟩ : NewEdge) ∈ N.edges) a b →
      (graphOf N).InChain (number N.ids a) (number N.ids b) := by
    intro a b h
    induction h with
    | refl => exact .refl
    | tail _ h ih => exact ih.tail ⟨_, mem_to.2 ⟨_, h, rfl, rfl⟩, rfl, rfl⟩
  obtain ⟨h1, h2⟩ := chain_reach (m.inv.linked v hv) (.last v) x hx
  exact ⟨lift h1, lift h2⟩

theorem Made.ends_mem (m : Made p opt N) {v : Nat} (hv : v ∈ p.works) :
    firstOf N v ∈ (stagesOf N v).map (·.1) ∧ lastOf N v ∈ (stagesOf N v).map (·.1) := by
  obtain ⟨k, hk⟩ := m.inv.work v hv
  have hne : (stagesOf N v).map (·.1) ≠ [] := by rw [hk.ids]; simp
  unfold firstOf lastOf
  obtain ⟨a, l, hl⟩ := List.exists_cons_of_ne_nil hne
  rw [hl]
  refine ⟨by simp, ?_⟩
  rw [List.getLastD_cons]
  cases l with
  | nil => simp
  | cons b l => rw [List.getLastD_eq_getLast?, List.getLast?_eq_some_getLast (by simp)]; simp

theorem Made.first_head (m : Made p opt N) {nodes : List Nat} (hn : nodes.Perm (List.range N.ids.length)) {v : Nat}
    (hv : v ∈ p.works) : (graphOf N).IsHead nodes (number N.ids (firstOf N v)) := by
  obtain ⟨h1, hw⟩ := stages_mem (m.ends_mem hv).1
  refine ⟨hn.mem_iff.2 (List.mem_range.2 (number_lt h1)), ?_⟩
  rintro a ⟨x, hx, -, ht⟩
  obtain ⟨e, he, rfl, hf⟩ := mem_to.1 hx
  have hf := number_inj (m.forward he).2.1 hf
  obtain ⟨-, -, l₁, l₂, hl⟩ := m.chain_edge he ht
  rw [hf, hw] at hl
  have hnd := m.stages_nodup v
  have hfirst : ((stagesOf N v).map (·.1))[0]? = some (firstOf N v) := by
    obtain ⟨b, l, hb⟩ := List.exists_cons_of_ne_nil (List.ne_nil_of_mem (m.ends_mem hv).1)
    unfold firstOf
    rw [hb]; rfl
  have hsnd : ((stagesOf N v).map (·.1))[l₁.length + 1]? = some (firstOf N v) := by rw [hl]; simp
  have := (List.getElem?_inj (List.getElem?_eq_some_iff.1 hfirst).1 hnd).1 (hfirst.trans hsnd.symm)
  omega

/-- A stage of a work. -/
theorem Made.stage (m : Made p opt N) {i v : Nat} (h : wk N i = some v) :
    v ∈ p.works ∧ i < N.ids.length ∧ ∃ x ∈ (stagesOf N v).map (·.1), number N.ids x = i := by
  obtain ⟨x, hx, rfl⟩ := Option.map_eq_some_iff.1 h
  have hmem : x ∈ N.ids := List.mem_of_getElem? hx
  exact ⟨m.work_mem hmem, (List.getElem?_eq_some_iff.1 hx).1, x, mem_stages hmem, number_getElem m.inv.nodup hx⟩

theorem Made.stage_of (m : Made p opt N) {i : Nat} (h : i < N.ids.length) : ∃ v ∈ p.works, wk N i = some v := by
  have hx := List.getElem?_eq_getElem h
  refine ⟨N.ids[i].work, m.work_mem (List.getElem_mem h), ?_⟩
  unfold wk; rw [hx]; rfl

theorem Made.follows_lt (m : Made p opt N) {a b : Nat} (h : (graphOf N).Follows a b) : a < b ∧ b < N.ids.length := by
  obtain ⟨x, hx, rfl, -⟩ := h
  obtain ⟨e, he, rfl, rfl⟩ := mem_to.1 hx
  exact ⟨(m.forward he).2.2, number_lt (m.forward he).2.1⟩

theorem Made.inChain_le (m : Made p opt N) {a b : Nat} (h : (graphOf N).InChain a b) : a ≤ b := by
  induction h with
  | refl => exact Nat.le_refl _
  | tail _ h ih => exact Nat.le_trans ih (Nat.le_of_lt (m.follows_lt h).1)

/-- Of two stages of a work the one with the smaller number comes first in the chain. -/
theorem Made.stages_order (m : Made p opt N) {i j v : Nat} (hij : i < j) (hi : wk N i = some v) (hj : wk N j = some v) :
    Relation.TransGen (graphOf N).Follows i j := by
  obtain ⟨hv, -, x, hx, rfl⟩ := m.stage hi
  obtain ⟨-, -, y, hy, rfl⟩ := m.stage hj
  have h := Relation.ReflTransGen.total_of_right_unique (r := (graphOf N).Follows) (fun a b c hb hc => m.chains.oneSon a b c hb hc)
    (m.stages_chain hv hx).1 (m.stages_chain hv hy).1
  rcases h with h | h
  · rcases Relation.reflTransGen_iff_eq_or_transGen.1 h with h | h
    · omega
    · exact h
  · have := m.inChain_le h
    omega

/-! ### From a valid schedule of the stages to the project -/

section Schedule

variable {nodes : List Nat} {cs : List Contractor} {spec : Nat → WorkSpec} {reqs : Nat → List WorkerReq} {s : Sched}
  {pool : AgentId → Option Int} {accepts : Nat → List Worker → Nat → Prop}

theorem Made.scheduled (m : Made p opt N) (hn : nodes.Perm (List.range N.ids.length))
    (F : Feasible (graphOf N) nodes pool accepts s) {i v : Nat} (h : wk N i = some v) :
    ∃ x, s.get i = some x ∧ accepts (number N.ids (firstOf N v)) x.team x.contractor := by
  obtain ⟨hv, -, x, hx, rfl⟩ := m.stage h
  exact F.staffed _ _ (m.first_head hn hv) (m.stages_chain hv hx).1

theorem Made.chain_times (m : Made p opt N) (hn : nodes.Perm (List.range N.ids.length))
    (F : Feasible (graphOf N) nodes pool accepts s) {a b : Nat} (h : (graphOf N).InChain a b) :
    ∀ x y, s.get a = some x → s.get b = some y →
      x.start ≤ y.start ∧ x.finish ≤ y.finish ∧ x.team = y.team ∧ x.contractor = y.contractor := by
  induction h with
  | refl => intro x y hx hy; rw [hx] at hy; cases hy; exact ⟨le_refl _, le_refl _, rfl, rfl⟩
  | tail _ h ih =>
    intro x y hx hy
    obtain ⟨z, y', hz, hy', h1, h2, h3⟩ := F.chains _ _ (hn.mem_iff.2 (List.mem_range.2 (m.follows_lt h).2)) h
    rw [hy] at hy'; cases hy'
    obtain ⟨i1, i2, i3, i4⟩ := ih x z hx hz
    have t1 := F.times _ _ hz
    have t2 := F.times _ _ hy
    exact ⟨by omega, by omega, i3.trans h2, i4.trans h3⟩

theorem Made.chain_after (m : Made p opt N) (hn : nodes.Perm (List.range N.ids.length))
    (F : Feasible (graphOf N) nodes pool accepts s) {a b : Nat} (h : Relation.TransGen (graphOf N).Follows a b) :
    ∀ x y, s.get a = some x → s.get b = some y → x.finish ≤ y.start := by
  induction h with
  | single h =>
    intro x y hx hy
    obtain ⟨x', y', hx', hy', h1, -⟩ := F.chains _ _ (hn.mem_iff.2 (List.mem_range.2 (m.follows_lt h).2)) h
    rw [hx] at hx'; rw [hy] at hy'; cases hx'; cases hy'; exact h1
  | tail _ h ih =>
    intro x y hx hy
    obtain ⟨z, y', hz, hy', h1, -⟩ := F.chains _ _ (hn.mem_iff.2 (List.mem_range.2 (m.follows_lt h).2)) h
    rw [hy] at hy'; cases hy'
    have := ih x z hx hz
    have t1 := F.times _ _ hz
    omega

/-- Times of stages as numbers. -/
def startOf (N : New) (s : Sched) (x : NewId) : Int := ((s.get (number N.ids x)).map (·.start)).getD 0

def finishOf (N : New) (s : Sched) (x : NewId) : Int := ((s.get (number N.ids x)).map (·.finish)).getD 0

theorem Made.begins (m : Made p opt N) (hn : nodes.Perm (List.range N.ids.length))
    (F : Feasible (graphOf N) nodes pool accepts s) {P : Prepared} (hP : P.ids = N.ids) {v : Nat} (hv : v ∈ p.works) :
    Begins P s v (startOf N s (firstOf N v)) ∧ Ends P s v (finishOf N s (lastOf N v)) := by
  have hw : ∀ i, P.workOf i = wk N i := fun i => by unfold Prepared.workOf wk; rw [hP]
  obtain ⟨hf, hl⟩ := m.ends_mem hv
  have kf : wk N (number N.ids (firstOf N v)) = some v := by rw [wk_number (stages_mem hf).1, (stages_mem hf).2]
  have kl : wk N (number N.ids (lastOf N v)) = some v := by rw [wk_number (stages_mem hl).1, (stages_mem hl).2]
  obtain ⟨x, hx, -⟩ := m.scheduled hn F kf
  obtain ⟨y, hy, -⟩ := m.scheduled hn F kl
  have e1 : startOf N s (firstOf N v) = x.start := by unfold startOf; rw [hx]; rfl
  have e2 : finishOf N s (lastOf N v) = y.finish := by unfold finishOf; rw [hy]; rfl
  rw [e1, e2]
  refine ⟨⟨⟨_, x, (hw _).trans kf, hx, rfl⟩, fun i z hi hz => ?_⟩, ⟨_, y, (hw _).trans kl, hy, rfl⟩, fun i z hi hz => ?_⟩
  · rw [hw] at hi
    obtain ⟨-, -, w, hw', rfl⟩ := m.stage hi
    exact (m.chain_times hn F (m.stages_chain hv hw').1 x z hx hz).1
  · rw [hw] at hi
    obtain ⟨-, -, w, hw', rfl⟩ := m.stage hi
    exact (m.chain_times hn F (m.stages_chain hv hw').2 z y hz hy).2.1

theorem Made.follows_times (m : Made p opt N) (hn : nodes.Perm (List.range N.ids.length))
    (F : Feasible (graphOf N) nodes pool accepts s) :
    Follows N (fun x => (startOf N s x : ℚ)) fun x => (finishOf N s x : ℚ) := by
  have get : ∀ x ∈ N.ids, ∃ y, s.get (number N.ids x) = some y := fun x hx => by
    obtain ⟨y, hy, -⟩ := m.scheduled hn F (wk_number hx)
    exact ⟨y, hy⟩
  refine ⟨fun x hx => ?_, fun e he => ?_⟩
  · obtain ⟨y, hy⟩ := get x hx
    have := F.times _ _ hy
    simp only [startOf, finishOf, hy, Option.map_some, Option.getD_some]
    exact_mod_cast this
  · obtain ⟨h1, h2, -⟩ := m.forward he
    obtain ⟨y, hy⟩ := get _ h2
    obtain ⟨x, hx, hle⟩ := F.precedence _ _ hy _ (mem_to.2 ⟨e, he, rfl, rfl⟩)
    have hx : s.get (number N.ids e.start) = some x := hx
    have hle : x.finish + ⌈e.lag⌉ ≤ y.start := hle
    simp only [startOf, finishOf, hy, hx, Option.map_some, Option.getD_some]
    have hc := Int.le_ceil e.lag
    have hq : (x.finish : ℚ) + (⌈e.lag⌉ : ℚ) ≤ (y.start : ℚ) := by exact_mod_cast hle
    linarith

/-- A valid schedule of the stages does the project. -/
theorem Made.executes (m : Made p opt N) (hn : nodes.Perm (List.range N.ids.length)) (hcs : C16.SoundContractors cs)
    {P : Prepared} (hP : P.ids = N.ids)
    (F : Feasible (graphOf N) nodes (LFT.agents cs) (C89.Staffs cs spec (reqsOf p P)) s) : Executes p cs P s := by
  have hw : ∀ i, P.workOf i = wk N i := fun i => by unfold Prepared.workOf wk; rw [hP]
  refine ⟨fun v hv => ?_, fun i j v x y hij hi hj hx hy => ?_, ?_, fun v hv e he => ?_, fun c hc kind n hk h0 t => ?_⟩
  · obtain ⟨hf, -⟩ := m.ends_mem hv
    have kf : wk N (number N.ids (firstOf N v)) = some v := by rw [wk_number (stages_mem hf).1, (stages_mem hf).2]
    obtain ⟨x, hx, c, hc, hid, -, hmeet⟩ := m.scheduled hn F kf
    have hr : reqsOf p P (number N.ids (firstOf N v)) = p.reqs v := by unfold reqsOf; rw [hw, kf]; rfl
    rw [hr] at hmeet
    refine ⟨c, hc, x.team, hmeet, ⟨_, (hw _).trans kf⟩, fun i hi => ?_⟩
    rw [hw] at hi
    obtain ⟨y, hy, -⟩ := m.scheduled hn F hi
    obtain ⟨-, -, w, hw', rfl⟩ := m.stage hi
    obtain ⟨-, -, h3, h4⟩ := m.chain_times hn F (m.stages_chain hv hw').1 x y hx hy
    exact ⟨y, hy, F.times _ _ hy, by rw [← h4, hid], h3.symm⟩
  · rw [hw] at hi hj
    exact m.chain_after hn F (m.stages_order hij hi hj) x y hx hy
  · refine ⟨(F.works.trans hn).nodup_iff.2 List.nodup_range, fun i x hx => ?_⟩
    have : i ∈ s.works := List.mem_map_of_mem (mem_of_get hx)
    have := List.mem_range.1 ((F.works.trans hn).mem_iff.1 this)
    simp only [hw]
    exact m.stage_of this
  · have hu := (position m.sound hv he).1
    obtain ⟨b1, b2⟩ := m.begins hn F hP hu
    obtain ⟨c1, c2⟩ := m.begins hn F hP hv
    refine ⟨_, _, _, _, b1, b2, c1, c2, ?_⟩
    have hk := C34.dependencies_kept m.sound.wf (fun _ => m.sound.simple) m.eq _ _ (m.follows_times hn F) v hv e he
    rw [(m.sound.wf.entering v hv e he).1] at hk
    have hfin : startOf N s (firstOf N v) ≤ finishOf N s (lastOf N v) := by
      obtain ⟨⟨i, x, hi, hx, h⟩, -⟩ := c1
      have := c2.2 i x hi hx
      have := F.times _ _ hx
      omega
    have hfin' : startOf N s (firstOf N e.start) ≤ finishOf N s (lastOf N e.start) := by
      obtain ⟨⟨i, x, hi, hx, h⟩, -⟩ := b1
      have := b2.2 i x hi hx
      have := F.times _ _ hx
      omega
    unfold Demands
    cases ht : e.type <;> rw [ht] at hk <;> dsimp only at hk ⊢
    case lagFinishStart =>
      split at hk
      · exact_mod_cast hk
      · have : finishOf N s (lastOf N e.start) ≤ startOf N s (firstOf N v) := by exact_mod_cast hk
        omega
    all_goals exact_mod_cast hk
  · refine F.capacity (c.id, kind) n ?_ h0 t
    show getPool cs kind c.id = some n
    rw [getPool_of_mem hcs.1 hcs.2 hc, hk]

end Schedule

end Sampo.AutoPipeline
