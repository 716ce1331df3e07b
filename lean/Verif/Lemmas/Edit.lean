import Verif.Spec.Edit
import Verif.Lemmas.Serialize

namespace Sampo.Graph

variable {g : Graph} {ν : Nat → Nat} {nodes ex : List Nat} {start : Nat}

/-- Edges between works that are not excluded, in the order in which copying adds them. -/
def among (g : Graph) (nodes ex : List Nat) : List Edge :=
  (nodes.filter fun v => !ex.contains v).flatMap fun v =>
    (g.edgesTo v).filter fun e => nodes.contains e.start && !ex.contains e.start

theorem addParents_map (hl : g.Linked) (g0 : Graph) (v : Nat) (q : Edge → Bool) :
    g0.addParents (ν v) (((g.edgesTo v).filter q).map fun e => (ν e.start, e.lag, e.type)) =
      (((g.edgesTo v).filter q).map (Edge.rename ν)).foldl addEdge g0 := by
  unfold addParents
  rw [List.foldl_map, List.foldl_map]
  apply List.foldl_ext
  intro a e he
  have := hl.finish v e (List.mem_filter.mp he).1
  subst this
  rfl

theorem copy_foldl (hl : g.Linked) (q : Edge → Bool) : ∀ (l : List Nat) (g0 : Graph),
    l.foldl (fun g' v => g'.addParents (ν v) (((g.edgesTo v).filter q).map fun e => (ν e.start, e.lag, e.type))) g0 =
      ((l.flatMap fun v => (g.edgesTo v).filter q).map (Edge.rename ν)).foldl addEdge g0
  | [], g0 => rfl
  | v :: l, g0 => by
    rw [List.foldl_cons, copy_foldl hl q l, List.flatMap_cons, List.map_append, List.foldl_append, addParents_map hl]

theorem copy_eq (hl : g.Linked) : g.copy nodes ex ν = ofEdges ((g.among nodes ex).map (Edge.rename ν)) :=
  copy_foldl hl _ _ _

theorem among_nil (hcl : g.ClosedIn nodes) : g.among nodes [] = nodes.flatMap g.edgesTo := by
  unfold among
  rw [List.filter_eq_self.2 (by simp)]
  refine List.flatMap_congr fun v hv => List.filter_eq_self.2 fun e he => ?_
  simpa using (hcl v hv).1 e he

theorem mem_among (hl : g.Linked) {e : Edge} : e ∈ g.among nodes ex ↔
    e ∈ g.edgesTo e.finish ∧ (e.start ∈ nodes ∧ e.start ∉ ex) ∧ e.finish ∈ nodes ∧ e.finish ∉ ex := by
  unfold among
  simp only [List.mem_flatMap, List.mem_filter]
  constructor
  · rintro ⟨v, ⟨hv, hx⟩, he, h⟩
    have := hl.finish v e he
    subst this
    exact ⟨he, by simpa using h, hv, by simpa using hx⟩
  · rintro ⟨he, h, hv, hx⟩
    exact ⟨e.finish, ⟨hv, by simpa using hx⟩, he, by simpa using h⟩

theorem filter_rename {L : List Edge} (hν : DistinctNames ν nodes) {v : Nat} (hv : v ∈ nodes)
    {f : Edge → Nat} (hf : ∀ e, f (Edge.rename ν e) = ν (f e)) (hL : ∀ e ∈ L, f e ∈ nodes) :
    (L.map (Edge.rename ν)).filter (fun e => f e = ν v) = (L.filter fun e => f e = v).map (Edge.rename ν) := by
  rw [List.filter_map]
  congr 1
  refine List.filter_congr fun e he => ?_
  simp only [Function.comp, hf]
  refine decide_eq_decide.2 ⟨fun h => hν _ (hL e he) _ hv h, fun h => by rw [h]⟩

theorem ofEdges_rename_to {L : List Edge} (hν : DistinctNames ν nodes) (hL : ∀ e ∈ L, e.finish ∈ nodes) {v : Nat} (hv : v ∈ nodes) :
    (ofEdges (L.map (Edge.rename ν))).edgesTo (ν v) = ((ofEdges L).edgesTo v).map (Edge.rename ν) := by
  rw [ofEdges_to, ofEdges_to]
  exact filter_rename hν hv (fun _ => rfl) hL

theorem ofEdges_rename_from {L : List Edge} (hν : DistinctNames ν nodes) (hL : ∀ e ∈ L, e.start ∈ nodes) {v : Nat} (hv : v ∈ nodes) :
    (ofEdges (L.map (Edge.rename ν))).edgesFrom (ν v) = ((ofEdges L).edgesFrom v).map (Edge.rename ν) := by
  rw [ofEdges_from, ofEdges_from]
  exact filter_rename hν hv (fun _ => rfl) hL

theorem closed_flatMap (hl : g.Linked) (hcl : g.ClosedIn nodes) :
    ∀ e ∈ nodes.flatMap g.edgesTo, e.start ∈ nodes ∧ e.finish ∈ nodes := by
  intro e he
  obtain ⟨v, hv, he⟩ := List.mem_flatMap.1 he
  exact ⟨(hcl v hv).1 e he, by rw [hl.finish v e he]; exact hv⟩

theorem copy_edgesTo (hl : g.Linked) (hn : nodes.Nodup) (hcl : g.ClosedIn nodes) (hν : DistinctNames ν nodes) {v : Nat}
    (hv : v ∈ nodes) : (g.copy nodes [] ν).edgesTo (ν v) = (g.edgesTo v).map (Edge.rename ν) := by
  rw [copy_eq hl, among_nil hcl, ofEdges_rename_to hν (fun e he => (closed_flatMap hl hcl e he).2) hv, edgesTo_eq hl hn,
    if_pos hv]

theorem copy_edgesFrom (hl : g.Linked) (hn : nodes.Nodup) (hcl : g.ClosedIn nodes) (hν : DistinctNames ν nodes) {v : Nat}
    (hv : v ∈ nodes) : ((g.copy nodes [] ν).edgesFrom (ν v)).Perm ((g.edgesFrom v).map (Edge.rename ν)) := by
  rw [copy_eq hl, among_nil hcl, ofEdges_rename_from hν (fun e he => (closed_flatMap hl hcl e he).1) hv]
  exact (edgesFrom_perm hl hn hcl hv).map _

theorem copy_linked (hl : g.Linked) : (g.copy nodes ex ν).Linked := by rw [copy_eq hl]; exact linked_ofEdges _

/-- Works of an edge of a copy are copies. -/
theorem copy_before (hl : g.Linked) {a b : Nat} (h : (g.copy nodes ex ν).Before a b) :
    ∃ e ∈ g.among nodes ex, a = ν e.start ∧ b = ν e.finish := by
  obtain ⟨e', he', rfl⟩ := h
  rw [copy_eq hl, ofEdges_to, List.mem_filter] at he'
  obtain ⟨e, he, rfl⟩ := List.mem_map.mp he'.1
  exact ⟨e, he, rfl, by have := he'.2; simp only [decide_eq_true_eq] at this; exact this.symm⟩

theorem copy_closed (hl : g.Linked) : (g.copy nodes ex ν).ClosedIn ((nodes.filter fun v => !ex.contains v).map ν) := by
  rw [copy_eq hl]
  apply closed_ofEdges
  intro e' he'
  obtain ⟨e, he, rfl⟩ := List.mem_map.mp he'
  obtain ⟨_, h1, h2⟩ := (mem_among hl).mp he
  exact ⟨List.mem_map_of_mem (List.mem_filter.mpr ⟨h1.1, by simpa using h1.2⟩),
    List.mem_map_of_mem (List.mem_filter.mpr ⟨h2.1, by simpa using h2.2⟩)⟩

theorem copy_trans (hl : g.Linked) (hν : DistinctNames ν nodes) {a b : Nat}
    (h : Relation.TransGen (g.copy nodes ex ν).Before a b) :
    ∃ u v, u ∈ nodes ∧ v ∈ nodes ∧ u ∉ ex ∧ v ∉ ex ∧ a = ν u ∧ b = ν v ∧ Relation.TransGen g.Before u v := by
  induction h with
  | single h =>
    obtain ⟨e, he, rfl, rfl⟩ := copy_before hl h
    obtain ⟨h0, h1, h2⟩ := (mem_among hl).mp he
    exact ⟨_, _, h1.1, h2.1, h1.2, h2.2, rfl, rfl, Relation.TransGen.single ⟨e, h0, rfl⟩⟩
  | tail _ h ih =>
    obtain ⟨u, v, hu, hv, hxu, hxv, rfl, rfl, hp⟩ := ih
    obtain ⟨e, he, he1, rfl⟩ := copy_before hl h
    obtain ⟨h0, h1, h2⟩ := (mem_among hl).mp he
    have := hν _ hv _ h1.1 he1
    subst this
    exact ⟨_, _, hu, h2.1, hxu, h2.2, rfl, rfl, hp.tail ⟨e, h0, rfl⟩⟩

theorem copy_step (hl : g.Linked) {p v : Nat} (h : g.Before p v) (hp : p ∈ nodes ∧ p ∉ ex) (hv : v ∈ nodes ∧ v ∉ ex) :
    (g.copy nodes ex ν).Before (ν p) (ν v) := by
  obtain ⟨e, he, rfl⟩ := h
  have := hl.finish v e he
  subst this
  refine ⟨Edge.rename ν e, ?_, rfl⟩
  rw [copy_eq hl, ofEdges_to, List.mem_filter]
  exact ⟨List.mem_map_of_mem ((mem_among hl).mpr ⟨he, hp, hv⟩), by simp [Edge.rename]⟩

theorem reaches_mem (hl : g.Linked) (hcl : g.ClosedIn nodes) {u v : Nat} (hu : u ∈ nodes) (h : g.Reaches u v) : v ∈ nodes := by
  induction h with
  | refl => exact hu
  | tail _ hstep ih =>
    obtain ⟨e, he, hf⟩ := from_of_before hl hstep
    rw [← hf]
    exact (hcl _ ih).2 e he

theorem copy_reaches (hl : g.Linked) (hcl : g.ClosedIn nodes) {u v : Nat} (hu : u ∈ nodes) (h : g.Reaches u v) :
    (g.copy nodes [] ν).Reaches (ν u) (ν v) := by
  induction h with
  | refl => exact Relation.ReflTransGen.refl
  | tail h1 h2 ih =>
    exact ih.tail (copy_step hl h2 ⟨reaches_mem hl hcl hu h1, by simp⟩ ⟨reaches_mem hl hcl hu (h1.tail h2), by simp⟩)

theorem nodup_map_names (hν : DistinctNames ν nodes) (hn : nodes.Nodup) : (nodes.map ν).Nodup :=
  hn.map_on fun a ha b hb h => hν a ha b hb h

theorem copy_project (hp : g.Project start nodes) (hν : DistinctNames ν nodes) :
    (g.copy nodes [] ν).Project (ν start) (nodes.map ν) where
  once := nodup_map_names hν hp.once
  linked := copy_linked hp.linked
  start_mem := List.mem_map_of_mem hp.start_mem
  closed := by simpa using copy_closed (ex := []) (ν := ν) (nodes := nodes) hp.linked
  reach := by
    intro v' hv'
    obtain ⟨v, hv, rfl⟩ := List.mem_map.mp hv'
    exact copy_reaches hp.linked hp.closed hp.start_mem (hp.reach v hv)
  acyclic := by
    intro v' hv' hc
    obtain ⟨u, v, hu, hv, _, _, h1, h2, h⟩ := copy_trans hp.linked hν hc
    have := hν _ hu _ hv (h1.symm.trans h2)
    subst this
    exact hp.acyclic u hu h

end Sampo.Graph
