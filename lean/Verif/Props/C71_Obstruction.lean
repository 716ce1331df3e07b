import Verif.Model.Obstruction
import Verif.Props.C70_Copies

/-!
# C71: insertion of a graph into a work graph
-/

namespace Sampo.C71

open Lifetime C70

variable {g : Graph} {wg insert : Obj}

/-- Two graph objects of projects without common works. -/
structure Separate (g : Graph) (wg insert : Obj) : Prop where
  first : g.Project wg.start wg.nodes
  second : g.Project insert.start insert.nodes
  apart : ∀ v ∈ wg.nodes, v ∉ insert.nodes

/-- Two links are new: from `v` to the start of the inserted graph, from there to `child`. -/
structure Joined (g g' : Graph) (insert v child : Nat) : Prop where
  linked : g'.Linked
  old : ∀ a b lag t, ⟨a, b, lag, t⟩ ∈ g'.edgesTo b ↔ ⟨a, b, lag, t⟩ ∈ g.edgesTo b ∨
    (lag = 0 ∧ t = EdgeType.finishStart ∧ (a = v ∧ b = insert ∨ a = insert ∧ b = child))

private def joined (g : Graph) (start v child : Nat) : Graph :=
  (g.addEdge ⟨v, start, 0, .finishStart⟩).addEdge ⟨start, child, 0, .finishStart⟩

private theorem joined_ok (hl : g.Linked) (start v child : Nat) : Joined g (joined g start v child) start v child := by
  refine ⟨Graph.linked_addEdge (Graph.linked_addEdge hl _) _, fun a b lag t => ?_⟩
  unfold joined Graph.addEdge
  dsimp only
  by_cases h1 : b = child <;> by_cases h2 : b = start <;> simp [h1, h2] <;> grind

private theorem before_iff (g' : Graph) (hl : g'.Linked) (a b : Nat) : g'.Before a b ↔ ∃ lag t, (⟨a, b, lag, t⟩ : Edge) ∈ g'.edgesTo b := by
  constructor
  · rintro ⟨e, he, rfl⟩
    have := hl.finish b e he
    subst this
    exact ⟨e.lag, e.type, he⟩
  · rintro ⟨lag, t, he⟩
    exact ⟨_, he, rfl⟩

private theorem joined_before {g' : Graph} {start v child : Nat} (hl : g.Linked) (h : Joined g g' start v child) (a b : Nat) :
    g'.Before a b ↔ g.Before a b ∨ a = v ∧ b = start ∨ a = start ∧ b = child := by
  rw [before_iff g' h.linked, before_iff g hl]
  constructor
  · rintro ⟨lag, t, he⟩
    rcases (h.old ..).1 he with h1 | ⟨-, -, h1⟩
    · exact Or.inl ⟨lag, t, h1⟩
    · exact Or.inr h1
  · rintro (⟨lag, t, h1⟩ | h1)
    · exact ⟨lag, t, (h.old ..).2 (Or.inl h1)⟩
    · exact ⟨0, .finishStart, (h.old ..).2 (Or.inr ⟨rfl, rfl, h1⟩)⟩

private theorem closed_before {nodes : List Nat} (hl : g.Linked) (hc : g.ClosedIn nodes) {a b : Nat} (h : g.Before a b) :
    a ∈ nodes ↔ b ∈ nodes := by
  obtain ⟨e, he, rfl⟩ := h
  constructor
  · intro ha
    have hb := hl.finish b e he
    subst hb
    exact (hc _ ha).2 e ((hl.both e).1 he)
  · exact fun hb => (hc _ hb).1 e he

private theorem project_joined {v child : Nat} (hs : Separate g wg insert) (hv : v ∈ wg.nodes) (hchild : g.Before v child) {g' : Graph}
    (h : Joined g g' insert.start v child) : g'.Project wg.start (wg.nodes ++ insert.nodes) := by
  have hl := hs.first.linked
  have hb := joined_before hl h
  have hc1 := fun a b => closed_before hl hs.first.closed (a := a) (b := b)
  have hc2 := fun a b => closed_before hl hs.second.closed (a := a) (b := b)
  have hchildM : child ∈ wg.nodes := (hc1 _ _ hchild).1 hv
  have hsM := hs.second.start_mem
  have mem : ∀ a b, g'.Before a b → (a ∈ wg.nodes ++ insert.nodes ↔ b ∈ wg.nodes ++ insert.nodes) := by
    intro a b hab
    rw [List.mem_append, List.mem_append]
    rcases (hb a b).1 hab with h1 | ⟨rfl, rfl⟩ | ⟨rfl, rfl⟩
    · rw [hc1 a b h1, hc2 a b h1]
    · exact ⟨fun _ => Or.inr hsM, fun _ => Or.inl hv⟩
    · exact ⟨fun _ => Or.inl hchildM, fun _ => Or.inr hsM⟩
  have up : ∀ a b, g.Reaches a b → g'.Reaches a b := fun a b hr =>
    Relation.ReflTransGen.mono (fun x y hxy => (hb x y).2 (Or.inl hxy)) _ _ hr
  refine ⟨?_, h.linked, List.mem_append_left _ hs.first.start_mem, ?_, ?_, ?_⟩
  · exact List.nodup_append.2 ⟨hs.first.once, hs.second.once, fun a ha b hb' hab => hs.apart a ha (hab ▸ hb')⟩
  · intro w hw
    refine ⟨fun e he => (mem e.start w ⟨e, he, rfl⟩).2 hw, fun e he => ?_⟩
    have := h.linked.start w e he
    subst this
    exact (mem e.start e.finish ⟨e, (h.linked.both e).2 he, rfl⟩).1 hw
  · intro w hw
    rcases List.mem_append.1 hw with hw | hw
    · exact up _ _ (hs.first.reach w hw)
    · exact ((up _ _ (hs.first.reach v hv)).tail ((hb _ _).2 (Or.inr (Or.inl ⟨rfl, rfl⟩)))).trans (up _ _ (hs.second.reach w hw))
  · classical
    let block : Nat → Nat := fun u => if u ∈ insert.nodes then 1 else if g.Reaches child u then 2 else 0
    have bv : block v = 0 := by
      have h1 : ¬ g.Reaches child v := fun hr => hs.first.acyclic v hv (Relation.TransGen.head' hchild hr)
      simp [block, hs.apart v hv, h1]
    have bs : block insert.start = 1 := by simp [block, hsM]
    have bc : block child = 2 := by
      have : g.Reaches child child := Relation.ReflTransGen.refl
      simp [block, hs.apart child hchildM, this]
    have step : ∀ a b, g'.Before a b → block a ≤ block b ∧ (block a = block b → g.Before a b) := by
      intro a b hab
      rcases (hb a b).1 hab with h1 | ⟨rfl, rfl⟩ | ⟨rfl, rfl⟩
      · refine ⟨?_, fun _ => h1⟩
        have h2 := hc2 a b h1
        by_cases h3 : a ∈ insert.nodes
        · simp [block, h3, h2.1 h3]
        · have h4 : b ∉ insert.nodes := fun h => h3 (h2.2 h)
          by_cases h5 : g.Reaches child a
          · have : g.Reaches child b := h5.tail h1
            simp [block, h3, h4, h5, this]
          · simp [block, h3, h5]
      · omega
      · omega
    have path : ∀ a b, Relation.TransGen g'.Before a b →
        block a ≤ block b ∧ (block a = block b → Relation.TransGen g.Before a b) := by
      intro a b hab
      induction hab with
      | single h1 => exact ⟨(step _ _ h1).1, fun h => .single ((step _ _ h1).2 h)⟩
      | tail _ h1 ih =>
        have h2 := step _ _ h1
        exact ⟨by omega, fun h => (ih.2 (by omega)).tail (h2.2 (by omega))⟩
    intro w hw hcyc
    have := (path w w hcyc).2 rfl
    rcases List.mem_append.1 hw with hw | hw
    · exact hs.first.acyclic w hw this
    · exact hs.second.acyclic w hw this

private theorem addParent_ofGraph (g : Graph) (v p : Nat) :
    (Store.ofGraph g).addParent v p = (Store.ofGraph (g.addEdge ⟨p, v, 0, .finishStart⟩), true) := by
  simp only [Store.addParent, Store.ofGraph, Graph.addEdge, Prod.mk.injEq, and_true, Store.mk.injEq]
  constructor <;> funext w <;> split <;> simp_all

private theorem children_ofGraph (g : Graph) (start v : Nat) :
    (Store.ofGraph (g.addEdge ⟨v, start, 0, .finishStart⟩)).children v = some (g.children v ++ [start]) := by
  simp [Store.children, Store.ofGraph, Graph.addEdge, Graph.children, List.filter_append, EdgeType.isDependency]

/-- The candidates for the end of the insertion: the successors of the work, and the start of the inserted graph itself. -/
def candidates (g : Graph) (insert : Obj) (v : Nat) : List Nat := g.children v ++ [insert.start]

private theorem insertGraph_ofGraph (g : Graph) (fuel v : Nat) (choose : List Nat → Nat) (kept : Bool) :
    insertGraph (Store.ofGraph g) fuel wg insert v choose kept =
      let g' := joined g insert.start v (choose (candidates g insert v))
      match construct g' fuel wg.start wg.finish with
      | none => .endless
      | some o => .ended o (if kept then Store.ofGraph g' else discard insert (Store.ofGraph g')) := by
  unfold insertGraph
  rw [addParent_ofGraph]
  dsimp only
  rw [children_ofGraph]
  dsimp only
  rw [if_neg (by simp), addParent_ofGraph]
  rfl

private theorem before_of_child (hl : g.Linked) {v c : Nat} (h : c ∈ g.children v) : g.Before v c := by
  unfold Graph.children at h
  obtain ⟨e, he, rfl⟩ := List.mem_map.1 h
  have he := (List.mem_filter.1 he).1
  have := hl.start v e he
  subst this
  exact ⟨e, (hl.both e).2 he, rfl⟩

/-- Partial: if the chosen candidate is a successor of the chosen work, the insertion ends; the graph is then a project of all works of
both graphs, with all their links and two more; with the start of the inserted graph after the chosen work and before the chosen
successor.  Holds as long as the inserted graph is referred to (`not_kept_lost`). -/
theorem inserted_partial (hs : Separate g wg insert) {v : Nat} (hv : v ∈ wg.nodes) {choose : List Nat → Nat}
    (hchoose : choose (candidates g insert v) ∈ g.children v) :
    ∃ g' enough, Joined g g' insert.start v (choose (candidates g insert v)) ∧ g'.Project wg.start (wg.nodes ++ insert.nodes) ∧
      ∀ fuel, enough ≤ fuel → ∃ o, insertGraph (Store.ofGraph g) fuel wg insert v choose true = .ended o (Store.ofGraph g') ∧
        o.start = wg.start ∧ o.finish = wg.finish ∧ o.nodes.Perm (wg.nodes ++ insert.nodes) := by
  have hj := joined_ok hs.first.linked insert.start v (choose (candidates g insert v))
  have hp := project_joined hs hv (before_of_child hs.first.linked hchoose) hj
  refine ⟨_, enough (joined g insert.start v (choose (candidates g insert v))) (wg.nodes ++ insert.nodes), hj, hp, fun fuel hf => ?_⟩
  obtain ⟨o, h1, h2, h3, h4⟩ := constructed (finish := wg.finish) hp hf
  refine ⟨o, ?_, h2, h3, h4⟩
  rw [insertGraph_ofGraph]
  dsimp only
  rw [h1]
  rfl

/-- Not proved because false: "the works after the point of insertion wait for the inserted works".  No inserted work but the start comes
before any work of the graph. -/
theorem nobody_waits (hs : Separate g wg insert) {v : Nat} (hv : v ∈ wg.nodes) {child : Nat} {g' : Graph}
    (h : Joined g g' insert.start v child) {w : Nat} (hw : w ∈ insert.nodes) (hne : w ≠ insert.start) {u : Nat} (hu : u ∈ wg.nodes) :
    ¬ g'.Reaches w u := by
  intro hr
  have key : ∀ x, g'.Reaches w x → x ∈ insert.nodes ∧ x ≠ insert.start := by
    intro x hx
    induction hx with
    | refl => exact ⟨hw, hne⟩
    | @tail y z _ h1 ih =>
      rcases (joined_before hs.first.linked h _ _).1 h1 with h2 | ⟨rfl, rfl⟩ | ⟨rfl, rfl⟩
      · have hz := (closed_before hs.second.linked hs.second.closed h2).1 ih.1
        refine ⟨hz, ?_⟩
        rintro rfl
        exact hs.second.acyclic _ hz (Relation.TransGen.tail' (hs.second.reach _ ih.1) h2)
      · exact absurd ih.1 (hs.apart _ hv)
      · exact absurd rfl ih.2
  exact hs.apart u hu (key u hr).1

/-- Not proved because false: "the insertion ends".  If the random choice takes the last candidate, the start of the inserted graph,
that work gets a link to itself and the call never ends. -/
theorem own_start_endless (hs : Separate g wg insert) {v : Nat} (hv : v ∈ wg.nodes) {choose : List Nat → Nat} {kept : Bool}
    (hchoose : choose (candidates g insert v) = insert.start) (fuel : Nat) :
    insertGraph (Store.ofGraph g) fuel wg insert v choose kept = .endless := by
  rw [insertGraph_ofGraph]
  dsimp only
  rw [hchoose]
  have hj := joined_ok hs.first.linked insert.start v insert.start
  have hb := joined_before hs.first.linked hj
  cases hc : construct (joined g insert.start v insert.start) fuel wg.start wg.finish with
  | none => rfl
  | some o =>
    exfalso
    unfold construct at hc
    obtain ⟨order, h1, -⟩ := Option.map_eq_some_iff.1 hc
    obtain ⟨h2, h3, h4⟩ := C33.reachable_once_predecessors_first hj.linked h1
    have hr : (joined g insert.start v insert.start).Reaches wg.start insert.start :=
      (Relation.ReflTransGen.mono (fun x y hxy => (hb x y).2 (Or.inl hxy)) _ _ (hs.first.reach v hv)).tail ((hb _ _).2 (Or.inr (Or.inl ⟨rfl, rfl⟩)))
    obtain ⟨pre, post, rfl⟩ := List.append_of_mem ((h3 _).2 hr)
    have := h4 pre insert.start post rfl insert.start ((hb _ _).2 (Or.inr (Or.inr ⟨rfl, rfl⟩)))
    rw [List.nodup_append] at h2
    exact h2.2.2 _ this _ (List.mem_cons_self ..) rfl

/-- So the insertion at a work without successors, such as the finish, never ends, whatever is chosen among the candidates. -/
theorem at_finish_endless (hs : Separate g wg insert) {v : Nat} (hv : v ∈ wg.nodes) (hlast : g.children v = []) {choose : List Nat → Nat}
    (hchoose : ∀ l : List Nat, l ≠ [] → choose l ∈ l) {kept : Bool} (fuel : Nat) :
    insertGraph (Store.ofGraph g) fuel wg insert v choose kept = .endless := by
  refine own_start_endless hs hv ?_ fuel
  have := hchoose (candidates g insert v) (by simp [candidates])
  simpa [candidates, hlast] using this

/-- Not proved because false: "the inserted works keep their links".  If only the obstruction referred to the inserted graph, the end of
that graph takes the links of its works, which are now works of the other graph; the other works keep theirs. -/
theorem not_kept_lost {v fuel : Nat} {choose : List Nat → Nat} {o : Obj} {s : Store}
    (h : insertGraph (Store.ofGraph g) fuel wg insert v choose false = .ended o s) :
    Lost s insert.nodes ∧ ∃ g', insertGraph (Store.ofGraph g) fuel wg insert v choose true = .ended o (Store.ofGraph g') ∧
      ∀ w, w ∉ insert.nodes → s.edgesTo w = some (g'.edgesTo w) ∧ s.edgesFrom w = some (g'.edgesFrom w) := by
  rw [insertGraph_ofGraph] at h ⊢
  dsimp only at h ⊢
  cases hc : construct (joined g insert.start v (choose (candidates g insert v))) fuel wg.start wg.finish with
  | none => rw [hc] at h; cases h
  | some o' =>
    rw [hc] at h
    simp only [Outcome.ended.injEq] at h
    obtain ⟨rfl, rfl⟩ := h
    exact ⟨fun w hw => ⟨if_pos hw, if_pos hw⟩, _, rfl, fun w hw => ⟨if_neg hw, if_neg hw⟩⟩

/-- Not proved because false: "a graph given once can be inserted many times" (`from_static_graph`).  The copy to insert has lost its links
(`C70.deepcopy_lost`), so the call raises; the chosen work keeps a link to the start of the copy, which does not know it. -/
theorem static_graph_raises {s : Store} {v : Nat} (hv : s.edgesFrom v = some (g.edgesFrom v)) (hlost : Lost s insert.nodes)
    (hstart : insert.start ∈ insert.nodes) (fuel : Nat) (choose : List Nat → Nat) (kept : Bool) :
    ∃ s', insertGraph s fuel wg insert v choose kept = .raised s' ∧ s'.edgesTo = s.edgesTo ∧
      s'.edgesFrom v = some (g.edgesFrom v ++ [⟨v, insert.start, 0, .finishStart⟩]) ∧ s'.edgesTo insert.start = none := by
  have h1 := (hlost _ hstart).1
  unfold insertGraph Store.addParent
  rw [hv]
  dsimp only
  rw [h1]
  exact ⟨_, rfl, rfl, if_pos rfl, h1⟩

/-- The obstruction happens exactly if the random number is below the probability; otherwise nothing changes.  Random numbers are below 1
and not negative, so with probability 1 it always happens, with probability 0 never. -/
theorem by_chance (s : Store) (fuel v : Nat) (choose : List Nat → Nat) (kept : Bool) (probability u : Rat) :
    (u < probability →
      generate s fuel wg insert v choose kept probability u = insertGraph s fuel wg insert v choose kept) ∧
    (probability ≤ u → generate s fuel wg insert v choose kept probability u = .ended wg s) := by
  unfold generate
  exact ⟨fun h => if_pos h, fun h => if_neg (not_lt.2 h)⟩

/-! A concrete case: the project 0 → 1 → 2 → 3, 0 → 3, and the graph 10 → 11 → 12 to insert at 1 or at 3. -/

private def demo : Graph := Graph.ofEdges [⟨0, 1, 0, .finishStart⟩, ⟨1, 2, 0, .inseparable⟩, ⟨2, 3, 0, .finishStart⟩,
  ⟨0, 3, 5, .lagFinishStart⟩, ⟨10, 11, 0, .finishStart⟩, ⟨11, 12, 0, .finishStart⟩]
private def demoWg : Obj := ⟨0, 3, [0, 1, 2, 3]⟩
private def demoInsert : Obj := ⟨10, 12, [10, 11, 12]⟩

private theorem project_of_traverse (hl : g.Linked) {fuel start : Nat} {order : List Nat} (h : g.traverse fuel start = some order)
    (hc : g.ClosedIn order) : g.Project start order := by
  obtain ⟨h1, h2, h3⟩ := C33.reachable_once_predecessors_first hl h
  refine ⟨h1, hl, (h2 _).2 Relation.ReflTransGen.refl, hc, fun v hv => (h2 v).1 hv, fun v hv hcyc => ?_⟩
  have key : ∀ a b, Relation.TransGen g.Before a b → b ∈ order → order.idxOf a < order.idxOf b := by
    have step : ∀ a b, g.Before a b → b ∈ order → a ∈ order ∧ order.idxOf a < order.idxOf b := by
      intro a b hab hb
      obtain ⟨pre, post, rfl⟩ := List.append_of_mem hb
      have ha := h3 pre b post rfl a hab
      have hb' : b ∉ pre := fun h => (List.nodup_append.1 h1).2.2 b h b (List.mem_cons_self ..) rfl
      refine ⟨List.mem_append_left _ ha, ?_⟩
      rw [List.idxOf_append_of_mem ha, List.idxOf_append_of_notMem hb']
      have := List.idxOf_lt_length_of_mem ha
      omega
    intro a b hab
    induction hab with
    | single h => exact fun hb => (step _ _ h hb).2
    | tail _ h ih =>
      intro hb
      have := step _ _ h hb
      exact lt_trans (ih this.1) this.2
  exact lt_irrefl _ (key v v hcyc hv)

private theorem demo_separate : Separate demo demoWg demoInsert where
  first := project_of_traverse (fuel := 30) (Graph.linked_ofEdges _) (by decide +kernel) (by unfold Graph.ClosedIn; decide +kernel)
  second := project_of_traverse (fuel := 30) (Graph.linked_ofEdges _) (by decide +kernel) (by unfold Graph.ClosedIn; decide +kernel)
  apart := by decide

private def Outcome.nodes : Outcome → Option (List Nat)
  | .ended wg _ => some wg.nodes
  | _ => none

example : Separate demo demoWg demoInsert ∧ 1 ∈ demoWg.nodes ∧ candidates demo demoInsert 1 = [2, 10] ∧ 2 ∈ demo.children 1 ∧
    Outcome.nodes (insertGraph (Store.ofGraph demo) 30 demoWg demoInsert 1 (fun _ => 2) true) = some [0, 1, 10, 2, 11, 3, 12] :=
  ⟨demo_separate, by decide, by decide +kernel, by decide +kernel, by decide +kernel⟩
example : 3 ∈ demoWg.nodes ∧ demo.children 3 = [] ∧
    Outcome.nodes (insertGraph (Store.ofGraph demo) 300 demoWg demoInsert 3 (fun l => l.headD 0) true) = none :=
  ⟨by decide, by decide +kernel, by decide +kernel⟩

end Sampo.C71
