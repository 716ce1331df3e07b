import Verif.Model.StructureEstimate
import Verif.Lemmas.EditInsert

namespace Sampo.Structure

open Graph

variable {σ Zones Workers : Type} {E : Env σ Zones Workers}

/-- The links of a generated work. -/
def linksOf (finish : Nat) (c : Sub Zones Workers) : List Edge := [⟨c.parent, c.id, 0, .finishStart⟩, ⟨c.id, finish, 0, .finishStart⟩]

theorem foldl_linkSub (finish : Nat) : ∀ (cs : List (Sub Zones Workers)) (g : Graph),
    cs.foldl (linkSub finish) g = (cs.flatMap (linksOf finish)).foldl addEdge g
  | [], _ => rfl
  | c :: cs, g => by
    rw [List.foldl_cons, foldl_linkSub finish cs, List.flatMap_cons, List.foldl_append]
    rfl

/-- The generated works of one work, one after the other. -/
theorem genSubWorks_spec (work : Nat) : ∀ (ps : List (String × Rat)) (s : Nat × σ),
    ((genSubWorks E work ps s).1.map (·.id)) = (List.range' s.1 (genSubWorks E work ps s).1.length).map E.id ∧
    (genSubWorks E work ps s).2.1 = s.1 + (genSubWorks E work ps s).1.length ∧
    ∀ c ∈ (genSubWorks E work ps s).1, c.parent = work ∧ c.zones = E.zones work
  | [], s => ⟨rfl, rfl, fun _ h => by cases h⟩
  | (name, p) :: rest, s => by
    rw [genSubWorks]
    dsimp only
    split
    · obtain ⟨h1, h2, h3⟩ := genSubWorks_spec work rest (s.1 + 1, (constructSubWork E work name s.1 (E.roll s.2).2).2)
      refine ⟨?_, ?_, ?_⟩
      · rw [List.length_cons, List.range'_succ, List.map_cons, List.map_cons, h1]
        rfl
      · rw [List.length_cons, h2]
        dsimp only
        omega
      · intro c hc
        rcases List.mem_cons.mp hc with rfl | hc
        · exact ⟨rfl, rfl⟩
        · exact h3 c hc
    · exact genSubWorks_spec work rest (s.1, (E.roll s.2).2)

theorem addSubs_spec (finish : Nat) : ∀ (nodes : List Nat) (a b : Graph × List (Sub Zones Workers) × (Nat × σ)),
    addSubs E finish nodes a = some b → ∃ cs, b.1 = cs.foldl (linkSub finish) a.1 ∧ b.2.1 = a.2.1 ++ cs ∧
      cs.map (·.id) = (List.range' a.2.2.1 cs.length).map E.id ∧ b.2.2.1 = a.2.2.1 + cs.length ∧
      ∀ c ∈ cs, c.parent ∈ nodes ∧ E.service c.parent = false ∧ c.zones = E.zones c.parent
  | [], a, b, h => by
    cases h
    exact ⟨[], rfl, by simp, rfl, rfl, fun _ h => by cases h⟩
  | v :: rest, a, b, h => by
    rw [addSubs] at h
    split at h
    · obtain ⟨cs, h1, h2, h3, h4, h5⟩ := addSubs_spec finish rest a b h
      exact ⟨cs, h1, h2, h3, h4, fun c hc => ⟨List.mem_cons_of_mem _ (h5 c hc).1, (h5 c hc).2⟩⟩
    · next hs =>
      split at h
      · cases h
      · next ps hps =>
        obtain ⟨cs, h1, h2, h3, h4, h5⟩ := addSubs_spec finish rest _ b h
        obtain ⟨k1, k2, k3⟩ := genSubWorks_spec (E := E) v ps a.2.2
        dsimp only at h1 h2 h3 h4
        refine ⟨(genSubWorks E v ps a.2.2).1 ++ cs, ?_, ?_, ?_, ?_, ?_⟩
        · rw [h1, List.foldl_append]
        · rw [h2, List.append_assoc]
        · rw [List.map_append, k1, h3, k2, List.length_append, ← List.map_append, List.range'_append_1]
        · rw [h4, k2, List.length_append]
          omega
        · intro c hc
          rcases List.mem_append.mp hc with hc | hc
          · obtain ⟨q1, q2⟩ := k3 c hc
            rw [q1]
            exact ⟨List.mem_cons_self, by simpa using hs, q2⟩
          · exact ⟨List.mem_cons_of_mem _ (h5 c hc).1, (h5 c hc).2⟩

theorem rename_id (l : List Edge) : l.map (Edge.rename id) = l := by
  conv_rhs => rw [← List.map_id l]
  exact List.map_congr_left fun e _ => rfl

theorem restruct_spec {g g' : Graph} {start finish : Nat} {nodes : List Nat} {s : σ} {cs : List (Sub Zones Workers)}
    (hp : g.Project start nodes) (h : restruct E g nodes finish s = some (g', cs)) :
    g' = ofEdges (nodes.flatMap g.edgesTo ++ cs.flatMap (linksOf finish)) ∧ cs.map (·.id) = (List.range cs.length).map E.id ∧
      ∀ c ∈ cs, c.parent ∈ nodes ∧ E.service c.parent = false ∧ c.zones = E.zones c.parent := by
  unfold restruct at h
  obtain ⟨b, hb, h⟩ := Option.map_eq_some_iff.1 h
  obtain ⟨cs', h1, h2, h3, -, h5⟩ := addSubs_spec finish nodes _ b hb
  cases h
  dsimp only at h1 h2 h3
  rw [List.nil_append] at h2
  subst h2
  refine ⟨?_, by rw [h3, List.range_eq_range'], h5⟩
  rw [h1, foldl_linkSub, copy_eq hp.linked, among_nil hp.closed, rename_id, ofEdges_append]

section links

variable {g : Graph} {start finish : Nat} {nodes : List Nat} {cs : List (Sub Zones Workers)}

theorem filter_flatMap_to (hp : g.Project start nodes) {v : Nat} (hv : v ∈ nodes) :
    (nodes.flatMap g.edgesTo).filter (fun e => e.finish = v) = g.edgesTo v := by
  have h := copy_edgesTo (ν := id) hp.linked hp.once hp.closed (fun _ _ _ _ h => h) hv
  rw [copy_eq hp.linked, among_nil hp.closed, rename_id, ofEdges_to, rename_id] at h
  exact h

theorem filter_flatMap_from (hp : g.Project start nodes) {v : Nat} (hv : v ∈ nodes) :
    ((nodes.flatMap g.edgesTo).filter (fun e => e.start = v)).Perm (g.edgesFrom v) := by
  have h := copy_edgesFrom (ν := id) hp.linked hp.once hp.closed (fun _ _ _ _ h => h) hv
  rw [copy_eq hp.linked, among_nil hp.closed, rename_id, ofEdges_from, rename_id] at h
  exact h

theorem before_iff (hp : g.Project start nodes) {a b : Nat} :
    (ofEdges (nodes.flatMap g.edgesTo ++ cs.flatMap (linksOf finish))).Before a b ↔
      (b ∈ nodes ∧ g.Before a b) ∨ ∃ c ∈ cs, (a = c.parent ∧ b = c.id) ∨ (a = c.id ∧ b = finish) := by
  rw [before_ofEdges]
  constructor
  · rintro ⟨e, he, rfl, rfl⟩
    rcases List.mem_append.mp he with he | he
    · obtain ⟨h1, h2⟩ := (mem_nodes_flatMap hp).mp he
      exact Or.inl ⟨h1, e, h2, rfl⟩
    · obtain ⟨c, hc, he⟩ := List.mem_flatMap.mp he
      refine Or.inr ⟨c, hc, ?_⟩
      unfold linksOf at he
      rcases List.mem_cons.mp he with rfl | he
      · exact Or.inl ⟨rfl, rfl⟩
      · rw [List.mem_singleton.mp he]
        exact Or.inr ⟨rfl, rfl⟩
  · rintro (⟨hb, e, he, rfl⟩ | ⟨c, hc, ⟨rfl, rfl⟩ | ⟨rfl, rfl⟩⟩)
    · have := hp.linked.finish _ e he
      subst this
      exact ⟨e, List.mem_append_left _ ((mem_nodes_flatMap hp).mpr ⟨hb, he⟩), rfl, rfl⟩
    · exact ⟨_, List.mem_append_right _ (List.mem_flatMap.mpr ⟨c, hc, List.mem_cons_self⟩), rfl, rfl⟩
    · exact ⟨_, List.mem_append_right _ (List.mem_flatMap.mpr ⟨c, hc, List.mem_cons_of_mem _ List.mem_cons_self⟩), rfl, rfl⟩

/-- What comes to a work other than the finish comes along the old links. -/
theorem trans_old (hp : g.Project start nodes) (hfresh : ∀ c ∈ cs, c.id ∉ nodes) {a b : Nat} (hlast : ∀ w, ¬ g.Before finish w)
    (h : Relation.TransGen (ofEdges (nodes.flatMap g.edgesTo ++ cs.flatMap (linksOf finish))).Before a b) (hb : b ∈ nodes)
    (hbf : b ≠ finish) : a ∈ nodes ∧ Relation.TransGen g.Before a b := by
  have step : ∀ {x y : Nat}, (ofEdges (nodes.flatMap g.edgesTo ++ cs.flatMap (linksOf finish))).Before x y → y ∈ nodes → y ≠ finish →
      x ∈ nodes ∧ x ≠ finish ∧ g.Before x y := by
    intro x y hxy hy hyf
    rcases (before_iff hp).mp hxy with ⟨_, h⟩ | ⟨c, hc, ⟨_, h⟩ | ⟨_, h⟩⟩
    · have hx : x ∈ nodes := by
        obtain ⟨e, he, rfl⟩ := h
        exact (hp.closed y hy).1 e he
      exact ⟨hx, fun hf => hlast y (hf ▸ h), h⟩
    · exact absurd (h ▸ hy) (hfresh c hc)
    · exact absurd h hyf
  induction h with
  | single h =>
    obtain ⟨h1, _, h2⟩ := step h hb hbf
    exact ⟨h1, .single h2⟩
  | tail _ h ih =>
    obtain ⟨h1, h2, h3⟩ := step h hb hbf
    obtain ⟨k1, k2⟩ := ih h1 h2
    exact ⟨k1, k2.tail h3⟩

end links

end Sampo.Structure
