import Verif.Lemmas.StructureEstimate
import Verif.Props.C33_Traversal
import Mathlib.Tactic.NormNum
import Mathlib.Data.Rat.Lemmas

/-!
# C87: generated additional works
-/

namespace Sampo.C87

open Structure

variable {σ Zones Workers : Type} {E : Env σ Zones Workers} {g g' : Graph} {start finish : Nat} {nodes : List Nat} {s : σ}
  {cs : List (Sub Zones Workers)}

/-- The ids of generated works are new and differ from each other. -/
structure NewIds (E : Env σ Zones Workers) (nodes : List Nat) : Prop where
  new : ∀ n, E.id n ∉ nodes
  differ : Function.Injective E.id

/-- The finish is a service unit and nothing comes after it. -/
structure Ends (E : Env σ Zones Workers) (g : Graph) (nodes : List Nat) (finish : Nat) : Prop where
  mem : finish ∈ nodes
  service : E.service finish = true
  last : g.edgesFrom finish = []

private theorem ids_new (hid : NewIds E nodes) (h : cs.map (·.id) = (List.range cs.length).map E.id) :
    (∀ c ∈ cs, c.id ∉ nodes) ∧ (cs.map (·.id)).Nodup := by
  constructor
  · intro c hc
    have : c.id ∈ cs.map (·.id) := List.mem_map_of_mem hc
    rw [h] at this
    obtain ⟨n, _, hn⟩ := List.mem_map.mp this
    rw [← hn]
    exact hid.new n
  · rw [h]
    exact List.Nodup.map hid.differ List.nodup_range

private theorem links_to (hf : ∀ c ∈ cs, c.id ∉ nodes) (hfin : finish ∈ nodes) :
    ∀ v ∈ nodes, (cs.flatMap (linksOf finish)).filter (fun e => e.finish = v) =
      if v = finish then cs.map fun c => ⟨c.id, finish, 0, .finishStart⟩ else [] := by
  intro v hv
  induction cs with
  | nil => simp
  | cons c cs ih =>
    have h1 : ¬ c.id = v := fun h => hf c List.mem_cons_self (h ▸ hv)
    rw [List.flatMap_cons, List.filter_append, ih fun c hc => hf c (List.mem_cons_of_mem _ hc)]
    by_cases h : v = finish
    · subst h
      simp [linksOf, h1]
    · have h2 : ¬ finish = v := fun h' => h h'.symm
      simp [linksOf, h1, h, h2]

private theorem links_from (hf : ∀ c ∈ cs, c.id ∉ nodes) {v : Nat} (hv : v ∈ nodes) :
    (cs.flatMap (linksOf finish)).filter (fun e => e.start = v) =
      (cs.filter fun c => c.parent = v).map fun c => ⟨v, c.id, 0, .finishStart⟩ := by
  induction cs with
  | nil => simp
  | cons c cs ih =>
    have h1 : ¬ c.id = v := fun h => hf c List.mem_cons_self (h ▸ hv)
    rw [List.flatMap_cons, List.filter_append, ih fun c hc => hf c (List.mem_cons_of_mem _ hc)]
    by_cases h : c.parent = v <;> simp [linksOf, h1, h]

/-- Every work of the given graph keeps the links it had; the finish also comes after the generated works, and a work is also followed by
those generated for it. -/
theorem works_kept (hp : g.Project start nodes) (hid : NewIds E nodes) (he : finish ∈ nodes)
    (h : restruct E g nodes finish s = some (g', cs)) :
    (∀ v ∈ nodes, v ≠ finish → g'.edgesTo v = g.edgesTo v) ∧
    g'.edgesTo finish = g.edgesTo finish ++ cs.map (fun c => ⟨c.id, finish, 0, .finishStart⟩) ∧
    ∀ v ∈ nodes, (g'.edgesFrom v).Perm (g.edgesFrom v ++ (cs.filter fun c => c.parent = v).map fun c => ⟨v, c.id, 0, .finishStart⟩) := by
  obtain ⟨rfl, h2, h3⟩ := restruct_spec hp h
  have hn := (ids_new hid h2).1
  refine ⟨fun v hv hvf => ?_, ?_, fun v hv => ?_⟩
  · rw [Graph.ofEdges_to, List.filter_append, filter_flatMap_to hp hv, links_to hn he v hv, if_neg hvf, List.append_nil]
  · rw [Graph.ofEdges_to, List.filter_append, filter_flatMap_to hp he, links_to hn he _ he, if_pos rfl]
  · rw [Graph.ofEdges_from, List.filter_append, links_from hn hv]
    exact (filter_flatMap_from hp hv).append_right _

/-- Every generated work belongs to a work of the graph that is not a service unit, takes place in the zones of that work, starts after it
and before the finish, and has no other links. -/
theorem generated_between (hp : g.Project start nodes) (hid : NewIds E nodes) (he : finish ∈ nodes)
    (h : restruct E g nodes finish s = some (g', cs)) : (cs.map (·.id)).Nodup ∧ ∀ c ∈ cs, c.id ∉ nodes ∧ c.parent ∈ nodes ∧
      E.service c.parent = false ∧ c.zones = E.zones c.parent ∧
      g'.edgesTo c.id = [⟨c.parent, c.id, 0, .finishStart⟩] ∧ g'.edgesFrom c.id = [⟨c.id, finish, 0, .finishStart⟩] := by
  obtain ⟨rfl, h2, h3⟩ := restruct_spec hp h
  obtain ⟨hn, hd⟩ := ids_new hid h2
  refine ⟨hd, fun c hc => ⟨hn c hc, (h3 c hc).1, (h3 c hc).2.1, (h3 c hc).2.2, ?_, ?_⟩⟩
  · rw [Graph.ofEdges_to, List.filter_append]
    have h1 : (nodes.flatMap g.edgesTo).filter (fun e => e.finish = c.id) = [] := by
      refine List.filter_eq_nil_iff.2 fun e he' hf => hn c hc ?_
      have := ((Graph.mem_nodes_flatMap hp).mp he').1
      have hf : e.finish = c.id := by simpa using hf
      rwa [hf] at this
    rw [h1, List.nil_append]
    clear h h2 h1
    induction cs with
    | nil => cases hc
    | cons d cs ih =>
      have hcf : ¬ finish = c.id := fun h => hn c hc (h ▸ he)
      rw [List.flatMap_cons, List.filter_append]
      rw [List.map_cons, List.nodup_cons] at hd
      rcases List.mem_cons.mp hc with rfl | hc'
      · have : (cs.flatMap (linksOf finish)).filter (fun e => e.finish = c.id) = [] := by
          refine List.filter_eq_nil_iff.2 fun e he' hf => ?_
          obtain ⟨d, hd', he'⟩ := List.mem_flatMap.mp he'
          have hf : e.finish = c.id := by simpa using hf
          unfold linksOf at he'
          rcases List.mem_cons.mp he' with rfl | he'
          · exact hd.1 (List.mem_map.mpr ⟨d, hd', hf⟩)
          · rw [List.mem_singleton.mp he'] at hf
            exact hcf hf
        rw [this]
        simp [linksOf, hcf]
      · have hne : ¬ d.id = c.id := fun h => hd.1 (h ▸ List.mem_map_of_mem hc')
        rw [ih (fun c hc => h3 c (List.mem_cons_of_mem _ hc)) (fun c hc => hn c (List.mem_cons_of_mem _ hc)) hd.2 hc']
        simp [linksOf, hcf, hne]
  · rw [Graph.ofEdges_from, List.filter_append]
    have h1 : (nodes.flatMap g.edgesTo).filter (fun e => e.start = c.id) = [] := by
      refine List.filter_eq_nil_iff.2 fun e he' hf => hn c hc ?_
      obtain ⟨q1, q2⟩ := (Graph.mem_nodes_flatMap hp).mp he'
      have hf : e.start = c.id := by simpa using hf
      rw [← hf]
      exact (hp.closed _ q1).1 e q2
    rw [h1, List.nil_append]
    clear h h2 h1
    have hpar : ∀ d ∈ cs, ¬ d.parent = c.id := fun d hd h => hn c hc (h ▸ (h3 d hd).1)
    induction cs with
    | nil => cases hc
    | cons d cs ih =>
      rw [List.flatMap_cons, List.filter_append]
      rw [List.map_cons, List.nodup_cons] at hd
      have hp1 := hpar d List.mem_cons_self
      rcases List.mem_cons.mp hc with rfl | hc'
      · have : (cs.flatMap (linksOf finish)).filter (fun e => e.start = c.id) = [] := by
          refine List.filter_eq_nil_iff.2 fun e he' hf => ?_
          obtain ⟨d, hd', he'⟩ := List.mem_flatMap.mp he'
          have hf : e.start = c.id := by simpa using hf
          unfold linksOf at he'
          rcases List.mem_cons.mp he' with rfl | he'
          · exact hpar d (List.mem_cons_of_mem _ hd') hf
          · rw [List.mem_singleton.mp he'] at hf
            exact hd.1 (List.mem_map.mpr ⟨d, hd', hf⟩)
        rw [this]
        simp [linksOf, hp1]
      · have hne : ¬ d.id = c.id := fun h => hd.1 (h ▸ List.mem_map_of_mem hc')
        rw [ih (fun c hc => h3 c (List.mem_cons_of_mem _ hc)) (fun c hc => hn c (List.mem_cons_of_mem _ hc)) hd.2 hc'
          (fun d hd => hpar d (List.mem_cons_of_mem _ hd))]
        simp [linksOf, hp1, hne]

private theorem no_after (hl : g.Linked) (h : g.edgesFrom finish = []) (w : Nat) : ¬ g.Before finish w := by
  rintro ⟨e, he, rfl⟩
  have := hl.finish w e he
  subst this
  have := (hl.both e).1 he
  rw [h] at this
  cases this

/-- The result is a work graph of the given and the generated works: all are reached from the start, and there is no cycle.  So
`WorkGraph(start, finish)` ends and has exactly these works. -/
theorem work_graph (hp : g.Project start nodes) (hid : NewIds E nodes) (he : Ends E g nodes finish)
    (h : restruct E g nodes finish s = some (g', cs)) :
    g'.Project start (nodes ++ cs.map (·.id)) ∧ ∃ fuel order, g'.traverse fuel start = some order ∧ order.Perm (nodes ++ cs.map (·.id)) := by
  suffices hpr : g'.Project start (nodes ++ cs.map (·.id)) by
    obtain ⟨order, h1, h2⟩ := C33.ends hpr (le_refl _)
    exact ⟨hpr, _, order, h1, h2⟩
  obtain ⟨rfl, h2, h3⟩ := restruct_spec hp h
  obtain ⟨hn, hd⟩ := ids_new hid h2
  have hlast := no_after hp.linked he.last
  have hold : ∀ {u v : Nat}, v ∈ nodes → g.Reaches u v →
      (Graph.ofEdges (nodes.flatMap g.edgesTo ++ cs.flatMap (linksOf finish))).Reaches u v := by
    intro u v hv hr
    induction hr with
    | refl => exact .refl
    | @tail x y _ hxy ih =>
      obtain ⟨e, he', rfl⟩ := hxy
      exact (ih ((hp.closed y hv).1 e he')).tail ((before_iff hp).mpr (Or.inl ⟨hv, e, he', rfl⟩))
  refine ⟨?_, Graph.linked_ofEdges _, List.mem_append_left _ hp.start_mem, Graph.closed_ofEdges ?_, ?_, ?_⟩
  · refine List.nodup_append.mpr ⟨hp.once, hd, fun a ha b hb hab => ?_⟩
    obtain ⟨c, hc, rfl⟩ := List.mem_map.mp hb
    exact hn c hc (hab ▸ ha)
  · intro e he'
    rcases List.mem_append.mp he' with he' | he'
    · obtain ⟨q1, q2⟩ := (Graph.mem_nodes_flatMap hp).mp he'
      exact ⟨List.mem_append_left _ ((hp.closed _ q1).1 e q2), List.mem_append_left _ q1⟩
    · obtain ⟨c, hc, he'⟩ := List.mem_flatMap.mp he'
      have hcm : c.id ∈ nodes ++ cs.map (·.id) := List.mem_append_right _ (List.mem_map_of_mem hc)
      unfold linksOf at he'
      rcases List.mem_cons.mp he' with rfl | he'
      · exact ⟨List.mem_append_left _ (h3 c hc).1, hcm⟩
      · rw [List.mem_singleton.mp he']
        exact ⟨hcm, List.mem_append_left _ he.mem⟩
  · intro v hv
    rcases List.mem_append.mp hv with hv | hv
    · exact hold hv (hp.reach v hv)
    · obtain ⟨c, hc, rfl⟩ := List.mem_map.mp hv
      exact (hold (h3 c hc).1 (hp.reach _ (h3 c hc).1)).tail ((before_iff hp).mpr (Or.inr ⟨c, hc, Or.inl ⟨rfl, rfl⟩⟩))
  · intro v hv hcyc
    have hfin : ∀ w, ¬ (Graph.ofEdges (nodes.flatMap g.edgesTo ++ cs.flatMap (linksOf finish))).Before finish w := by
      intro w hw
      rcases (before_iff hp).mp hw with ⟨_, q⟩ | ⟨c, hc, ⟨q, _⟩ | ⟨q, _⟩⟩
      · exact hlast w q
      · have := (h3 c hc).2.1
        rw [← q, he.service] at this
        cases this
      · exact hn c hc (q ▸ he.mem)
    have hfin' : ∀ w, ¬ Relation.TransGen (Graph.ofEdges (nodes.flatMap g.edgesTo ++ cs.flatMap (linksOf finish))).Before finish w := by
      intro w hw
      rcases Relation.TransGen.head'_iff.mp hw with ⟨x, hx, _⟩
      exact hfin x hx
    rcases List.mem_append.mp hv with hv | hv
    · by_cases hvf : v = finish
      · exact hfin' v (hvf ▸ hcyc)
      · exact hp.acyclic v hv (trans_old hp hn hlast hcyc hv hvf).2
    · obtain ⟨c, hc, rfl⟩ := List.mem_map.mp hv
      obtain ⟨x, hx, hxc⟩ := Relation.TransGen.head'_iff.mp hcyc
      rcases (before_iff hp).mp hx with ⟨q, e, he', q2⟩ | ⟨d, hd', ⟨q, _⟩ | ⟨_, q⟩⟩
      · exact hn c hc (q2 ▸ (hp.closed x q).1 e he')
      · exact hn c hc (q ▸ (h3 d hd').1)
      · subst q
        rcases Relation.reflTransGen_iff_eq_or_transGen.mp hxc with q | q
        · exact hn c hc (q ▸ he.mem)
        · exact hfin' _ q

/-- Between works of the given graph, each of which comes before the finish, generated works change nothing: a work has to come before
another one exactly if it had to. -/
theorem order_kept (hp : g.Project start nodes) (hid : NewIds E nodes) (he : Ends E g nodes finish)
    (hall : ∀ v ∈ nodes, g.Reaches v finish) (h : restruct E g nodes finish s = some (g', cs)) {u v : Nat} (hu : u ∈ nodes)
    (hv : v ∈ nodes) : g'.Reaches u v ↔ g.Reaches u v := by
  obtain ⟨rfl, h2, h3⟩ := restruct_spec hp h
  constructor
  · intro hr
    by_cases hvf : v = finish
    · exact hvf ▸ hall u hu
    · rcases Relation.reflTransGen_iff_eq_or_transGen.mp hr with rfl | hr
      · exact .refl
      · exact (trans_old hp (ids_new hid h2).1 (no_after hp.linked he.last) hr hv hvf).2.to_reflTransGen
  · intro hr
    induction hr with
    | refl => exact .refl
    | @tail x y _ hxy ih =>
      obtain ⟨e, he', rfl⟩ := hxy
      exact (ih ((hp.closed y hv).1 e he')).tail ((before_iff hp).mpr (Or.inl ⟨hv, e, he', rfl⟩))

/-- Not proved because false: "the new work graph can be built".  If the finish is not a service unit and gets a generated work, that work
comes after and before the finish, and `WorkGraph(start, finish)` does not end. -/
theorem finish_generates_endless (hp : g.Project start nodes) (he : finish ∈ nodes) (h : restruct E g nodes finish s = some (g', cs))
    (hc : ∃ c ∈ cs, c.parent = finish) (fuel : Nat) : g'.traverse fuel start = none := by
  obtain ⟨rfl, h2, h3⟩ := restruct_spec hp h
  obtain ⟨c, hc, hcp⟩ := hc
  by_contra hne
  obtain ⟨order, ho⟩ := Option.ne_none_iff_exists'.mp hne
  obtain ⟨q1, q2, q3⟩ := C33.reachable_once_predecessors_first (Graph.linked_ofEdges _) ho
  have hold : ∀ {u v : Nat}, v ∈ nodes → g.Reaches u v →
      (Graph.ofEdges (nodes.flatMap g.edgesTo ++ cs.flatMap (linksOf finish))).Reaches u v := by
    intro u v hv hr
    induction hr with
    | refl => exact .refl
    | @tail x y _ hxy ih =>
      obtain ⟨e, he', rfl⟩ := hxy
      exact (ih ((hp.closed y hv).1 e he')).tail ((before_iff hp).mpr (Or.inl ⟨hv, e, he', rfl⟩))
  obtain ⟨pre, post, hpp⟩ := List.append_of_mem ((q2 finish).2 (hold he (hp.reach _ he)))
  have h5 := q3 pre finish post hpp c.id ((before_iff hp).mpr (Or.inr ⟨c, hc, Or.inr ⟨rfl, rfl⟩⟩))
  obtain ⟨pre', post', rfl⟩ := List.append_of_mem h5
  have h6 := q3 pre' c.id (post' ++ finish :: post) (by rw [hpp]; simp) finish ((before_iff hp).mpr (Or.inr ⟨c, hc, Or.inl ⟨hcp.symm, rfl⟩⟩))
  rw [hpp] at q1
  have := (List.nodup_append.mp q1).2.2 finish (List.mem_append_left _ h6) finish List.mem_cons_self
  exact this rfl

/-! ### Which works are generated -/

private theorem gen_chosen (hroll : ∀ s, 0 ≤ (E.roll s).1 ∧ (E.roll s).1 < 1) (work : Nat) : ∀ (ps : List (String × Rat)) (s : Nat × σ),
    ∃ chosen : List (String × Rat), chosen.Sublist ps ∧ (genSubWorks E work ps s).1.map (·.name) = chosen.map (·.1) ∧
      (∀ e ∈ chosen, 0 < e.2) ∧ ∀ e ∈ ps, 1 ≤ e.2 → e ∈ chosen
  | [], s => ⟨[], List.Sublist.refl _, rfl, by simp, by simp⟩
  | (name, p) :: rest, s => by
    rw [genSubWorks]
    dsimp only
    split
    · next hlt =>
      obtain ⟨ch, h1, h2, h3, h4⟩ := gen_chosen hroll work rest (s.1 + 1, (constructSubWork E work name s.1 (E.roll s.2).2).2)
      refine ⟨(name, p) :: ch, h1.cons_cons _, ?_, ?_, ?_⟩
      · rw [List.map_cons, List.map_cons, h2]
        rfl
      · intro e he
        rcases List.mem_cons.mp he with rfl | he
        · exact lt_of_le_of_lt (hroll s.2).1 hlt
        · exact h3 e he
      · intro e he hp
        rcases List.mem_cons.mp he with rfl | he
        · exact List.mem_cons_self
        · exact List.mem_cons_of_mem _ (h4 e he hp)
    · next hlt =>
      obtain ⟨ch, h1, h2, h3, h4⟩ := gen_chosen hroll work rest (s.1, (E.roll s.2).2)
      refine ⟨ch, h1.cons _, h2, h3, ?_⟩
      intro e he hp
      rcases List.mem_cons.mp he with rfl | he
      · exact absurd (lt_of_lt_of_le (hroll s.2).2 hp) hlt
      · exact h4 e he hp

private theorem add_chosen (hroll : ∀ s, 0 ≤ (E.roll s).1 ∧ (E.roll s).1 < 1) : ∀ (nodes : List Nat)
    (a b : Graph × List (Sub Zones Workers) × (Nat × σ)), nodes.Nodup → addSubs E finish nodes a = some b →
    ∃ cs, b.2.1 = a.2.1 ++ cs ∧ (∀ c ∈ cs, c.parent ∈ nodes) ∧ ∀ v ∈ nodes, E.service v = false → ∃ (ps chosen : List (String × Rat)), E.probabilities v = some ps ∧
      chosen.Sublist ps ∧ (cs.filter fun c => c.parent = v).map (·.name) = chosen.map (·.1) ∧ (∀ e ∈ chosen, 0 < e.2) ∧
      ∀ e ∈ ps, 1 ≤ e.2 → e ∈ chosen
  | [], a, b, _, h => by
    cases h
    exact ⟨[], by simp, by simp, by simp⟩
  | v :: rest, a, b, hnd, h => by
    rw [List.nodup_cons] at hnd
    rw [addSubs] at h
    split at h
    · next hs =>
      obtain ⟨cs, h1, h2, h3⟩ := add_chosen hroll rest a b hnd.2 h
      refine ⟨cs, h1, fun c hc => List.mem_cons_of_mem _ (h2 c hc), ?_⟩
      intro w hw hws
      rcases List.mem_cons.mp hw with rfl | hw
      · rw [hs] at hws
        cases hws
      · exact h3 w hw hws
    · split at h
      · cases h
      · next ps hps =>
        obtain ⟨cs, h1, h2, h3⟩ := add_chosen hroll rest _ b hnd.2 h
        obtain ⟨-, -, k3⟩ := genSubWorks_spec (E := E) v ps a.2.2
        refine ⟨(genSubWorks E v ps a.2.2).1 ++ cs, by rw [h1, List.append_assoc], ?_, ?_⟩
        · intro c hc
          rcases List.mem_append.mp hc with hc | hc
          · rw [(k3 c hc).1]
            exact List.mem_cons_self
          · exact List.mem_cons_of_mem _ (h2 c hc)
        · intro w hw hws
          rw [List.filter_append]
          rcases List.mem_cons.mp hw with rfl | hw
          · obtain ⟨ch, q1, q2, q3, q4⟩ := gen_chosen hroll w ps a.2.2
            refine ⟨ps, ch, hps, q1, ?_, q3, q4⟩
            rw [List.filter_eq_self.2 (fun c hc => by simpa using (k3 c hc).1), List.filter_eq_nil_iff.2, List.append_nil, q2]
            intro c hc hcw
            have hcw : c.parent = w := by simpa using hcw
            exact hnd.1 (hcw ▸ h2 c hc)
          · rw [List.filter_eq_nil_iff.2, List.nil_append]
            · exact h3 w hw hws
            · intro c hc hcw
              have hcw : c.parent = w := by simpa using hcw
              rw [(k3 c hc).1] at hcw
              exact hnd.1 (hcw ▸ hw)

/-- For random numbers from 0 (included) to 1 (excluded): for every work that is not a service unit the names of the generated works, in
order, are some of the names the generator gives for the work; all with probability at least 1 and none with probability 0 or less. -/
theorem by_probability (hp : g.Project start nodes) (hroll : ∀ s, 0 ≤ (E.roll s).1 ∧ (E.roll s).1 < 1)
    (h : restruct E g nodes finish s = some (g', cs)) {v : Nat} (hv : v ∈ nodes) (hs : E.service v = false) :
    ∃ (ps chosen : List (String × Rat)), E.probabilities v = some ps ∧ chosen.Sublist ps ∧ (cs.filter fun c => c.parent = v).map (·.name) = chosen.map (·.1) ∧
      (∀ e ∈ chosen, 0 < e.2) ∧ ∀ e ∈ ps, 1 ≤ e.2 → e ∈ chosen := by
  unfold restruct at h
  obtain ⟨b, hb, h⟩ := Option.map_eq_some_iff.1 h
  obtain ⟨cs', h1, -, h3⟩ := add_chosen hroll nodes _ b hp.once hb
  cases h
  dsimp only at h1
  rw [h1, List.nil_append]
  exact h3 v hv hs

/-- The entries of all works that are not service units, in the order in which they are tried. -/
def tried (E : Env σ Zones Workers) (nodes : List Nat) : List (Nat × String × Rat) :=
  (nodes.filter fun v => !E.service v).flatMap fun v => ((E.probabilities v).getD []).map fun e => (v, e)

/-- The entries whose random number is below their probability; `x n`, `x (n + 1)`, … are the random numbers. -/
def hits (x : Nat → Rat) : Nat → List (Nat × String × Rat) → List (Nat × String)
  | _, [] => []
  | n, e :: rest => if x n < e.2.2 then (e.1, e.2.1) :: hits x (n + 1) rest else hits x (n + 1) rest

private theorem hits_append (x : Nat → Rat) : ∀ (l m : List (Nat × String × Rat)) (n : Nat),
    hits x n (l ++ m) = hits x n l ++ hits x (n + l.length) m
  | [], m, n => rfl
  | e :: l, m, n => by
    have := hits_append x l m (n + 1)
    rw [List.cons_append, hits, hits, List.length_cons, this, show n + 1 + l.length = n + (l.length + 1) by omega]
    split <;> rfl

private theorem gen_hits {E : Env Nat Zones Workers} {x : Nat → Rat} (hroll : ∀ n, E.roll n = (x n, n + 1))
    (hvol : ∀ v name n, (E.volume v name n).2 = n) (hwork : ∀ name q n, (E.workers name q n).2 = n) (work : Nat) :
    ∀ (ps : List (String × Rat)) (s : Nat × Nat),
    (genSubWorks E work ps s).1.map (fun c => (c.parent, c.name)) = hits x s.2 (ps.map fun e => (work, e)) ∧
      (genSubWorks E work ps s).2.2 = s.2 + ps.length
  | [], s => ⟨rfl, rfl⟩
  | (name, p) :: rest, s => by
    rw [genSubWorks, List.map_cons, hits, hroll]
    dsimp only
    split
    · have hst : (constructSubWork E work name s.1 (s.2 + 1)).2 = s.2 + 1 := by
        unfold constructSubWork
        dsimp only
        rw [hwork, hvol]
      obtain ⟨h1, h2⟩ := gen_hits hroll hvol hwork work rest (s.1 + 1, (constructSubWork E work name s.1 (s.2 + 1)).2)
      refine ⟨?_, ?_⟩
      · rw [List.map_cons, h1, hst]
        rfl
      · rw [h2, hst, List.length_cons]
        omega
    · obtain ⟨h1, h2⟩ := gen_hits hroll hvol hwork work rest (s.1, s.2 + 1)
      refine ⟨h1, ?_⟩
      rw [h2, List.length_cons]
      dsimp only
      omega

private theorem add_hits {E : Env Nat Zones Workers} {x : Nat → Rat} (hroll : ∀ n, E.roll n = (x n, n + 1))
    (hvol : ∀ v name n, (E.volume v name n).2 = n) (hwork : ∀ name q n, (E.workers name q n).2 = n) :
    ∀ (nodes : List Nat) (a b : Graph × List (Sub Zones Workers) × (Nat × Nat)), addSubs E finish nodes a = some b →
    ∃ cs, b.2.1 = a.2.1 ++ cs ∧ cs.map (fun c => (c.parent, c.name)) = hits x a.2.2.2 (tried E nodes)
  | [], a, b, h => by
    cases h
    exact ⟨[], by simp, rfl⟩
  | v :: rest, a, b, h => by
    rw [addSubs] at h
    split at h
    · next hs =>
      obtain ⟨cs, h1, h2⟩ := add_hits hroll hvol hwork rest a b h
      refine ⟨cs, h1, ?_⟩
      rw [h2]
      unfold tried
      rw [List.filter_cons_of_neg (by simpa using hs)]
    · next hs =>
      split at h
      · cases h
      · next ps hps =>
        obtain ⟨cs, h1, h2⟩ := add_hits hroll hvol hwork rest _ b h
        obtain ⟨k1, k2⟩ := gen_hits hroll hvol hwork v ps a.2.2
        refine ⟨(genSubWorks E v ps a.2.2).1 ++ cs, by rw [h1, List.append_assoc], ?_⟩
        rw [List.map_append, k1, h2, k2]
        unfold tried
        rw [List.filter_cons_of_pos (by simpa using hs), List.flatMap_cons, hits_append, hps, Option.getD_some, List.length_map]

/-- With random numbers `x 0`, `x 1`, … of its own (the volumes and the workers come from other generators), the estimator takes one number
for every entry of every work, in order, and generates exactly the works whose number is below the probability. -/
theorem exactly_hits {E : Env Nat Zones Workers} {cs : List (Sub Zones Workers)} {x : Nat → Rat} (hroll : ∀ n, E.roll n = (x n, n + 1))
    (hvol : ∀ v name n, (E.volume v name n).2 = n) (hwork : ∀ name q n, (E.workers name q n).2 = n)
    (h : restruct E g nodes finish 0 = some (g', cs)) : cs.map (fun c => (c.parent, c.name)) = hits x 0 (tried E nodes) := by
  unfold restruct at h
  obtain ⟨b, hb, h⟩ := Option.map_eq_some_iff.1 h
  obtain ⟨cs', h1, h2⟩ := add_hits hroll hvol hwork nodes _ b hb
  cases h
  rw [h1, List.nil_append, h2]

/-! ### The default generator -/

private theorem lookup_put_ne {V : Type} {k k' : String} (hk : k' ≠ k) (v : V) : ∀ l : List (String × V), (put k v l).lookup k' = l.lookup k'
  | [] => by
    have : (k' == k) = false := by simpa using hk
    simp [put, List.lookup, this]
  | (a, b) :: l => by
    rw [put]
    dsimp only
    split
    · next h =>
      subst h
      have : (k' == a) = false := by simpa using hk
      rw [List.lookup_cons, List.lookup_cons, this]
    · rw [List.lookup_cons, List.lookup_cons, lookup_put_ne hk v l]

/-- A generator after calls of `set_probability`; `none` after an exception. -/
def setProbabilities (calls : List (String × String × Rat)) : Option Given :=
  calls.foldl (fun t c => t.bind fun t => t.set c.1 c.2.1 c.2.2) (some Given.new)

private theorem set_names {t : Given} {calls : List (String × String × Rat)} (h : setProbabilities calls = some t)
    (hn : ∀ c ∈ calls, c.1 ≠ "dummy") : t.entries.lookup "dummy" = none ∧ t.default = true := by
  unfold setProbabilities at h
  suffices key : ∀ (calls : List (String × String × Rat)) (t0 : Given), (∀ c ∈ calls, c.1 ≠ "dummy") →
      (t0.entries.lookup "dummy" = none ∧ t0.default = true) →
      calls.foldl (fun t c => t.bind fun t => t.set c.1 c.2.1 c.2.2) (some t0) = some t →
      t.entries.lookup "dummy" = none ∧ t.default = true from key calls _ hn ⟨rfl, rfl⟩ h
  intro calls
  induction calls with
  | nil =>
    intro t0 _ h0 h
    cases h
    exact h0
  | cons c calls ih =>
    intro t0 hn h0 h
    have hne := hn c List.mem_cons_self
    rw [List.foldl_cons, Option.bind_some] at h
    cases hset : t0.set c.1 c.2.1 c.2.2 with
    | none =>
      rw [Given.set, h0.2] at hset
      split at hset <;> cases hset
    | some t1 =>
      rw [hset] at h
      refine ih t1 (fun c hc => hn c (List.mem_cons_of_mem _ hc)) ?_ h
      rw [Given.set] at hset
      split at hset
      · cases hset
        exact ⟨by rw [lookup_put_ne (Ne.symm hne)]; exact h0.1, h0.2⟩
      · rw [h0.2, if_pos rfl] at hset
        cases hset
        exact ⟨by rw [lookup_put_ne (Ne.symm hne)]; exact h0.1, rfl⟩

/-- Not proved because false: "probabilities set for the name of a work are used for works with that name".  Whatever probabilities are set
for whatever names (except the word `dummy`), nothing is generated: the result is the copy of the graph. -/
theorem set_names_generate_nothing {t : Given} {calls : List (String × String × Rat)} (h : setProbabilities calls = some t)
    (hn : ∀ c ∈ calls, c.1 ≠ "dummy") (workName : Nat → String) :
    restruct (withDefault E t workName) g nodes finish s = some (g.copy nodes [] id, []) := by
  obtain ⟨h1, h2⟩ := set_names h hn
  have hprob : ∀ v, (withDefault E t workName).probabilities v = some [] := by
    intro v
    change t.generate (nameAttribute (workName v)) = some []
    unfold Given.generate nameAttribute
    rw [h1, h2]
    rfl
  have key : ∀ (nodes : List Nat) (a : Graph × List (Sub Zones Workers) × (Nat × σ)), addSubs (withDefault E t workName) finish nodes a = some a := by
    intro nodes
    induction nodes with
    | nil => exact fun a => rfl
    | cons v rest ih =>
      intro a
      rw [addSubs, hprob]
      split
      · exact ih a
      · dsimp only
        rw [genSubWorks, List.foldl_nil, List.append_nil]
        exact ih a
  unfold restruct
  rw [key]
  rfl

/-- Not proved because false, for the same claim: a dictionary of probabilities given as a whole, without the key `dummy`, makes the
estimator raise `KeyError` for every graph with a work that is not a service unit. -/
theorem set_all_raises {entries : List (String × List (String × Rat))} (hn : ∀ e ∈ entries, e.1 ≠ "dummy") (workName : Nat → String)
    (hv : ∃ v ∈ nodes, E.service v = false) : restruct (withDefault E (.setAll entries) workName) g nodes finish s = none := by
  have hl : entries.lookup "dummy" = none := by
    refine List.lookup_eq_none_iff.2 fun e he => ?_
    have := hn e he
    simpa using fun h => this h.symm
  have hprob : ∀ v, (withDefault E (.setAll entries) workName).probabilities v = none := by
    intro v
    change (Given.setAll entries).generate (nameAttribute (workName v)) = none
    unfold Given.generate nameAttribute Given.setAll
    dsimp only
    rw [hl]
    rfl
  have key : ∀ (nodes : List Nat) (a : Graph × List (Sub Zones Workers) × (Nat × σ)), (∃ v ∈ nodes, E.service v = false) →
      addSubs (withDefault E (.setAll entries) workName) finish nodes a = none := by
    intro nodes
    induction nodes with
    | nil => exact fun a h => by obtain ⟨v, hv, _⟩ := h; cases hv
    | cons v rest ih =>
      rintro a ⟨w, hw, hws⟩
      rw [addSubs, hprob]
      split
      · next hs =>
        rcases List.mem_cons.mp hw with rfl | hw
        · change E.service w = true at hs
          rw [hs] at hws
          cases hws
        · exact ih a ⟨w, hw, hws⟩
      · rfl
  unfold restruct
  rw [key nodes _ hv]
  rfl

/-- Partial: probabilities stored for the word `dummy` are used, for all works alike, whatever their names. -/
theorem dummy_for_all_partial (t : Given) (ps : List (String × Rat)) (h : t.entries.lookup "dummy" = some ps) (workName : Nat → String) (v : Nat) :
    (withDefault E t workName).probabilities v = some ps := by
  change t.generate (nameAttribute (workName v)) = some ps
  unfold Given.generate nameAttribute
  rw [h]

/-! ### The hypotheses can be met -/

/-- The start 0, the works 1 and 2, the finish 3; the works of ids from 10 on are new. -/
private def demo : Graph := .ofEdges [⟨0, 1, 0, .finishStart⟩, ⟨1, 2, 3, .lagFinishStart⟩, ⟨2, 3, 0, .finishStart⟩]

/-- Random numbers 1/2, 1/4, 1/2, 1/4, …; a defect with probability 1/3, and for the work 2 also an inspection for sure. -/
private def env : Env Nat Nat Nat where
  roll n := (if n % 2 = 0 then 1 / 2 else 1 / 4, n + 1)
  probabilities v := some (if v = 2 then [("defect", 1 / 3), ("inspection", 1)] else [("defect", 1 / 3)])
  volume _ _ n := (5, n)
  workers _ _ n := (7, n)
  zones v := v
  service v := v == 0 || v == 3
  id n := n + 10

example : demo.Project 0 [0, 1, 2, 3] where
  once := by decide
  linked := Graph.linked_ofEdges _
  start_mem := by decide
  closed := Graph.closed_ofEdges (by decide)
  reach := by
    have e : ∀ p v, (p, v) ∈ [(0, 1), (1, 2), (2, 3)] → demo.Before p v := by
      intro p v h
      simp only [List.mem_cons, Prod.mk.injEq, List.not_mem_nil, or_false] at h
      rcases h with ⟨rfl, rfl⟩ | ⟨rfl, rfl⟩ | ⟨rfl, rfl⟩ <;> unfold Graph.Before <;> decide
    have h1 : demo.Reaches 0 1 := .single (e 0 1 (by decide))
    have h2 := h1.tail (e 1 2 (by decide))
    intro v hv
    simp only [List.mem_cons, List.not_mem_nil, or_false] at hv
    rcases hv with rfl | rfl | rfl | rfl
    · exact .refl
    · exact h1
    · exact h2
    · exact h2.tail (e 2 3 (by decide))
  acyclic := Graph.acyclic_before_ofEdges id (by decide)

example : NewIds env [0, 1, 2, 3] := ⟨fun n => by simp [env], fun a b h => by simpa [env] using h⟩

example : Ends env demo [0, 1, 2, 3] 3 := ⟨by decide, by decide, by decide⟩

example : (∀ s, 0 ≤ (env.roll s).1 ∧ (env.roll s).1 < 1) ∧ ∀ n, env.roll n = (if n % 2 = 0 then 1 / 2 else 1 / 4, n + 1) := by
  refine ⟨fun s => ?_, fun n => rfl⟩
  unfold env
  dsimp only
  split <;> norm_num

/-- The work 2 gets a defect (1/4 < 1/3) and an inspection. -/
example : (restruct env demo [0, 1, 2, 3] 3 0).map (fun r => r.2.map fun c => (c.id, c.parent, c.name)) =
    some [(10, 2, "defect"), (11, 2, "inspection")] := by decide +kernel

/-- If the work 3 were no service unit, it would get a work too. -/
example : (restruct { env with service := fun _ => false, probabilities := fun _ => some [("defect", 1)] } demo [0, 1, 2, 3] 3 0).map (fun r => r.2.any fun c => decide (c.parent = 3)) =
    some true := by decide +kernel

example : (setProbabilities [("laying bricks", "defect", 1), ("digging", "defect", 1 / 2), ("laying bricks", "inspection", 1)]).isSome = true := by
  decide +kernel

end Sampo.C87
