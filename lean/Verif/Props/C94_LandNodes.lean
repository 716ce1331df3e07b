import Verif.Lemmas.LandNodes

/-!
# C94: A transport network shows the roads that were laid

Whatever the order in which nodes were created, joined and looked at, `LandGraph(nodes)` is built exactly when the nodes are different, each has a road
and no road leaves them.  Its matrix has for two nodes the length of the road laid last between them, in both directions, and
infinity without one; `edges`, read for the first time, lists every road once, and so does `neighbours` of a node.  Works of a node are kept.

Not proved because false: `neighbours` and `edges` show the roads laid later (`neighbours_remembered`, `edges_remembered`, even after `reinit`);
neighbours can be given to the constructor (`neighbours_at_creation_raise`); nodes created without an id can be told apart by it
(`default_id_shared`).
-/

namespace Sampo.C94

open LandNodes

private theorem node_roads {ops : List Op} {h : Heap} (hr : run ops = some h) {v : Nat} {n : Node} (hn : h.nodes[v]? = some n) :
    n.roads = seen v (laid ops) := (run_good hr).roads v n hn

private theorem roads_ne {v : Nat} {log : List Laid} : seen v log ≠ [] ↔ ∃ l ∈ log, l.a = v ∨ l.b = v := by
  constructor
  · intro h
    obtain ⟨e, he⟩ := List.exists_mem_of_ne_nil _ h
    obtain ⟨l, hl, hs, hsh, -⟩ := mem_seen.1 he
    refine ⟨l, List.mem_of_getElem? hl, ?_⟩
    rcases hsh with ⟨h1, -⟩ | ⟨h1, -⟩
    · exact Or.inl (h1.symm.trans hs)
    · exact Or.inr (h1.symm.trans hs)
  · rintro ⟨l, hl, h⟩
    obtain ⟨i, hi⟩ := List.mem_iff_getElem?.1 hl
    rcases h with h | h
    · exact List.ne_nil_of_mem (a := ⟨i, v, l.b, l.weight, l.bandwidth⟩) (mem_seen.2 ⟨l, hi, rfl, Or.inl ⟨h.symm, rfl⟩, rfl, rfl⟩)
    · exact List.ne_nil_of_mem (a := ⟨i, v, l.a, l.weight, l.bandwidth⟩) (mem_seen.2 ⟨l, hi, rfl, Or.inr ⟨h.symm, rfl⟩, rfl, rfl⟩)

private theorem ends_closed {log : List Laid} {nodes : List Nat} :
    (∀ v ∈ nodes, ∀ e ∈ seen v log, e.finish ∈ nodes) ↔ ∀ l ∈ log, l.a ∈ nodes ↔ l.b ∈ nodes := by
  constructor
  · intro h l hl
    obtain ⟨i, hi⟩ := List.mem_iff_getElem?.1 hl
    constructor
    · intro ha
      exact h l.a ha ⟨i, l.a, l.b, l.weight, l.bandwidth⟩ (mem_seen.2 ⟨l, hi, rfl, Or.inl ⟨rfl, rfl⟩, rfl, rfl⟩)
    · intro hb
      exact h l.b hb ⟨i, l.b, l.a, l.weight, l.bandwidth⟩ (mem_seen.2 ⟨l, hi, rfl, Or.inr ⟨rfl, rfl⟩, rfl, rfl⟩)
  · intro h v hv e he
    obtain ⟨l, hl, hs, hsh, -⟩ := mem_seen.1 he
    have := h l (List.mem_of_getElem? hl)
    rcases hsh with ⟨h1, h2⟩ | ⟨h1, h2⟩
    · rw [h2, ← this, ← h1, hs]; exact hv
    · rw [h2, this, ← h1, hs]; exact hv

private theorem toAdj_some {ops : List Op} {h : Heap} (hr : run ops = some h) {nodes : List Nat} {m : Matrix}
    (ht : toAdj h nodes = some m) :
    Complete (laid ops) nodes ∧ ∀ i j u v, nodes[i]? = some u → nodes[j]? = some v → m i j = lastLength (laid ops) u v := by
  rw [toAdj_eq] at ht
  obtain ⟨h1, -⟩ := fillNodes_spec (keysOf_nodup_always nodes) ht
  have hnd : nodes.Nodup := by
    rcases List.eq_nil_or_concat nodes with rfl | ⟨l, x, rfl⟩
    · simp
    · rw [List.concat_eq_append] at *
      obtain ⟨i, n, hi, -, -, hlt, -⟩ := h1 x (mem_keysOf.2 (by simp))
      rw [lastIndex_last] at hi
      simp only [Option.some.injEq] at hi
      have hl := keysOf_length (l ++ [x])
      refine hl.2 ?_
      have : (l ++ [x]).length = l.length + 1 := by simp
      omega
  rw [keysOf_nodup hnd] at h1
  refine ⟨⟨hnd, ?_, ?_⟩, ?_⟩
  · intro v hv
    obtain ⟨i, n, -, hn, hne, -⟩ := h1 v hv
    rw [node_roads hr hn] at hne
    exact roads_ne.1 hne
  · apply ends_closed.1
    intro v hv e he
    obtain ⟨i, n, -, hn, -, -, hfin, -⟩ := h1 v hv
    rw [node_roads hr hn] at hfin
    exact hfin e he
  · intro i j u v hi hj
    obtain ⟨i', n, hi', hn, -, -, -, hm⟩ := h1 u (List.mem_of_getElem? hi)
    rw [(lastIndex_nodup hnd).2 hi] at hi'
    simp only [Option.some.injEq] at hi'; subst hi'
    rw [hm j, node_roads hr hn, written_seen hnd hj]

private theorem toAdj_ok {ops : List Op} {h : Heap} (hr : run ops = some h) {nodes : List Nat} (hex : ∀ v ∈ nodes, v < h.nodes.length)
    (hc : Complete (laid ops) nodes) : ∃ m, toAdj h nodes = some m := by
  rw [toAdj_eq, keysOf_nodup hc.distinct]
  refine fillNodes_ok ?_ _ ?_
  · intro x j hj
    exact (List.getElem?_eq_some_iff.1 (lastIndex_some hj)).1
  · intro v hv
    refine ⟨hv, h.nodes[v]'(hex v hv), List.getElem?_eq_getElem _, ?_, ?_⟩
    · rw [node_roads hr (List.getElem?_eq_getElem (hex v hv))]
      exact roads_ne.2 (hc.road v hv)
    · rw [node_roads hr (List.getElem?_eq_getElem (hex v hv))]
      exact ends_closed.2 hc.closed v hv

/-- After any history of the nodes, a graph of some of them is built exactly when the network is closed. -/
theorem graph_built_iff {ops : List Op} {h : Heap} (hr : run ops = some h) {nodes : List Nat} (hex : ∀ v ∈ nodes, v < h.nodes.length) :
    (∃ g, Graph.new h nodes = some g) ↔ Complete (laid ops) nodes := by
  unfold Graph.new Graph.reinit
  dsimp only
  constructor
  · rintro ⟨g, hg⟩
    obtain ⟨m, hm, -⟩ := Option.map_eq_some_iff.1 hg
    exact (toAdj_some hr hm).1
  · intro hc
    obtain ⟨m, hm⟩ := toAdj_ok hr hex hc
    exact ⟨_, by rw [hm]; rfl⟩

/-- `reinit` after any further history: the numbers of nodes are their positions, and the matrix has the length of the road laid last, both ways. -/
theorem matrix_shows_roads {ops : List Op} {h : Heap} (hr : run ops = some h) {g g' : Graph} (hg : g.reinit h = some g') :
    g'.nodes = g.nodes ∧ g'.size = g.nodes.length ∧ (∀ i v, g.nodes[i]? = some v → g'.nodeInd v = some i) ∧
      (∀ i j u v, g.nodes[i]? = some u → g.nodes[j]? = some v →
        g'.adj i j = lastLength (laid ops) u v ∧ g'.adj j i = g'.adj i j ∧
        (g'.adj i j = none ↔ ∀ l ∈ laid ops, ¬ l.Joins u v)) := by
  unfold Graph.reinit at hg
  obtain ⟨m, hm, rfl⟩ := Option.map_eq_some_iff.1 hg
  obtain ⟨hc, hadj⟩ := toAdj_some hr hm
  dsimp only
  refine ⟨rfl, by rw [keysOf_nodup hc.distinct], fun i v hi => (lastIndex_nodup hc.distinct).2 hi, ?_⟩
  intro i j u v hi hj
  refine ⟨hadj i j u v hi hj, ?_, ?_⟩
  · rw [hadj i j u v hi hj, hadj j i v u hj hi]
    unfold lastLength
    congr 2
    funext l
    exact decide_eq_decide.2 or_comm
  · rw [hadj i j u v hi hj]
    unfold lastLength
    simp

/-- A new graph is no other. -/
theorem new_graph {ops : List Op} {h : Heap} (hr : run ops = some h) {nodes : List Nat} {g : Graph} (hg : Graph.new h nodes = some g) :
    g.nodes = nodes ∧ g.size = nodes.length ∧ g.shown = none ∧ ∀ i j u v, nodes[i]? = some u → nodes[j]? = some v →
      g.adj i j = lastLength (laid ops) u v ∧ g.adj j i = g.adj i j := by
  obtain ⟨h1, h2, -, h4⟩ := matrix_shows_roads hr hg
  refine ⟨h1, h2, ?_, fun i j u v hi hj => ⟨(h4 i j u v hi hj).1, (h4 i j u v hi hj).2.1⟩⟩
  unfold Graph.new Graph.reinit at hg
  obtain ⟨m, -, rfl⟩ := Option.map_eq_some_iff.1 hg
  rfl

/-- With different ids, the dictionary of ids gives the position of the node with the id. -/
theorem ids_found {h : Heap} {g g' : Graph} (hg : g.reinit h = some g')
    (hd : (g.nodes.map fun v => (h.nodes[v]?).bind Node.id).Nodup) {i v : Nat} {n : Node} (hi : g.nodes[i]? = some v)
    (hn : h.nodes[v]? = some n) : g'.idInd n.id = some i := by
  unfold Graph.reinit at hg
  obtain ⟨m, hm, rfl⟩ := Option.map_eq_some_iff.1 hg
  dsimp only
  rw [lastIndex_nodup hd, List.getElem?_map, hi, Option.map_some, hn]
  rfl

/-- `edges` of a graph whose `edges` were not read before: every road that was laid at one of its nodes once, with its ends, length and bandwidth. -/
theorem edges_once_partial {ops : List Op} {h : Heap} (hr : run ops = some h) {g : Graph} (hs : g.shown = none)
    (hg : ∃ g', g.reinit h = some g') :
    ∃ es g', g.edges h = some (es, g') ∧ (es.map Edge.id).Nodup ∧ (∀ e ∈ es, ∃ l, (laid ops)[e.id]? = some l ∧ e.Shows l) ∧
      ∀ i l, (laid ops)[i]? = some l → (i ∈ es.map Edge.id ↔ l.a ∈ g.nodes ∨ l.b ∈ g.nodes) := by
  obtain ⟨g', hg⟩ := hg
  unfold Graph.reinit at hg
  obtain ⟨m, hm, rfl⟩ := Option.map_eq_some_iff.1 hg
  have hm' := hm
  rw [toAdj_eq] at hm'
  obtain ⟨h1, -⟩ := fillNodes_spec (keysOf_nodup_always g.nodes) hm'
  obtain ⟨hc, -⟩ := toAdj_some hr hm
  obtain ⟨es, a1, a2, a3, a4, a5⟩ := edges_spec (h := h) g.nodes [] (by simp) (by
    intro v hv
    obtain ⟨i, n, -, hn, hne, -⟩ := h1 v (mem_keysOf.2 hv)
    exact ⟨n, hn, hne⟩)
  have hlist : ∀ e ∈ es, ∃ l, (laid ops)[e.id]? = some l ∧ e.start ∈ g.nodes ∧ e.Shows l := by
    intro e he
    rcases a3 e he with he | ⟨v, hv, n, hn, he⟩
    · simp at he
    · rw [node_roads hr hn] at he
      obtain ⟨l, hl, hst, hsh⟩ := mem_seen.1 he
      exact ⟨l, hl, by rw [hst]; exact hv, hsh⟩
  refine ⟨es, _, by unfold Graph.edges; rw [hs]; dsimp only; rw [a1]; rfl, a2, ?_, ?_⟩
  · intro e he
    obtain ⟨l, h2, -, h4⟩ := hlist e he
    exact ⟨l, h2, h4⟩
  · intro i l hl
    constructor
    · intro hi
      obtain ⟨e, he, rfl⟩ := List.mem_map.1 hi
      obtain ⟨l', h2, h3, h4, -⟩ := hlist e he
      rw [hl] at h2; simp only [Option.some.injEq] at h2; subst h2
      rcases h4 with ⟨e1, -⟩ | ⟨e1, -⟩
      · rw [e1] at h3; exact Or.inl h3
      · rw [e1] at h3; exact Or.inr h3
    · intro ho
      have ha : l.a ∈ g.nodes := by
        rcases ho with ho | ho
        · exact ho
        · exact (hc.closed l (List.mem_of_getElem? hl)).2 ho
      obtain ⟨i', n, -, hn, -⟩ := h1 l.a (mem_keysOf.2 ha)
      have := a5 l.a ha n hn ⟨i, l.a, l.b, l.weight, l.bandwidth⟩ (by
        rw [node_roads hr hn]
        exact mem_seen.2 ⟨l, hl, rfl, Or.inl ⟨rfl, rfl⟩, rfl, rfl⟩)
      exact this

private theorem shown_step {h h' : Heap} {op : Op} (hs : step h op = some h') {a : Nat} (hop : ∀ b, op = .look b → b ≠ a) {n : Node}
    (hn : h'.nodes[a]? = some n) : (∃ m, h.nodes[a]? = some m ∧ n.shown = m.shown) ∨ (h.nodes[a]? = none ∧ n.shown = none) := by
  have hjoin : ∀ {h h' : Heap} {b : Nat} {x : Nat × Nat × Nat} {n : Node}, h.join b x = some h' → h'.nodes[a]? = some n →
      ∃ m, h.nodes[a]? = some m ∧ n.shown = m.shown := by
    intro h h' b x n hj hn
    unfold Heap.join at hj
    split at hj
    · simp only [Option.some.injEq] at hj; subst hj
      dsimp only [Heap.append] at hn
      rw [List.getElem?_modify, List.getElem?_modify] at hn
      cases hv : h.nodes[a]? with
      | none => rw [hv] at hn; simp at hn
      | some m =>
        rw [hv] at hn
        refine ⟨m, rfl, ?_⟩
        simp only [Option.map_eq_map, Option.map_some, Option.some.injEq] at hn
        subst hn
        split <;> split <;> rfl
    · simp at hj
  have hfold : ∀ {b : Nat} (ns : List (Nat × Nat × Nat)) {h : Heap}, ns.foldlM (fun h x => h.join b x) h = some h' →
      ∃ m, h.nodes[a]? = some m ∧ n.shown = m.shown := by
    intro b ns
    induction ns with
    | nil => intro h hf; simp at hf; subst hf; exact ⟨n, hn, rfl⟩
    | cons x ns ih =>
      intro h hf
      rw [List.foldlM_cons] at hf
      obtain ⟨h1, hj, hf⟩ := Option.bind_eq_some_iff.1 hf
      obtain ⟨m, hm, e⟩ := ih hf
      obtain ⟨m', hm', e'⟩ := hjoin hj hm
      exact ⟨m', hm', e.trans e'⟩
  cases op with
  | create id ns works =>
    unfold step at hs; dsimp only at hs
    split at hs
    · simp only [Option.some.injEq] at hs; subst hs
      dsimp only at hn
      rcases Nat.lt_trichotomy a h.nodes.length with hv | hv | hv
      · rw [List.getElem?_append_left hv] at hn
        exact Or.inl ⟨n, hn, rfl⟩
      · subst hv
        simp at hn; subst hn
        exact Or.inr ⟨by simp, rfl⟩
      · rw [List.getElem?_eq_none (by simp; omega)] at hn; simp at hn
    · simp at hs
  | add b ns =>
    unfold step at hs; dsimp only at hs
    split at hs
    · exact Or.inl (hfold ns hs)
    · simp at hs
  | addWorks b ws =>
    unfold step at hs; dsimp only at hs
    split at hs
    · simp only [Option.some.injEq] at hs; subst hs
      dsimp only at hn
      rw [List.getElem?_modify, Option.map_eq_map, Option.map_eq_some_iff] at hn
      obtain ⟨m, hm, rfl⟩ := hn
      exact Or.inl ⟨m, hm, by split <;> rfl⟩
    · simp at hs
  | look b =>
    unfold step at hs; dsimp only at hs
    split at hs
    · simp only [Option.some.injEq] at hs; subst hs
      dsimp only at hn
      rw [List.getElem?_modify, Option.map_eq_map, Option.map_eq_some_iff] at hn
      obtain ⟨m, hm, rfl⟩ := hn
      refine Or.inl ⟨m, hm, ?_⟩
      rw [if_neg (hop b rfl)]
    · simp at hs

/-- `neighbours` of a node that was not asked before: the other ends of its roads in the order they were laid. -/
theorem neighbours_first_partial {ops : List Op} {h : Heap} (hr : run ops = some h) {a : Nat} (hl : Op.look a ∉ ops) {n : Node}
    (hn : h.nodes[a]? = some n) :
    n.neighbours = (laid ops).flatMap fun l => (if l.a = a then [l.b] else []) ++ if l.b = a then [l.a] else [] := by
  have hs : n.shown = none := by
    induction ops using List.reverseRecOn generalizing h n with
    | nil => simp [run] at hr; subst hr; simp at hn
    | append_singleton ops op ih =>
      rw [run_append] at hr
      obtain ⟨h0, h1, h2⟩ := Option.bind_eq_some_iff.1 hr
      rcases shown_step h2 (a := a) (fun b hb e => hl (by rw [hb, e]; simp)) hn with ⟨m, hm, e⟩ | ⟨-, e⟩
      · rw [e]; exact ih h1 (fun hc => hl (by simp [hc])) hm
      · exact e
  unfold Node.neighbours
  rw [hs, Option.getD_none, node_roads hr hn]
  generalize laid ops = log
  induction log using List.reverseRecOn with
  | nil => simp [seen]
  | append_singleton log x ih =>
    rw [seen_append, List.map_append, ih, List.flatMap_append]
    congr 1
    unfold view
    simp only [List.flatMap_cons, List.flatMap_nil, List.append_nil, List.map_append]
    congr 1 <;> split <;> rfl

/-- Once asked, a node shows the neighbours it had then, whatever is added. -/
theorem neighbours_remembered {ops ops' : List Op} {a : Nat} {h h' : Heap} (hr : run ops = some h)
    (hr' : run (ops ++ Op.look a :: ops') = some h') {n n' : Node} (hn : h.nodes[a]? = some n) (hn' : h'.nodes[a]? = some n') :
    n'.neighbours = n.neighbours := by
  suffices H : n'.shown = some n.neighbours by unfold Node.neighbours at *; rw [H]; rfl
  induction ops' using List.reverseRecOn generalizing h' n' with
  | nil =>
    rw [run_append, hr, Option.bind_some] at hr'
    unfold step at hr'; dsimp only at hr'
    split at hr'
    · simp only [Option.some.injEq] at hr'; subst hr'
      dsimp only at hn'
      rw [List.getElem?_modify, hn] at hn'
      simp at hn'
      rw [← hn']
    · simp at hr'
  | append_singleton ops' op ih =>
    rw [← List.cons_append, ← List.append_assoc, run_append] at hr'
    obtain ⟨h0, h1, h2⟩ := Option.bind_eq_some_iff.1 hr'
    by_cases hop : op = .look a
    · subst hop
      unfold step at h2; dsimp only at h2
      split at h2
      · rename_i hlt
        simp only [Option.some.injEq] at h2; subst h2
        dsimp only at hn'
        rw [List.getElem?_modify, List.getElem?_eq_getElem hlt] at hn'
        have := ih h1 (List.getElem?_eq_getElem hlt)
        simp at hn'
        rw [← hn']
        dsimp only
        unfold Node.neighbours
        rw [this]; rfl
      · simp at h2
    · rcases shown_step h2 (a := a) (fun b hb e => hop (by rw [hb, e])) hn' with ⟨m, hm, e⟩ | ⟨hm, -⟩
      · rw [e]; exact ih h1 hm
      · exfalso
        have hlen : ∀ (l : List Op) {h1 h2 : Heap}, l.foldlM step h1 = some h2 → h1.nodes.length ≤ h2.nodes.length := by
          intro l
          induction l with
          | nil => intro h1 h2 hf; simp at hf; subst hf; exact Nat.le_refl _
          | cons op l ihl =>
            intro h1 h2 hf
            rw [List.foldlM_cons] at hf
            obtain ⟨h3, h4, h5⟩ := Option.bind_eq_some_iff.1 hf
            refine Nat.le_trans ?_ (ihl h5)
            cases op with
            | create id ns works =>
              unfold step at h4; dsimp only at h4
              split at h4
              · simp only [Option.some.injEq] at h4; subst h4; simp
              · simp at h4
            | add b ns =>
              unfold step at h4; dsimp only at h4
              split at h4
              · have : ∀ (ns : List (Nat × Nat × Nat)) {h1 : Heap}, ns.foldlM (fun h x => h.join b x) h1 = some h3 →
                    h1.nodes.length ≤ h3.nodes.length := by
                  intro ns
                  induction ns with
                  | nil => intro h1 hf; simp at hf; subst hf; exact Nat.le_refl _
                  | cons x ns ihn =>
                    intro h1 hf
                    rw [List.foldlM_cons] at hf
                    obtain ⟨h6, h7, h8⟩ := Option.bind_eq_some_iff.1 hf
                    refine Nat.le_trans ?_ (ihn h8)
                    unfold Heap.join at h7
                    split at h7
                    · simp only [Option.some.injEq] at h7; subst h7; simp [Heap.append]
                    · simp at h7
                exact this ns h4
              · simp at h4
            | addWorks b ws =>
              unfold step at h4; dsimp only at h4
              split at h4
              · simp only [Option.some.injEq] at h4; subst h4; simp
              · simp at h4
            | look b =>
              unfold step at h4; dsimp only at h4
              split at h4
              · simp only [Option.some.injEq] at h4; subst h4; simp
              · simp at h4
        have h3 : run (ops ++ Op.look a :: ops') = some h0 := h1
        unfold run at h3 hr
        rw [List.foldlM_append, hr] at h3
        have := hlen _ h3
        have hlt := (List.getElem?_eq_some_iff.1 hn).1
        rw [List.getElem?_eq_none_iff] at hm
        omega

/-- What `edges` has shown once it shows for ever, also after roads were laid and `reinit` called. -/
theorem edges_remembered {g g' g'' : Graph} {h h' h'' : Heap} {es : List Edge} (he : g.edges h = some (es, g'))
    (hr : g'.reinit h' = some g'') : (g''.edges h'').map Prod.fst = some es := by
  have hs : g'.shown = some es := by
    unfold Graph.edges at he
    split at he
    · rename_i es' hsh
      simp only [Option.some.injEq, Prod.mk.injEq] at he
      obtain ⟨rfl, rfl⟩ := he; exact hsh
    · obtain ⟨x, -, hx⟩ := Option.map_eq_some_iff.1 he
      simp only [Prod.mk.injEq] at hx
      obtain ⟨rfl, rfl⟩ := hx; rfl
  unfold Graph.reinit at hr
  obtain ⟨m, -, rfl⟩ := Option.map_eq_some_iff.1 hr
  unfold Graph.edges
  dsimp only
  rw [hs]; rfl

/-- Works added to node `a`. -/
def addedTo (a : Nat) : Op → List Nat
  | .addWorks b ws => if b = a then ws else []
  | _ => []

private theorem works_step {h h' : Heap} {op : Op} (hs : step h op = some h') {a : Nat} {n : Node} (hn : h.nodes[a]? = some n) :
    ∃ n', h'.nodes[a]? = some n' ∧ n'.works = n.works ++ addedTo a op := by
  have ha := (List.getElem?_eq_some_iff.1 hn).1
  have happ : ∀ (h : Heap) (b : Nat) (e : Edge) (n : Node), h.nodes[a]? = some n →
      ∃ n', (h.append b e).nodes[a]? = some n' ∧ n'.works = n.works := by
    intro h b e n hn
    unfold Heap.append
    dsimp only
    rw [List.getElem?_modify, hn, Option.map_eq_map, Option.map_some]
    refine ⟨_, rfl, ?_⟩
    split <;> rfl
  have hjoin : ∀ {h h' : Heap} {b : Nat} {x : Nat × Nat × Nat} {n : Node}, h.join b x = some h' → h.nodes[a]? = some n →
      ∃ n', h'.nodes[a]? = some n' ∧ n'.works = n.works := by
    intro h h' b x n hj hn
    unfold Heap.join at hj
    split at hj
    · simp only [Option.some.injEq] at hj
      subst hj
      obtain ⟨n1, h1, w1⟩ := happ h b ⟨h.ids, b, x.1, x.2.1, x.2.2⟩ n hn
      obtain ⟨n2, h2, w2⟩ := happ _ x.1 ⟨h.ids, x.1, b, x.2.1, x.2.2⟩ n1 h1
      exact ⟨n2, h2, w2.trans w1⟩
    · cases hj
  cases op with
  | create id ns works =>
    unfold step at hs
    dsimp only at hs
    split at hs
    · simp only [Option.some.injEq] at hs
      subst hs
      exact ⟨n, by dsimp only; rw [List.getElem?_append_left ha, hn], by simp [addedTo]⟩
    · cases hs
  | add b ns =>
    unfold step at hs
    dsimp only at hs
    split at hs
    · rename_i hb
      clear hb ha
      simp only [addedTo, List.append_nil]
      induction ns generalizing h n with
      | nil => cases hs; exact ⟨n, hn, rfl⟩
      | cons x ns ih =>
        rw [List.foldlM_cons] at hs
        obtain ⟨h1, hj, hs⟩ := Option.bind_eq_some_iff.1 hs
        obtain ⟨n1, hn1, w1⟩ := hjoin hj hn
        obtain ⟨n2, hn2, w2⟩ := ih hn1 hs
        exact ⟨n2, hn2, w2.trans w1⟩
    · cases hs
  | addWorks b ws =>
    unfold step at hs
    dsimp only at hs
    split at hs
    · simp only [Option.some.injEq] at hs
      subst hs
      dsimp only
      rw [List.getElem?_modify, hn, Option.map_eq_map, Option.map_some]
      refine ⟨_, rfl, ?_⟩
      unfold addedTo
      by_cases hb : b = a
      · simp [hb]
      · simp [hb]
    · cases hs
  | look b =>
    unfold step at hs
    dsimp only at hs
    split at hs
    · simp only [Option.some.injEq] at hs
      subst hs
      dsimp only
      rw [List.getElem?_modify, hn, Option.map_eq_map, Option.map_some]
      refine ⟨_, rfl, ?_⟩
      unfold addedTo
      split <;> simp
    · cases hs

/-- Works of a node are kept: after any further history they are those it had and the ones added to it since, in order. -/
theorem works_kept {ops more : List Op} {h h' : Heap} (hr : run ops = some h) (hr' : run (ops ++ more) = some h') {a : Nat} {n : Node}
    (hn : h.nodes[a]? = some n) : ∃ n', h'.nodes[a]? = some n' ∧ n'.works = n.works ++ more.flatMap (addedTo a) := by
  induction more using List.reverseRecOn generalizing h' with
  | nil =>
    rw [List.append_nil, hr] at hr'
    cases hr'
    exact ⟨n, hn, by simp⟩
  | append_singleton more op ih =>
    rw [← List.append_assoc, run_append] at hr'
    obtain ⟨h1, e1, e2⟩ := Option.bind_eq_some_iff.1 hr'
    obtain ⟨n1, hn1, w1⟩ := ih e1
    obtain ⟨n2, hn2, w2⟩ := works_step e2 hn1
    exact ⟨n2, hn2, by rw [w2, w1, List.flatMap_append]; simp⟩

example : (run [.create none none [5], .create none none [], .addWorks 0 [6, 7], .look 0, .add 0 [(1, 3, 4)], .addWorks 1 [8],
    .addWorks 0 [5]]).map (fun h => h.nodes.map Node.works) = some [[5, 6, 7, 5], [8]] := by decide +kernel

/-- A road to the first neighbour cannot be given to the constructor. -/
theorem neighbours_at_creation_raise (ops : List Op) (id : Option Nat) (x : Nat × Nat × Nat) (ns : List (Nat × Nat × Nat)) (works : List Nat) :
    run (ops ++ [.create id (some (x :: ns)) works]) = none := by
  rw [run_append]
  cases run ops with
  | none => rfl
  | some h => simp [step]

/-- Three nodes without ids, joined in a row and to a second road of another length. -/
private def demo : List Op :=
  [.create none none [], .create none none [1], .create none none [], .add 0 [(1, 5, 2), (2, 9, 1)], .look 1, .add 2 [(1, 3, 4), (0, 4, 1)]]

/-- Nodes without ids share one: the dictionary of ids knows only the last of them. -/
theorem default_id_shared : ∃ h g, run demo = some h ∧ Graph.new h [0, 1, 2] = some g ∧ (∀ v ∈ h.nodes, v.id = none) ∧
    g.idInd none = some 2 ∧ g.nodeInd 0 = some 0 ∧ g.nodeInd 1 = some 1 := by
  obtain ⟨h, hr⟩ : ∃ h, run demo = some h := Option.isSome_iff_exists.1 (by decide +kernel)
  have hn : h.nodes.map Node.id = [none, none, none] := by
    have : (run demo).map (fun h => h.nodes.map Node.id) = some [none, none, none] := by decide +kernel
    rw [hr] at this; simpa using this
  obtain ⟨m, hm⟩ : ∃ m, toAdj h [0, 1, 2] = some m := by
    have : ((run demo).bind fun h => (toAdj h [0, 1, 2]).map fun _ => ()) = some () := by decide +kernel
    rw [hr, Option.bind_some, Option.map_eq_some_iff] at this
    exact ⟨_, this.choose_spec.1⟩
  have hids : ([0, 1, 2].map fun v => (h.nodes[v]?).bind Node.id) = [none, none, none] := by
    have : (run demo).map (fun h => [0, 1, 2].map fun v => (h.nodes[v]?).bind Node.id) = some [none, none, none] := by decide +kernel
    rw [hr] at this; simpa using this
  refine ⟨h, ⟨[0, 1, 2], m, lastIndex [0, 1, 2], lastIndex ([0, 1, 2].map fun v => (h.nodes[v]?).bind Node.id), (keysOf [0, 1, 2]).length, none⟩,
    hr, ?_, ?_, ?_, ?_, ?_⟩
  · unfold Graph.new Graph.reinit; dsimp only; rw [hm]; rfl
  · intro v hv
    have := List.mem_map_of_mem (f := Node.id) hv
    rw [hn] at this
    simpa using this
  · dsimp only; rw [hids]; decide
  · dsimp only; decide
  · dsimp only; decide

/-- Its entries: the road laid last counts, in both directions; node 1 shows what it had when it was asked. -/
example : ((run demo).bind fun h => (Graph.new h [0, 1, 2]).map fun g =>
      ([(0, 1), (1, 0), (0, 2), (2, 0), (1, 2), (1, 1)].map fun p => g.adj p.1 p.2)) = some [some 5, some 5, some 4, some 4, some 3, none] ∧
    (run demo).map (fun h => h.nodes.map Node.neighbours) = some [[1, 2, 2], [0], [0, 1, 0]] ∧
    ((run demo).bind fun h => (Graph.new h [0, 1, 2]).bind fun g => (g.edges h).map fun p => p.1.map fun e => (e.id, e.start, e.finish)) =
      some [(0, 0, 1), (1, 0, 2), (3, 0, 2), (2, 1, 2)] := by
  decide +kernel

/-- The network is closed as `graph_built_iff` asks; two of its nodes are not. -/
example : Complete (laid demo) [0, 1, 2] ∧ ¬ Complete (laid demo) [0, 1] :=
  ⟨⟨by decide, by decide, by decide⟩, fun h => absurd h.closed (by decide)⟩

end Sampo.C94
