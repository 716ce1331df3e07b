import Verif.Lemmas.Synthetic
import Verif.Props.C32_FromNodes

namespace Sampo.Synthetic

theorem getClusters_spec {b : Build} (h : b.Ordered) {d : Draw} (hd : Possible d) (prob : ℚ) :
    Grown b (getClusters b d prob).2.2.2 (getClusters b d prob).1 (getClusters b d prob).2.1 (getClusters b d prob).2.2.1 ∧
    ((d.extra ≤ prob ∧ (getClusters b d prob).1.length = 2 ∧ 70 ≤ (getClusters b d prob).2.2.1 ∧
        (getClusters b d prob).2.2.1 ≤ 164) ∨
      (¬ d.extra ≤ prob ∧ (getClusters b d prob).1.length = 1 ∧ 37 ≤ (getClusters b d prob).2.2.1 ∧
        (getClusters b d prob).2.2.1 ≤ 84)) := by
  obtain ⟨hb, hpos⟩ := clusterCounts_holes hd
  have hm := grown_master h hb hpos
  obtain ⟨n, hn, hs⟩ := clusterCounts_spec hd
  have hu : uniform 0 1 d.extra = d.extra := by unfold uniform; ring
  have c1 : (getCluster b (clusterCounts d) none).2.2.1 = 3 + (onRoadsKinds (clusterCounts d) true).length := by
    rw [getCluster_none]
  have k1 := onRoadsKinds_length (clusterCounts d) true
  have k2 := onRoadsKinds_length (clusterCounts d) false
  simp only [if_true, Bool.false_eq_true, if_false] at k1 k2
  have hsum : 3 * (clusterCounts d).boreholes.length + (clusterCounts d).boreholes.sum = n + 3 ∧ n ≤ 14 ∨
      3 * (clusterCounts d).boreholes.length + (clusterCounts d).boreholes.sum = n + 6 ∧ 14 < n := by
    rcases hn with ⟨h0, h1⟩ | ⟨h0, h1⟩ <;> rw [h1]
    · left; simp; omega
    · right; simp; omega
  unfold getClusters
  rw [hu]
  by_cases he : d.extra ≤ prob
  · simp only [if_pos he]
    have hsl := grown_slave hm (by rw [c1]; omega) (c := clusterCounts d) hb hpos
    have c2 : (getCluster (getCluster b (clusterCounts d) none).2.2.2 (clusterCounts d)
        (some (getCluster b (clusterCounts d) none).2.1)).2.2.1 = (onRoadsKinds (clusterCounts d) false).length := by
      rw [getCluster_some]
    refine ⟨hsl, Or.inl ⟨he, rfl, ?_, ?_⟩⟩ <;> rw [c1, c2] <;> omega
  · simp only [if_neg he]
    refine ⟨hm, Or.inr ⟨he, rfl, ?_, ?_⟩⟩ <;> rw [c1] <;> omega

theorem linkRoot_kinds (root : Option Nat) (cs : List Nat) (b : Build) : (linkRoot root cs b).kinds = b.kinds := by
  cases root with
  | none => rfl
  | some r =>
    show (cs.foldl (fun b c => b.link c (plain [r])) b).kinds = _
    induction cs generalizing b with
    | nil => rfl
    | cons c cs ih => rw [List.foldl_cons, ih]; rfl

theorem linkRoot_edges (root : Option Nat) (cs : List Nat) (b : Build) : (linkRoot root cs b).edges =
    b.edges ++ cs.flatMap fun c => root.toList.map fun r => ⟨r, c, 0, .finishStart⟩ := by
  cases root with
  | none => simp [linkRoot]
  | some r =>
    show (cs.foldl (fun b c => b.link c (plain [r])) b).edges = _
    induction cs generalizing b with
    | nil => simp
    | cons c cs ih =>
      rw [List.foldl_cons, ih]
      show b.edges ++ _ ++ _ = _
      rw [List.flatMap_cons, List.append_assoc]
      rfl

/-- What holds after every round. -/
structure Inv (s : LoopState) : Prop where
  ordered : s.build.Ordered
  works : s.works = s.build.kinds.length
  inside : ∀ x ∈ s.stages, x.1 < s.build.kinds.length ∧ x.2.min < s.build.kinds.length ∧ x.2.temp < s.build.kinds.length ∧
    x.2.final < s.build.kinds.length
  increasing : (s.stages.map (·.1)).Pairwise (· < ·)
  roads : ∀ x ∈ s.stages, ∀ v ∈ x.2.values, ∃ d, s.build.E v d
  links : ∀ v < s.build.kinds.length, ((∃ p, s.build.E p v) ∨ ∃ x ∈ s.stages, v = x.2.min) ∧
    ((∃ x ∈ s.stages, v = x.1) ∨ ∃ d, s.build.E v d)
  handings : s.stages.map (·.1) = handings s.build.kinds
  road : ∀ x ∈ s.stages, s.build.kinds[x.2.min]? = some .minRoad
  last : ∀ x, s.stages.getLast? = some x → ∀ z, x.2.min < z → s.build.kinds[z]? ≠ some .minRoad

theorem inv_nil : Inv ⟨.nil, 0, []⟩ where
  ordered := by intro e he; simp [Build.nil] at he
  works := rfl
  inside := by simp
  increasing := by simp
  roads := by simp
  links := by intro v hv; simp [Build.nil] at hv
  handings := rfl
  road := by simp
  last := by simp

theorem rootOf_mem {mode : Mode} {stages : List (Nat × Roads)} {branching : ℚ} {d : Draw} {r : Nat}
    (h : rootOf mode stages branching d = some r) : ∃ x ∈ stages, r = x.1 ∨ r = x.2.min := by
  unfold rootOf at h
  cases mode with
  | parallel =>
    obtain ⟨x, hx, rfl⟩ := Option.map_eq_some_iff.1 h
    exact ⟨x, List.mem_of_head? hx, Or.inl rfl⟩
  | sequential =>
    obtain ⟨x, hx, rfl⟩ := Option.map_eq_some_iff.1 h
    exact ⟨x, List.mem_of_getLast? hx, Or.inl rfl⟩
  | general =>
    obtain ⟨x, hx, rfl⟩ := Option.map_eq_some_iff.1 h
    exact ⟨x, List.mem_of_getElem? hx, Or.inr rfl⟩

/-- The probability used in a round. -/
def probOf (p : Params) (prob : ℚ) (s : LoopState) : ℚ :=
  if 0 < p.clusters ∧ p.clusters = (s.stages.length : Int) - 1 then 0 else prob

theorem inv_round {p : Params} {prob : ℚ} {d : Draw} {s : LoopState} (hd : Possible d) (h : Inv s) :
    Inv (round p prob d s).1 ∧ (round p prob d s).1.works = s.works + (round p prob d s).2.1 ∧
    ((d.extra ≤ probOf p prob s ∧ (round p prob d s).1.stages.length = s.stages.length + 2 ∧ 70 ≤ (round p prob d s).2.1 ∧
        (round p prob d s).2.1 ≤ 164) ∨
      (¬ d.extra ≤ probOf p prob s ∧ (round p prob d s).1.stages.length = s.stages.length + 1 ∧ 37 ≤ (round p prob d s).2.1 ∧
        (round p prob d s).2.1 ≤ 84)) := by
  set r := getClusters s.build d (probOf p prob s) with hr
  set root := rootOf p.mode s.stages p.branching d with hroot
  have hrd : round p prob d s = (⟨linkRoot root r.1 r.2.2.2, s.works + r.2.2.1, s.stages ++ r.1.map fun c => (c, r.2.1)⟩,
    r.2.2.1, probOf p prob s) := rfl
  rw [hrd]
  dsimp only
  obtain ⟨g, hc⟩ := getClusters_spec h.ordered hd (probOf p prob s)
  rw [← hr] at g hc
  refine ⟨?_, rfl, ?_⟩
  swap
  · rw [List.length_append, List.length_map]
    rcases hc with ⟨h1, h2, h3⟩ | ⟨h1, h2, h3⟩
    · exact Or.inl ⟨h1, by rw [h2], h3⟩
    · exact Or.inr ⟨h1, by rw [h2], h3⟩
  have hk := linkRoot_kinds root r.1 r.2.2.2
  have he := linkRoot_edges root r.1 r.2.2.2
  have hle : r.2.2.2.Le (linkRoot root r.1 r.2.2.2) := ⟨by rw [hk], by rw [he]; exact List.prefix_append _ _⟩
  have hle' := g.le.trans hle
  have hlen := g.length
  have hold := hle'.length
  have hcount : 37 ≤ r.2.2.1 := by rcases hc with ⟨-, -, h3, -⟩ | ⟨-, -, h3, -⟩ <;> omega
  have hroads := g.roads
  constructor
  · intro e hem
    rw [he] at hem
    rw [hk]
    rcases List.mem_append.1 hem with hem | hem
    · exact g.ordered e hem
    · obtain ⟨c, hcm, hem⟩ := List.mem_flatMap.1 hem
      obtain ⟨q, hq, rfl⟩ := List.mem_map.1 hem
      dsimp only
      rw [Option.mem_toList] at hq
      obtain ⟨x, hx, hqx⟩ := rootOf_mem hq
      have := h.inside x hx
      have := g.inside c hcm
      refine ⟨?_, this.2, rfl⟩
      rcases hqx with rfl | rfl <;> omega
  · rw [hk, hlen, h.works]
  · intro x hx
    rw [hk]
    rcases List.mem_append.1 hx with hx | hx
    · have := h.inside x hx
      omega
    · obtain ⟨c, hcm, rfl⟩ := List.mem_map.1 hx
      have := g.inside c hcm
      dsimp only
      rw [hroads]
      dsimp only
      omega
  · rw [List.map_append, List.map_map, List.pairwise_append]
    have hid : r.1.map ((fun x : Nat × Roads => x.1) ∘ fun c => (c, r.2.1)) = r.1 := by
      conv_rhs => rw [← List.map_id r.1]
      rfl
    rw [hid]
    refine ⟨h.increasing, g.increasing, ?_⟩
    intro a ha c hcm
    obtain ⟨x, hx, rfl⟩ := List.mem_map.1 ha
    have h1 := h.inside x hx
    have h2 := g.inside c hcm
    omega
  · intro x hx v hv
    rcases List.mem_append.1 hx with hx | hx
    · obtain ⟨w, hw⟩ := h.roads x hx v hv
      exact ⟨w, hle'.E hw⟩
    · obtain ⟨c, hcm, rfl⟩ := List.mem_map.1 hx
      rw [hroads] at hv
      have hb : s.build.kinds.length ≤ v ∧ v ≤ s.build.kinds.length + 2 := by
        unfold Roads.values at hv
        simp only [List.mem_cons, List.not_mem_nil, or_false] at hv
        omega
      rcases (g.links v hb.1 (by omega)).2 with h1 | ⟨w, hw⟩
      · have := g.inside v h1; omega
      · exact ⟨w, hle.E hw⟩
  · intro v hv
    rw [hk] at hv
    by_cases hvo : v < s.build.kinds.length
    · obtain ⟨h1, h2⟩ := h.links v hvo
      refine ⟨h1.imp (fun ⟨q, hq⟩ => ⟨q, hle'.E hq⟩) fun ⟨x, hx, e⟩ => ⟨x, List.mem_append_left _ hx, e⟩,
        h2.imp (fun ⟨x, hx, e⟩ => ⟨x, List.mem_append_left _ hx, e⟩) fun ⟨q, hq⟩ => ⟨q, hle'.E hq⟩⟩
    · obtain ⟨h1, h2⟩ := g.links v (by omega) hv
      refine ⟨h1.imp (fun ⟨q, hq⟩ => ⟨q, hle.E hq⟩) fun e => ?_, h2.imp (fun hm => ?_) fun ⟨q, hq⟩ => ⟨q, hle.E hq⟩⟩
      · obtain ⟨c, hcm⟩ := List.exists_mem_of_ne_nil _ g.nonempty
        exact ⟨(c, r.2.1), List.mem_append_right _ (List.mem_map.2 ⟨c, hcm, rfl⟩), e⟩
      · exact ⟨(v, r.2.1), List.mem_append_right _ (List.mem_map.2 ⟨v, hm, rfl⟩), rfl⟩
  · rw [hk, g.handings, List.map_append, h.handings, List.map_map]
    congr 1
    conv_rhs => rw [← List.map_id r.1]
    rfl
  · intro x hx
    rw [hk]
    rcases List.mem_append.1 hx with hx | hx
    · obtain ⟨ys, hys⟩ := g.le.1
      rw [← hys, List.getElem?_append_left (h.inside x hx).2.1]
      exact h.road x hx
    · obtain ⟨c, hcm, rfl⟩ := List.mem_map.1 hx
      dsimp only
      rw [hroads]
      exact g.road
  · intro x hx z hz
    rw [hk]
    rw [List.getLast?_append_of_ne_nil _ (by simpa using g.nonempty)] at hx
    obtain ⟨c, hcm, rfl⟩ := List.mem_map.1 (List.mem_of_getLast? hx)
    dsimp only at hz
    rw [hroads] at hz
    exact g.only z hz

/-! ## From the nodes to the work graph -/

/-- The first occurrences. -/
def keepFirst : List Nat → List Nat → List Nat
  | _, [] => []
  | seen, v :: vs => if v ∈ seen then keepFirst seen vs else v :: keepFirst (v :: seen) vs

theorem mem_keepFirst : ∀ (l seen : List Nat) (v : Nat), v ∈ keepFirst seen l ↔ v ∈ l ∧ v ∉ seen
  | [], _, _ => by simp [keepFirst]
  | w :: l, seen, v => by
    unfold keepFirst
    by_cases hw : w ∈ seen
    · rw [if_pos hw, mem_keepFirst l]
      constructor
      · exact fun ⟨h1, h2⟩ => ⟨List.mem_cons_of_mem _ h1, h2⟩
      · rintro ⟨h1, h2⟩
        rcases List.mem_cons.1 h1 with rfl | h1
        · exact absurd hw h2
        · exact ⟨h1, h2⟩
    · rw [if_neg hw, List.mem_cons, mem_keepFirst l]
      constructor
      · rintro (rfl | ⟨h1, h2⟩)
        · exact ⟨List.mem_cons_self, hw⟩
        · exact ⟨List.mem_cons_of_mem _ h1, fun h => h2 (List.mem_cons_of_mem _ h)⟩
      · rintro ⟨h1, h2⟩
        by_cases hvw : v = w
        · exact Or.inl hvw
        · rcases List.mem_cons.1 h1 with rfl | h1
          · exact absurd rfl hvw
          · exact Or.inr ⟨h1, by simp [hvw, h2]⟩

theorem keepFirst_nodup : ∀ (l seen : List Nat), (keepFirst seen l).Nodup
  | [], _ => by simp [keepFirst]
  | w :: l, seen => by
    unfold keepFirst
    by_cases hw : w ∈ seen
    · rw [if_pos hw]; exact keepFirst_nodup l seen
    · rw [if_neg hw, List.nodup_cons]
      refine ⟨?_, keepFirst_nodup l _⟩
      rw [mem_keepFirst]
      simp

theorem keepFirst_filter (P : Nat → Bool) : ∀ (l seen : List Nat), (l.filter P).Nodup →
    (∀ v ∈ l, P v = true → v ∉ seen) → (keepFirst seen l).filter P = l.filter P
  | [], _, _, _ => rfl
  | w :: l, seen, hn, hs => by
    unfold keepFirst
    by_cases hP : P w = true
    · rw [List.filter_cons_of_pos hP] at hn ⊢
      rw [List.nodup_cons] at hn
      rw [if_neg (hs w List.mem_cons_self hP), List.filter_cons_of_pos hP, keepFirst_filter P l _ hn.2]
      intro v hv hPv hmem
      rcases List.mem_cons.1 hmem with rfl | hmem
      · exact hn.1 (List.mem_filter.2 ⟨hv, hPv⟩)
      · exact hs v (List.mem_cons_of_mem _ hv) hPv hmem
    · rw [List.filter_cons_of_neg hP] at hn ⊢
      by_cases hw : w ∈ seen
      · rw [if_pos hw]
        exact keepFirst_filter P l seen hn fun v hv => hs v (List.mem_cons_of_mem _ hv)
      · rw [if_neg hw, List.filter_cons_of_neg hP]
        refine keepFirst_filter P l _ hn ?_
        intro v hv hPv hmem
        rcases List.mem_cons.1 hmem with rfl | hmem
        · exact hP hPv
        · exact hs v (List.mem_cons_of_mem _ hv) hPv hmem

theorem parents_addStart {g : Graph} {start v w : Nat} (h : (g.parents w).isEmpty = false) :
    ((g.addParents v [(start, 0, .finishStart)]).parents w).isEmpty = false := by
  unfold Graph.addParents Graph.addEdge Graph.parents at *
  simp only [List.foldl_cons, List.foldl_nil]
  split
  · rename_i hw; subst hw
    simp [EdgeType.isDependency]
  · exact h

theorem parents_addStart_self {g : Graph} {start v : Nat} :
    ((g.addParents v [(start, 0, .finishStart)]).parents v).isEmpty = false := by
  unfold Graph.addParents Graph.addEdge Graph.parents
  simp [EdgeType.isDependency]

theorem linkStart_keepFirst (start : Nat) : ∀ (l seen : List Nat) (g : Graph), (∀ w ∈ seen, (g.parents w).isEmpty = false) →
    Graph.linkStart start l g = Graph.linkStart start (keepFirst seen l) g
  | [], _, _, _ => rfl
  | v :: l, seen, g, hs => by
    unfold keepFirst
    by_cases hv : v ∈ seen
    · rw [if_pos hv, ← linkStart_keepFirst start l seen g hs]
      conv_lhs => unfold Graph.linkStart
      rw [hs v hv]
      rfl
    · rw [if_neg hv]
      unfold Graph.linkStart
      cases hp : (g.parents v).isEmpty with
      | true =>
        simp only [if_true]
        refine linkStart_keepFirst start l _ _ ?_
        intro w hw
        rcases List.mem_cons.1 hw with rfl | hw
        · exact parents_addStart_self
        · exact parents_addStart (hs w hw)
      | false =>
        simp only [Bool.false_eq_true, if_false]
        refine linkStart_keepFirst start l _ _ ?_
        intro w hw
        rcases List.mem_cons.1 hw with rfl | hw
        · exact hp
        · exact hs w hw

theorem linkStart_skip (start : Nat) : ∀ (l m : List Nat) (g : Graph), (∀ w ∈ m, (g.parents w).isEmpty = false) →
    Graph.linkStart start (l ++ m) g = Graph.linkStart start l g
  | [], [], _, _ => rfl
  | [], v :: m, g, h => by
    rw [List.nil_append]
    have := linkStart_skip start [] m g fun w hw => h w (List.mem_cons_of_mem _ hw)
    rw [List.nil_append] at this
    unfold Graph.linkStart
    rw [h v List.mem_cons_self]
    simpa [Graph.linkStart] using this
  | v :: l, m, g, h => by
    rw [List.cons_append]
    unfold Graph.linkStart
    cases hp : (g.parents v).isEmpty with
    | true =>
      simp only [if_true]
      exact linkStart_skip start l m _ fun w hw => parents_addStart (h w hw)
    | false =>
      simp only [Bool.false_eq_true, if_false]
      exact linkStart_skip start l m g h

theorem linkStart_children {start v : Nat} (hv : v ≠ start) : ∀ (l : List Nat) (g : Graph),
    (Graph.linkStart start l g).children v = g.children v
  | [], _ => rfl
  | w :: l, g => by
    unfold Graph.linkStart
    have key : (g.addParents w [(start, 0, .finishStart)]).children v = g.children v := by
      unfold Graph.addParents Graph.addEdge Graph.children
      simp [hv]
    split
    · rw [linkStart_children hv l, key]
    · rw [linkStart_children hv l]

/-- Building from the nodes with repetitions, without works that have a predecessor and a successor, gives what all nodes once
give. -/
theorem fromNodes_reduce {g : Graph} {start finish : Nat} {L M : List Nat} (hsL : start ∉ L) (hsM : start ∉ M)
    (hM : ∀ w ∈ M, (g.parents w).isEmpty = false ∧ (g.children w).isEmpty = false)
    (hnd : (L.filter fun v => (g.children v).isEmpty).Nodup) :
    g.fromNodes start finish L = g.fromNodes start finish (keepFirst [] L ++ M) := by
  unfold Graph.fromNodes
  have h1 : Graph.linkStart start (keepFirst [] L ++ M) g = Graph.linkStart start L g := by
    rw [linkStart_skip start _ M g fun w hw => (hM w hw).1, ← linkStart_keepFirst start L [] g (by simp)]
  rw [h1]
  have ch : ∀ l : List Nat, start ∉ l → (l.filter fun v => ((Graph.linkStart start L g).children v).isEmpty)
      = l.filter fun v => (g.children v).isEmpty := by
    intro l hl
    apply List.filter_congr
    intro v hv
    rw [linkStart_children (fun h : v = start => hl (h ▸ hv))]
  have hsK : start ∉ keepFirst [] L ++ M := by
    rw [List.mem_append, mem_keepFirst]
    rintro (h | h)
    · exact hsL h.1
    · exact hsM h
  have h2 : (keepFirst [] L ++ M).filter (fun v => ((Graph.linkStart start L g).children v).isEmpty)
      = L.filter fun v => ((Graph.linkStart start L g).children v).isEmpty := by
    rw [ch _ hsK, ch _ hsL, List.filter_append, keepFirst_filter _ _ _ hnd (by simp)]
    have : M.filter (fun v => (g.children v).isEmpty) = [] := by
      rw [List.filter_eq_nil_iff]
      intro w hw
      rw [(hM w hw).2]
      simp
    rw [this, List.append_nil]
  simp only [h2]

theorem usable_of_nodes {b : Build} (ho : b.Ordered) (hne : b.kinds ≠ []) {L : List Nat} (hL : ∀ v ∈ L, v < b.kinds.length)
    (hin : ∀ v < b.kinds.length, (∃ p, b.E p v) ∨ v ∈ L) (hout : ∀ v < b.kinds.length, v ∈ L ∨ ∃ d, b.E v d)
    (hnd : (L.filter fun v => (b.graph.children v).isEmpty).Nodup) :
    ∃ wg, ofNodes b L = some wg ∧ wg.Usable ∧ wg.kinds = b.kinds ∧
      ∀ p v, v < b.kinds.length → p < b.kinds.length → (wg.graph.DependsOn v p ↔ b.E p v) := by
  have hg : b.graph = Graph.ofEdges b.edges := rfl
  have hl : b.graph.Linked := by rw [hg]; exact Graph.linked_ofEdges _
  have into : ∀ v, b.graph.edgesTo v = b.edges.filter fun e => e.finish = v := by
    intro v; rw [hg, Graph.ofEdges_to]
  have frm : ∀ v, b.graph.edgesFrom v = b.edges.filter fun e => e.start = v := by
    intro v; rw [hg, Graph.ofEdges_from]
  have dep : ∀ p v, b.graph.DependsOn v p ↔ b.E p v := by
    intro p v
    unfold Graph.DependsOn Build.E
    rw [into]
    constructor
    · rintro ⟨e, he, h1, -⟩
      rw [List.mem_filter] at he
      exact ⟨e, he.1, h1, by simpa using he.2⟩
    · rintro ⟨e, he, h1, h2⟩
      refine ⟨e, List.mem_filter.2 ⟨he, by simpa using h2⟩, h1, ?_⟩
      have := (ho e he).2.2
      cases ht : e.type <;> rw [ht] at this <;> simp_all [EdgeType.isDependency]
  set n := b.kinds.length with hn
  set W := (List.range n).filter fun v => decide (v ∉ L) with hW
  have hsL : n ∉ L := fun h => by have := hL n h; omega
  have hWm : ∀ v, v ∈ W ↔ v < n ∧ v ∉ L := by
    intro v
    rw [hW, List.mem_filter, List.mem_range]
    simp
  have hsW : n ∉ W := fun h => by have := (hWm n).1 h; omega
  have hred := fromNodes_reduce (g := b.graph) (start := n) (finish := n + 1) (L := L) (M := W) hsL hsW (by
    intro w hw
    rw [hWm] at hw
    constructor
    · rcases hin w hw.1 with ⟨p, hp⟩ | h
      · rw [Bool.eq_false_iff]
        intro hem
        exact (Graph.parents_isEmpty_iff w).1 hem p ((dep p w).2 hp)
      · exact absurd h hw.2
    · rcases hout w hw.1 with h | ⟨c, hc⟩
      · exact absurd h hw.2
      · rw [Bool.eq_false_iff]
        intro hem
        exact (Graph.children_isEmpty_iff hl w).1 hem c ((dep w c).2 hc)) hnd
  set nodes := keepFirst [] L ++ W with hnodes
  have hmem : ∀ v, v ∈ nodes ↔ v < n := by
    intro v
    rw [hnodes, List.mem_append, mem_keepFirst, hWm]
    constructor
    · rintro (⟨h, -⟩ | ⟨h, -⟩)
      · exact hL v h
      · exact h
    · intro h
      by_cases hv : v ∈ L
      · exact Or.inl ⟨hv, by simp⟩
      · exact Or.inr ⟨h, hv⟩
  have hnod : nodes.Nodup := by
    rw [hnodes, List.nodup_append]
    refine ⟨keepFirst_nodup _ _, (List.nodup_range).filter _, ?_⟩
    intro a ha c hc hac
    rw [mem_keepFirst] at ha
    rw [hWm] at hc
    exact hc.2 (hac ▸ ha.1)
  have noTo : ∀ v, n ≤ v → b.graph.edgesTo v = [] := by
    intro v hv
    rw [into, List.filter_eq_nil_iff]
    intro e he
    have := (ho e he).2.1
    simp only [decide_eq_true_eq]
    omega
  have noFrom : ∀ v, n ≤ v → b.graph.edgesFrom v = [] := by
    intro v hv
    rw [frm, List.filter_eq_nil_iff]
    intro e he
    have := ho e he
    simp only [decide_eq_true_eq]
    omega
  have hinput : C32.Input b.graph n (n + 1) nodes := {
    once := hnod
    linked := hl
    start_new := by rw [hmem]; omega
    finish_new := by rw [hmem]; omega
    distinct := by omega
    start_free := ⟨noTo n (le_refl _), noFrom n (le_refl _)⟩
    finish_free := ⟨noTo _ (by omega), noFrom _ (by omega)⟩ }
  have hnpos : 0 < n := List.length_pos_of_ne_nil hne
  have hclosed : b.graph.ClosedIn nodes := by
    intro v _
    constructor
    · intro e he
      rw [into, List.mem_filter] at he
      have := ho e he.1
      rw [hmem]; omega
    · intro e he
      rw [frm, List.mem_filter] at he
      have := ho e he.1
      rw [hmem]; omega
  have hac : ∀ v ∈ nodes, ¬ Relation.TransGen b.graph.Before v v := by
    intro v hv
    rw [hg]
    exact Graph.acyclic_before_ofEdges id (fun e he => (ho e he).1) v hv
  obtain ⟨g', hg1, hg2, hg3⟩ := C32.project hinput (List.ne_nil_of_mem ((hmem 0).2 hnpos)) hclosed hac
  obtain ⟨hsrc, hsink⟩ := C32.source_and_sink hinput hg1
  obtain ⟨new, -, hnew, hto, -, -⟩ := C32.exact_edges hinput hg1
  refine ⟨⟨b.kinds, n, n + 1, g'⟩, ?_, ?_, rfl, ?_⟩
  · unfold ofNodes
    rw [← hn, hred, hg1]
    rfl
  · have hm2 : ∀ v, v ∈ n :: (n + 1) :: nodes ↔ v ∈ n :: (n + 1) :: List.range n := by
      intro v
      simp only [List.mem_cons, hmem, List.mem_range]
    refine ⟨⟨rfl, rfl⟩, ?_, hsrc, hsink, fun v hv => hg3 v ((hm2 v).2 hv)⟩
    refine ⟨?_, hg2.linked, (hm2 _).1 hg2.start_mem, ?_, fun v hv => hg2.reach v ((hm2 v).2 hv),
      fun v hv => hg2.acyclic v ((hm2 v).2 hv)⟩
    · show (n :: (n + 1) :: List.range n).Nodup
      simp only [List.nodup_cons, List.mem_cons, List.mem_range, List.nodup_range, and_true]
      omega
    · intro v hv
      obtain ⟨h1, h2⟩ := hg2.closed v ((hm2 v).2 hv)
      exact ⟨fun e he => (hm2 _).1 (h1 e he), fun e he => (hm2 _).1 (h2 e he)⟩
  · intro p v hv hp
    rw [← dep]
    unfold Graph.DependsOn
    dsimp only
    rw [hto]
    constructor
    · rintro ⟨e, he, h1, h2⟩
      rcases List.mem_append.1 he with he | he
      · exact ⟨e, he, h1, h2⟩
      · rw [List.mem_filter] at he
        rcases (hnew e).1 he.1 with ⟨w, -, -, rfl⟩ | ⟨w, -, -, rfl⟩
        · dsimp only at h1; omega
        · have := he.2
          simp only [decide_eq_true_eq] at this
          omega
    · rintro ⟨e, he, h1, h2⟩
      exact ⟨e, List.mem_append_left _ he, h1, h2⟩

/-! ## The loop -/

theorem loop_inv {p : Params} {draws : Nat → Draw} (hd : ∀ i, Possible (draws i)) :
    ∀ (fuel i : Nat) (prob : ℚ) (s s' : LoopState), Inv s → loop p draws fuel i prob s = some s' → Inv s'
  | 0, _, _, _, _, _, h => by simp [loop] at h
  | fuel + 1, i, prob, s, s', hs, h => by
    unfold loop at h
    dsimp only at h
    have hi := (inv_round (p := p) (prob := prob) (hd i) hs).1
    split at h
    · rw [← Option.some.inj h]; exact hi
    · exact loop_inv hd fuel _ _ _ _ hi h

/-- The last round. -/
theorem loop_last {p : Params} {draws : Nat → Draw} (hd : ∀ i, Possible (draws i)) :
    ∀ (fuel i : Nat) (prob : ℚ) (s s' : LoopState), Inv s → loop p draws fuel i prob s = some s' →
      ∃ (j : Nat) (prob' : ℚ) (t : LoopState), Inv t ∧ s' = (round p prob' (draws j) t).1 ∧
        leaves p s' (round p prob' (draws j) t).2.1 = true ∧
        ((t = s ∧ j = i) ∨ ∃ (k : Nat) (prob'' : ℚ) (u : LoopState), Inv u ∧ t = (round p prob'' (draws k) u).1 ∧
          leaves p t (round p prob'' (draws k) u).2.1 = false)
  | 0, _, _, _, _, _, h => by simp [loop] at h
  | fuel + 1, i, prob, s, s', hs, h => by
    unfold loop at h
    dsimp only at h
    have hi := (inv_round (p := p) (prob := prob) (hd i) hs).1
    split at h
    · rename_i hlv
      have h := Option.some.inj h
      subst h
      exact ⟨i, prob, s, hs, rfl, hlv, Or.inl ⟨rfl, rfl⟩⟩
    · rename_i hlv
      obtain ⟨j, prob', t, h1, h2, h3, h4⟩ := loop_last hd fuel _ _ _ _ hi h
      refine ⟨j, prob', t, h1, h2, h3, Or.inr ?_⟩
      rcases h4 with ⟨rfl, rfl⟩ | h4
      · exact ⟨i, prob, s, hs, rfl, by simpa using hlv⟩
      · exact h4

/-- The loop ends: every round adds a cluster and works. -/
theorem loop_ends {p : Params} {draws : Nat → Draw} (hd : ∀ i, Possible (draws i)) (hp : 0 < p.bottom ∨ 0 < p.top ∨ 0 < p.clusters) :
    ∀ (fuel i : Nat) (prob : ℚ) (s : LoopState), Inv s →
      (p.bottom.toNat + p.top.toNat + p.clusters.toNat < fuel + s.works) →
      (p.bottom.toNat + p.top.toNat + p.clusters.toNat + 1 < fuel + s.stages.length) → 0 < fuel →
      ∃ s', loop p draws fuel i prob s = some s'
  | 0, _, _, _, _, _, _, h => by omega
  | fuel + 1, i, prob, s, hs, hw, hst, _ => by
    unfold loop
    dsimp only
    obtain ⟨hi, hwk, hc⟩ := inv_round (p := p) (prob := prob) (hd i) hs
    split
    · exact ⟨_, rfl⟩
    · rename_i hlv
      have hlv : leaves p (round p prob (draws i) s).1 (round p prob (draws i) s).2.1 = false := by simpa using hlv
      have hcnt : 37 ≤ (round p prob (draws i) s).2.1 := by rcases hc with ⟨-, -, h, -⟩ | ⟨-, -, h, -⟩ <;> omega
      have hstg : s.stages.length + 1 ≤ (round p prob (draws i) s).1.stages.length := by
        rcases hc with ⟨-, h, -, -⟩ | ⟨-, h, -, -⟩ <;> omega
      have hpos : 0 < fuel := by
        rcases Nat.eq_zero_or_pos fuel with rfl | h
        · exfalso
          unfold leaves at hlv
          simp only [Bool.or_eq_false_iff, Bool.and_eq_false_iff, decide_eq_false_iff_not] at hlv
          obtain ⟨⟨a1, a2⟩, a3⟩ := hlv
          by_cases hb : 0 < p.bottom
          · omega
          · rw [if_neg hb] at a2
            omega
        · exact h
      refine loop_ends hd hp fuel _ _ _ hi ?_ ?_ hpos
      · omega
      · omega

/-! ## Modes -/

/-- How the last works of the clusters hang together; `calm`: there is no branching. -/
def ModeInv (mode : Mode) (calm : Prop) (s : LoopState) : Prop :=
  ∀ i, 2 ≤ i → ∀ x, s.stages[i]? = some x →
    match mode with
    | .parallel => ∃ y, s.stages[0]? = some y ∧ s.build.E y.1 x.1
    | .sequential => ∃ y, (s.stages[i - 1]? = some y ∨ s.stages[i - 2]? = some y) ∧ s.build.E y.1 x.1
    | .general => ∃ y ∈ s.stages, y.2.min < x.2.min ∧ x.2.min < x.1 ∧ x ∈ s.stages ∧ s.build.E y.2.min x.1 ∧
        (∀ z, x.2.min < z → z < x.1 → s.build.kinds[z]? ≠ some .minRoad) ∧
        (calm → ∀ z, y.2.min < z → z < x.2.min → s.build.kinds[z]? ≠ some .minRoad)

theorem modeInv_round {p : Params} {prob : ℚ} {d : Draw} {s : LoopState} (hd : Possible d) (h : Inv s) {calm : Prop}
    (hcalm : calm → p.branching < d.branch) (hm : ModeInv p.mode calm s) : ModeInv p.mode calm (round p prob d s).1 := by
  set r := getClusters s.build d (probOf p prob s) with hr
  set root := rootOf p.mode s.stages p.branching d with hroot
  have hrd : (round p prob d s).1 = ⟨linkRoot root r.1 r.2.2.2, s.works + r.2.2.1, s.stages ++ r.1.map fun c => (c, r.2.1)⟩ := rfl
  rw [hrd]
  obtain ⟨g, hc⟩ := getClusters_spec h.ordered hd (probOf p prob s)
  rw [← hr] at g hc
  have hlen2 : r.1.length ≤ 2 := by rcases hc with ⟨-, h2, -⟩ | ⟨-, h2, -⟩ <;> omega
  have hk := linkRoot_kinds root r.1 r.2.2.2
  have he := linkRoot_edges root r.1 r.2.2.2
  have hle : s.build.Le (linkRoot root r.1 r.2.2.2) :=
    g.le.trans ⟨by rw [hk], by rw [he]; exact List.prefix_append _ _⟩
  intro i hi x hx
  dsimp only at hx ⊢
  by_cases hold : i < s.stages.length
  · rw [List.getElem?_append_left hold] at hx
    have := hm i hi x hx
    cases hmode : p.mode with
    | parallel =>
      rw [hmode] at this
      obtain ⟨y, h1, h2⟩ := this
      exact ⟨y, by rw [List.getElem?_append_left (by omega)]; exact h1, hle.E h2⟩
    | sequential =>
      rw [hmode] at this
      obtain ⟨y, h1, h2⟩ := this
      exact ⟨y, by rw [List.getElem?_append_left (by omega), List.getElem?_append_left (by omega)]; exact h1, hle.E h2⟩
    | general =>
      rw [hmode] at this
      obtain ⟨y, h1, h2, h3, h4, h5, h7, h6⟩ := this
      obtain ⟨ys, hys⟩ := hle.1
      refine ⟨y, List.mem_append_left _ h1, h2, h3, List.mem_append_left _ h4, hle.E h5, fun z hz1 hz2 => ?_,
        fun hcm z hz1 hz2 => ?_⟩
      · rw [← hys, List.getElem?_append_left (by have := (h.inside x h4).1; omega)]
        exact h7 z hz1 hz2
      rw [← hys, List.getElem?_append_left (by have := (h.inside x h4).2.1; omega)]
      exact h6 hcm z hz1 hz2
  · rw [List.getElem?_append_right (by omega), List.getElem?_map] at hx
    obtain ⟨c, hc1, rfl⟩ := Option.map_eq_some_iff.1 hx
    have hilt : i - s.stages.length < r.1.length := (List.getElem?_eq_some_iff.1 hc1).1
    have hcm : c ∈ r.1 := List.mem_of_getElem? hc1
    have hs0 : 0 < s.stages.length := by omega
    have edge : ∀ q, root = some q → (linkRoot root r.1 r.2.2.2).E q c := by
      intro q hq
      refine ⟨⟨q, c, 0, .finishStart⟩, ?_, rfl, rfl⟩
      rw [he]
      apply List.mem_append_right
      rw [List.mem_flatMap]
      exact ⟨c, hcm, by rw [hq]; simp⟩
    cases hmode : p.mode with
    | parallel =>
      rw [hmode] at hroot
      obtain ⟨y, hy⟩ : ∃ y, s.stages[0]? = some y := ⟨_, List.getElem?_eq_getElem hs0⟩
      refine ⟨y, by rw [List.getElem?_append_left hs0]; exact hy, edge _ ?_⟩
      rw [hroot]
      unfold rootOf
      dsimp only
      rw [List.head?_eq_getElem?, hy]
      rfl
    | sequential =>
      rw [hmode] at hroot
      obtain ⟨y, hy⟩ : ∃ y, s.stages[s.stages.length - 1]? = some y := ⟨_, List.getElem?_eq_getElem (by omega)⟩
      refine ⟨y, ?_, edge _ ?_⟩
      · have : i - 1 = s.stages.length - 1 ∨ i - 2 = s.stages.length - 1 := by omega
        rcases this with h1 | h1
        · left; rw [h1, List.getElem?_append_left (by omega)]; exact hy
        · right; rw [h1, List.getElem?_append_left (by omega)]; exact hy
      · rw [hroot]
        unfold rootOf
        dsimp only
        rw [List.getLast?_eq_getElem?, hy]
        rfl
    | general =>
      rw [hmode] at hroot
      have hind : (if d.branch ≤ p.branching ∧ 2 < s.stages.length then d.pick 1 (s.stages.length - 2) else s.stages.length - 1)
          < s.stages.length := by
        split
        · rename_i hb
          have := hd.pick 1 (s.stages.length - 2) (by omega)
          omega
        · omega
      obtain ⟨y, hy⟩ : ∃ y, s.stages[(if d.branch ≤ p.branching ∧ 2 < s.stages.length then d.pick 1 (s.stages.length - 2)
          else s.stages.length - 1)]? = some y := ⟨_, List.getElem?_eq_getElem hind⟩
      have hyin := (h.inside y (List.mem_of_getElem? hy)).2.1
      have hcin := (g.inside c hcm).1
      have hrm : r.2.1.min = s.build.kinds.length := by rw [g.roads]
      refine ⟨y, List.mem_append_left _ (List.mem_of_getElem? hy), by dsimp only; omega, by dsimp only; omega,
        List.mem_append_right _ (List.mem_map.2 ⟨c, hcm, rfl⟩), edge _ ?_,
        fun z hz1 _ => ?_, fun hcal z hz1 hz2 => ?_⟩
      · rw [hroot]
        unfold rootOf
        dsimp only
        rw [hy]
        rfl
      · rw [hk]
        exact g.only z (by dsimp only at hz1; omega)
      · have hno : ¬ (d.branch ≤ p.branching ∧ 2 < s.stages.length) := fun hx => absurd hx.1 (not_le.2 (hcalm hcal))
        rw [if_neg hno] at hy
        dsimp only at hz2
        obtain ⟨ys, hys⟩ := hle.1
        rw [← hys, List.getElem?_append_left (by omega)]
        exact h.last y (by rw [List.getLast?_eq_getElem?]; exact hy) z hz1

theorem loop_mode {p : Params} {draws : Nat → Draw} (hd : ∀ i, Possible (draws i)) :
    ∀ (fuel i : Nat) (prob : ℚ) (s s' : LoopState), Inv s → ModeInv p.mode (∀ j, p.branching < (draws j).branch) s →
      loop p draws fuel i prob s = some s' → ModeInv p.mode (∀ j, p.branching < (draws j).branch) s'
  | 0, _, _, _, _, _, _, h => by simp [loop] at h
  | fuel + 1, i, prob, s, s', hs, hm, h => by
    unfold loop at h
    dsimp only at h
    have hi := (inv_round (p := p) (prob := prob) (hd i) hs).1
    have hi' := modeInv_round (p := p) (prob := prob) (hd i) hs (fun hx => hx i) hm
    split at h
    · rw [← Option.some.inj h]; exact hi'
    · exact loop_mode hd fuel _ _ _ _ hi hi' h

/-! ## The result -/

theorem handings_length (ks : List Kind) : (handings ks).length = ks.count .handing := by
  induction ks using List.reverseRecOn with
  | nil => rfl
  | append_singleton ks k ih =>
    unfold handings at ih ⊢
    rw [List.length_append, List.length_singleton, List.range_succ, List.filter_append, List.length_append, List.count_append]
    have h1 : (List.range ks.length).filter (fun v => decide ((ks ++ [k])[v]? = some Kind.handing))
        = (List.range ks.length).filter fun v => decide (ks[v]? = some .handing) := by
      apply List.filter_congr
      intro v hv
      rw [List.mem_range] at hv
      rw [List.getElem?_append_left hv]
    rw [h1, ih]
    congr 1
    by_cases hk : k = .handing
    · subst hk
      rw [List.filter_cons_of_pos (by simp)]
      simp
    · rw [List.filter_cons_of_neg (by simp [hk]), List.filter_nil, List.count_singleton]
      simp [hk]

/-- The small graph. -/
theorem smallGraph_spec {d : Draw} (h : Possible d) : ∃ wg, smallGraph d = some wg ∧ wg.Usable ∧ 28 ≤ wg.works ∧ wg.works ≤ 48 ∧
    wg.clusters = 1 ∧ wg.works = 16 + 2 * (smallCounts d).pipeNodes + (smallCounts d).pipeNet + (smallCounts d).masts + 3
      + (smallCounts d).boreholes.sum := by
  obtain ⟨n, hn, hs⟩ := smallCounts_spec h
  have g := grown_master (b := .nil) (c := smallCounts d) (by intro e he; simp [Build.nil] at he) (by rw [hn]; simp)
    (by rw [hn]; intro m hm; rw [List.mem_singleton] at hm; omega)
  unfold smallGraph
  dsimp only
  set r := getCluster .nil (smallCounts d) none with hr
  have hl0 : Build.nil.kinds.length = 0 := rfl
  have hlen := g.length
  have hroads := g.roads
  have hin := g.inside r.1 (List.mem_singleton_self _)
  have hcnt : r.2.2.1 = 3 + (onRoadsKinds (smallCounts d) true).length := by rw [hr, getCluster_none]
  have hk := onRoadsKinds_length (smallCounts d) true
  rw [if_pos rfl, hn] at hk
  simp only [List.length_singleton, List.sum_singleton] at hk
  have hv : r.2.1.values = [0, 1, 2] := by rw [hroads]; rfl
  obtain ⟨wg, h1, h2, h3, -⟩ := usable_of_nodes (b := r.2.2.2) (L := r.2.1.values ++ [r.1]) g.ordered (by
      intro h0; rw [h0] at hlen; simp at hlen; omega) (by
      intro v hv'
      rw [hv] at hv'
      simp only [List.cons_append, List.nil_append, List.mem_cons, List.not_mem_nil, or_false] at hv'
      omega) (by
      intro v hv'
      rcases (g.links v (by omega) hv').1 with h1 | h1
      · exact Or.inl h1
      · right; rw [h1]; exact List.mem_append_left _ (by unfold Roads.values; simp)) (by
      intro v hv'
      rcases (g.links v (by omega) hv').2 with h1 | h1
      · exact Or.inl (List.mem_append_right _ h1)
      · exact Or.inr h1) (by
      apply List.Nodup.filter
      rw [hv]
      simp only [List.cons_append, List.nil_append, List.nodup_cons, List.mem_cons, List.not_mem_nil, or_false, not_false_eq_true,
        List.nodup_nil, and_true]
      omega)
  have hw : wg.works = 16 + 2 * (smallCounts d).pipeNodes + (smallCounts d).pipeNet + (smallCounts d).masts + 3 + n := by
    unfold WorkGraph.works
    rw [h3, hlen, hcnt, hk, hl0]
    omega
  refine ⟨wg, h1, h2, by omega, by omega, ?_, by rw [hw, hn]; simp⟩
  unfold WorkGraph.clusters WorkGraph.countOf
  rw [← handings_length, h3, g.handings]
  rfl

/-- The graph of several clusters. -/
theorem ofStages_spec {s : LoopState} (h : Inv s) (hne : s.stages ≠ []) :
    ∃ wg, ofNodes s.build ((s.stages.map fun x => x.2.values).flatten ++ s.stages.map (·.1)) = some wg ∧ wg.Usable ∧
      wg.kinds = s.build.kinds ∧
      ∀ p v, v < s.build.kinds.length → p < s.build.kinds.length → (wg.graph.DependsOn v p ↔ s.build.E p v) := by
  have hl : s.build.graph.Linked := Graph.linked_ofEdges _
  refine usable_of_nodes h.ordered ?_ ?_ ?_ ?_ ?_
  · obtain ⟨x, hx⟩ := List.exists_mem_of_ne_nil _ hne
    have := h.inside x hx
    intro h0
    rw [h0] at this
    simp at this
  · intro v hv
    rcases List.mem_append.1 hv with hv | hv
    · obtain ⟨l, hl, hv⟩ := List.mem_flatten.1 hv
      obtain ⟨x, hx, rfl⟩ := List.mem_map.1 hl
      have := h.inside x hx
      unfold Roads.values at hv
      simp only [List.mem_cons, List.not_mem_nil, or_false] at hv
      omega
    · obtain ⟨x, hx, rfl⟩ := List.mem_map.1 hv
      exact (h.inside x hx).1
  · intro v hv
    rcases (h.links v hv).1 with h1 | ⟨x, hx, rfl⟩
    · exact Or.inl h1
    · refine Or.inr (List.mem_append_left _ (List.mem_flatten.2 ⟨_, List.mem_map.2 ⟨x, hx, rfl⟩, ?_⟩))
      unfold Roads.values; simp
  · intro v hv
    rcases (h.links v hv).2 with ⟨x, hx, rfl⟩ | h1
    · exact Or.inl (List.mem_append_right _ (List.mem_map.2 ⟨x, hx, rfl⟩))
    · exact Or.inr h1
  · rw [List.filter_append]
    have h0 : ((s.stages.map fun x => x.2.values).flatten).filter (fun v => (s.build.graph.children v).isEmpty) = [] := by
      rw [List.filter_eq_nil_iff]
      intro v hv
      obtain ⟨l, hl', hv⟩ := List.mem_flatten.1 hv
      obtain ⟨x, hx, rfl⟩ := List.mem_map.1 hl'
      obtain ⟨d, e, he, h1, h2⟩ := h.roads x hx v hv
      intro hem
      refine (Graph.children_isEmpty_iff hl v).1 hem d ⟨e, ?_, h1, ?_⟩
      · show e ∈ (Graph.ofEdges s.build.edges).edgesTo d
        rw [Graph.ofEdges_to, List.mem_filter]
        exact ⟨he, by simpa using h2⟩
      · have := (h.ordered e he).2.2
        cases ht : e.type <;> rw [ht] at this <;> simp_all [EdgeType.isDependency]
    rw [h0, List.nil_append]
    exact (h.increasing.imp fun h => Nat.ne_of_lt h).filter _

end Sampo.Synthetic
