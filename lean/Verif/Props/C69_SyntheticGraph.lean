import Verif.Lemmas.SyntheticLoop

/-!
# C69: synthetic work graphs

`draws i` are the random numbers of the `i`-th round of the generator, `small` those of the small graph that is returned
instead of a graph of a single cluster.
-/

namespace Sampo.C69

open Synthetic

/-- A cluster has exactly the works asked for: so many nodes of the pipeline between one more pipes, pieces of the pipe network,
masts and boreholes, three works of equipment for each group of boreholes, one work that hands it over; roads only if it has no
roads yet.  The number of works returned is right. -/
theorem cluster_works (b : Build) (c : Counts) (roads : Option Roads) :
    ∃ new, (getCluster b c roads).2.2.2.kinds = b.kinds ++ new ∧ (getCluster b c roads).2.2.1 = new.length ∧
      new.count .pipeNode = c.pipeNodes ∧ new.count .pipe = c.pipeNodes + 1 ∧ new.count .pipeNet = c.pipeNet ∧
      new.count .mast = c.masts ∧ new.count .borehole = c.boreholes.sum ∧ new.count .metering = c.boreholes.length ∧
      new.count .handing = 1 ∧ new.count .minRoad = (if roads.isSome then 0 else 1) := by
  have hg : ∀ (k : Kind) (ns : List Nat), (groupsKinds ns).count k =
      ns.length * groupKinds.count k + if k = .borehole then ns.sum else 0 := by
    intro k ns
    induction ns with
    | nil => simp [groupsKinds]
    | cons n ns ih =>
      simp only [groupsKinds, List.count_append, ih, List.count_replicate, List.length_cons, List.sum_cons, Nat.add_mul]
      by_cases hk : k = .borehole
      · subst hk; simp; omega
      · have : (Kind.borehole == k) = false := by rw [beq_eq_false_iff_ne]; exact fun h => hk h.symm
        rw [this]; simp [hk]; omega
  have hp : ∀ (k : Kind) (n : Nat), (pipeKinds n).count k =
      (if k = .pipe then 1 else 0) + n * ([Kind.pipeNode, Kind.pipe].count k) := by
    intro k n
    unfold pipeKinds
    rw [List.count_cons, List.count_flatten, List.map_replicate, List.sum_replicate_nat]
    by_cases hk : k = .pipe
    · subst hk; simp; omega
    · have : (Kind.pipe == k) = false := by rw [beq_eq_false_iff_ne]; exact fun h => hk h.symm
      rw [this]; simp [hk]
  have on : ∀ master, (onRoadsKinds c master).count .pipeNode = c.pipeNodes ∧
      (onRoadsKinds c master).count .pipe = c.pipeNodes + 1 ∧ (onRoadsKinds c master).count .pipeNet = c.pipeNet ∧
      (onRoadsKinds c master).count .mast = c.masts ∧ (onRoadsKinds c master).count .borehole = c.boreholes.sum ∧
      (onRoadsKinds c master).count .metering = c.boreholes.length ∧ (onRoadsKinds c master).count .handing = 1 ∧
      (onRoadsKinds c master).count .minRoad = 0 := by
    intro master
    unfold onRoadsKinds generalKinds
    simp only [List.count_append, hg, hp, List.count_replicate]
    cases master <;> simp [powerKinds, sharedKinds, groupKinds] <;> omega
  cases roads with
  | some r =>
    rw [getCluster_some]
    exact ⟨_, onRoads_kinds .., rfl, by simpa using on false⟩
  | none =>
    rw [getCluster_none]
    have hr : (getRoads b).2.kinds = b.kinds ++ [.minRoad, .tempRoad, .finalRoad] := by
      show ((b.kinds ++ [Kind.minRoad]) ++ [.tempRoad]) ++ [.finalRoad] = _
      simp
    refine ⟨[.minRoad, .tempRoad, .finalRoad] ++ onRoadsKinds c true, ?_, ?_, ?_⟩
    · dsimp only
      rw [onRoads_kinds, hr, List.append_assoc]
    · rw [List.length_append]; rfl
    · have := on true
      simp only [List.count_append]
      simpa using this

/-- The small graph has 30 to 50 vertices, as documented, and is a usable project. -/
theorem small_graph {d : Draw} (h : Possible d) :
    ∃ wg, smallGraph d = some wg ∧ wg.Usable ∧ 30 ≤ wg.vertices ∧ wg.vertices ≤ 50 ∧ wg.clusters = 1 := by
  obtain ⟨wg, h1, h2, h3, h4, h5, -⟩ := smallGraph_spec h
  refine ⟨wg, h1, h2, ?_, ?_, h5⟩ <;> unfold WorkGraph.vertices <;> unfold WorkGraph.works at h3 h4 <;> omega

/-- The arguments that `get_graph` accepts. -/
def Accepted (p : Params) : Prop := 0 < p.clusters + p.bottom + p.top ∧ 0 ≤ p.clusters ∧ 0 ≤ p.branching ∧ 0 ≤ p.top

/-- The generator runs for ever for no numbers and raises exactly for the arguments that are not accepted; otherwise the graph is
a usable project. -/
theorem generated (p : Params) {draws : Nat → Draw} {small : Draw} (hd : ∀ i, Possible (draws i)) (hs : Possible small)
    {fuel : Nat} (hf : p.bottom.toNat + p.top.toNat + p.clusters.toNat + 2 ≤ fuel) :
    (¬ Accepted p ∧ getGraph p fuel draws small = some none) ∨
      Accepted p ∧ ∃ wg, getGraph p fuel draws small = some (some wg) ∧ wg.Usable := by
  unfold getGraph
  by_cases ha : Accepted p
  · right
    refine ⟨ha, ?_⟩
    obtain ⟨a1, a2, a3, a4⟩ := ha
    have hn : ¬ (p.clusters + p.bottom + p.top ≤ 0 ∨ p.clusters < 0 ∨ p.branching < 0 ∨ p.top < 0) := by
      rintro (h | h | h | h)
      · omega
      · omega
      · exact absurd a3 (not_le.2 h)
      · omega
    rw [if_neg hn]
    obtain ⟨s, hl⟩ := loop_ends hd (p := p) (by omega) fuel 0 p.addition ⟨.nil, 0, []⟩ inv_nil
      (by dsimp only; omega) (by simp only [List.length_nil]; omega) (by omega)
    have hi := loop_inv hd _ _ _ _ _ inv_nil hl
    rw [hl]
    simp only [Option.map_some]
    by_cases h1 : s.stages.length = 1
    · rw [if_pos h1]
      obtain ⟨wg, h2, h3, -⟩ := small_graph hs
      exact ⟨wg, by rw [h2], h3⟩
    · rw [if_neg h1]
      obtain ⟨j, prob', t, ht, rfl, -⟩ := loop_last hd _ _ _ _ _ inv_nil hl
      obtain ⟨wg, h2, h3, -⟩ := ofStages_spec hi (by
        intro h0
        have := (inv_round (p := p) (prob := prob') (hd j) ht).2.2
        rw [h0] at this
        simp at this)
      exact ⟨wg, by rw [h2], h3⟩
  · left
    refine ⟨ha, ?_⟩
    rw [if_pos]
    by_contra hno
    push Not at hno
    exact ha ⟨by omega, hno.2.1, hno.2.2.1, hno.2.2.2⟩

/-- What is known of a graph returned: it is the small graph after a single cluster, or consists of the clusters of the loop. -/
private theorem result {p : Params} {draws : Nat → Draw} {small : Draw} (hd : ∀ i, Possible (draws i)) (hs : Possible small)
    {fuel : Nat} {wg : WorkGraph} (h : getGraph p fuel draws small = some (some wg)) :
    ∃ s, loop p draws fuel 0 p.addition ⟨.nil, 0, []⟩ = some s ∧ Inv s ∧ ModeInv p.mode (∀ j, p.branching < (draws j).branch) s ∧ Accepted p ∧
      ((s.stages.length = 1 ∧ smallGraph small = some wg ∧ wg.clusters = 1 ∧ 28 ≤ wg.works ∧ wg.works ≤ 48) ∨
        (2 ≤ s.stages.length ∧ wg.works = s.works ∧ wg.clusters = s.stages.length ∧ wg.kinds = s.build.kinds ∧
          ∀ p v, v < s.build.kinds.length → p < s.build.kinds.length → (wg.graph.DependsOn v p ↔ s.build.E p v))) := by
  unfold getGraph at h
  split at h
  · simp at h
  · rename_i hn
    push Not at hn
    obtain ⟨s, hl, he⟩ := Option.map_eq_some_iff.1 h
    have hi := loop_inv hd _ _ _ _ _ inv_nil hl
    refine ⟨s, hl, hi, loop_mode hd _ _ _ _ _ inv_nil (by intro i _ x hx; simp at hx) hl,
      ⟨by omega, hn.2.1, hn.2.2.1, hn.2.2.2⟩, ?_⟩
    by_cases h1 : s.stages.length = 1
    · rw [if_pos h1] at he
      obtain ⟨wg', h2, -, h3, h4, h5, -⟩ := smallGraph_spec hs
      rw [h2, Option.some.injEq] at he
      subst he
      exact Or.inl ⟨h1, h2, h5, h3, h4⟩
    · rw [if_neg h1] at he
      obtain ⟨j, prob', t, ht, rfl, -⟩ := loop_last hd _ _ _ _ _ inv_nil hl
      have hst := (inv_round (p := p) (prob := prob') (hd j) ht).2.2
      obtain ⟨wg', h2, -, h3, h4⟩ := ofStages_spec hi (by intro h0; rw [h0] at hst; simp at hst)
      rw [h2, Option.some.injEq] at he
      subst he
      refine Or.inr ⟨by omega, ?_, ?_, h3, h4⟩
      · rw [hi.works]; unfold WorkGraph.works; rw [h3]
      · unfold WorkGraph.clusters WorkGraph.countOf
        rw [← handings_length, h3, ← hi.handings, List.length_map]

/-- Partial: with a bottom border the graph has at least as many works, unless it consists of a single cluster; a border above 84
is always kept. -/
theorem bottom_border_partial {p : Params} (hb : 0 < p.bottom) (hc : p.clusters = 0) {draws : Nat → Draw} {small : Draw}
    (hd : ∀ i, Possible (draws i)) (hs : Possible small) {fuel : Nat} {wg : WorkGraph}
    (h : getGraph p fuel draws small = some (some wg)) (hmany : 2 ≤ wg.clusters ∨ 84 < p.bottom) : p.bottom ≤ wg.works := by
  obtain ⟨s, hl, hi, -, -, hr⟩ := result hd hs h
  obtain ⟨j, prob', t, ht, rfl, hlv, hprev⟩ := loop_last hd _ _ _ _ _ inv_nil hl
  obtain ⟨-, hwk, hrd⟩ := inv_round (p := p) (prob := prob') (hd j) ht
  have hw : p.bottom ≤ ((round p prob' (draws j) t).1.works : Int) := by
    unfold leaves at hlv
    rw [if_pos hb, hc] at hlv
    simpa [hb] using hlv
  rcases hr with ⟨h1, -, h3, -⟩ | ⟨-, h2, -⟩
  · exfalso
    have hbig : 84 < p.bottom := by omega
    have h0 : t.stages.length = 0 := by omega
    have hcnt : (round p prob' (draws j) t).2.1 ≤ 84 := by
      rcases hrd with ⟨-, h4, -⟩ | ⟨-, -, -, h4⟩ <;> omega
    have : t.works = 0 := by
      rcases hprev with ⟨rfl, -⟩ | ⟨k, prob'', u, hu, rfl, -⟩
      · rfl
      · have := (inv_round (p := p) (prob := prob'') (hd k) hu).2.2
        omega
    omega
  · rw [h2]; exact hw

/-- Partial: the graph stays within 127 works of a top border (or has at most 164 works), and comes within 164 works of it. -/
theorem top_border_partial {p : Params} (ht : 0 < p.top) (hb : p.bottom = 0) {draws : Nat → Draw} {small : Draw}
    (hd : ∀ i, Possible (draws i)) (hs : Possible small) {fuel : Nat} {wg : WorkGraph}
    (h : getGraph p fuel draws small = some (some wg)) :
    (wg.works : Int) ≤ max 164 (p.top + 127) ∧ (p.clusters = 0 → p.top < wg.works + 164) := by
  obtain ⟨s, hl, hi, -, -, hr⟩ := result hd hs h
  obtain ⟨j, prob', t, htI, rfl, hlv, hprev⟩ := loop_last hd _ _ _ _ _ inv_nil hl
  obtain ⟨-, hwk, hrd⟩ := inv_round (p := p) (prob := prob') (hd j) htI
  have hcnt : (round p prob' (draws j) t).2.1 ≤ 164 := by rcases hrd with ⟨-, -, -, h4⟩ | ⟨-, -, -, h4⟩ <;> omega
  have hstop : p.clusters = 0 → p.top < ((round p prob' (draws j) t).2.1 : Int) + (round p prob' (draws j) t).1.works := by
    intro hc
    unfold leaves at hlv
    rw [hb, hc] at hlv
    simpa [ht] using hlv
  rcases hr with ⟨h1, -, h3, h4, h5⟩ | ⟨-, h2, -⟩
  · refine ⟨by omega, fun hc => ?_⟩
    have h0 : t.stages.length = 0 := by omega
    have hcnt : (round p prob' (draws j) t).2.1 ≤ 84 := by
      rcases hrd with ⟨-, h4, -⟩ | ⟨-, -, -, h4⟩ <;> omega
    have : t.works = 0 := by
      rcases hprev with ⟨rfl, -⟩ | ⟨k, prob'', u, hu, rfl, -⟩
      · rfl
      · have := (inv_round (p := p) (prob := prob'') (hd k) hu).2.2
        omega
    have := hstop hc
    omega
  · rw [h2]
    refine ⟨?_, fun hc => by have := hstop hc; omega⟩
    rcases hprev with ⟨rfl, -⟩ | ⟨k, prob'', u, hu, rfl, hlv'⟩
    · dsimp only at hwk
      omega
    · have hc' := (inv_round (p := p) (prob := prob'') (hd k) hu).2.2
      have hge : 37 ≤ (round p prob'' (draws k) u).2.1 := by rcases hc' with ⟨-, -, h6, -⟩ | ⟨-, -, h6, -⟩ <;> omega
      have : ((round p prob'' (draws k) u).2.1 : Int) + (round p prob'' (draws k) u).1.works ≤ p.top := by
        unfold leaves at hlv'
        rw [hb] at hlv'
        simp only [Bool.or_eq_false_iff, Bool.and_eq_false_iff, decide_eq_false_iff_not] at hlv'
        have := hlv'.1.2
        simp only [lt_irrefl, if_false] at this
        omega
      omega

/-- Partial: for a number of clusters (alone) the graph has one or two clusters more. -/
theorem cluster_count_partial {p : Params} (hc : 0 < p.clusters) (ht : p.top = 0) (hb : p.bottom = 0) {draws : Nat → Draw}
    {small : Draw} (hd : ∀ i, Possible (draws i)) (hs : Possible small) {fuel : Nat} {wg : WorkGraph}
    (h : getGraph p fuel draws small = some (some wg)) :
    (wg.clusters : Int) = p.clusters + 1 ∨ (wg.clusters : Int) = p.clusters + 2 := by
  obtain ⟨s, hl, hi, -, -, hr⟩ := result hd hs h
  obtain ⟨j, prob', t, htI, rfl, hlv, hprev⟩ := loop_last hd _ _ _ _ _ inv_nil hl
  obtain ⟨-, -, hrd⟩ := inv_round (p := p) (prob := prob') (hd j) htI
  have hstop : p.clusters ≤ ((round p prob' (draws j) t).1.stages.length : Int) - 1 := by
    unfold leaves at hlv
    rw [hb, ht] at hlv
    simpa [hc] using hlv
  have hbefore : (t.stages.length : Int) - 1 < p.clusters := by
    rcases hprev with ⟨rfl, -⟩ | ⟨k, prob'', u, hu, rfl, hlv'⟩
    · simp; omega
    · unfold leaves at hlv'
      rw [hb, ht] at hlv'
      simpa [hc] using hlv'
  rcases hr with ⟨h1, -, -⟩ | ⟨-, -, h3, -⟩
  · omega
  · rw [h3]
    rcases hrd with ⟨-, h4, -⟩ | ⟨-, h4, -⟩ <;> omega

/-- The clusters hang together as the type of the graph says.  Parallel: the last works of all clusters but the first two wait for
that of the first.  Sequential: they wait for that of one of the two clusters before.  General: they wait for the minimal road of
an earlier cluster, `road` being that of the cluster itself: without branching, of the one before. -/
theorem modes {p : Params} {draws : Nat → Draw} {small : Draw} (hd : ∀ i, Possible (draws i)) (hs : Possible small) {fuel : Nat}
    {wg : WorkGraph} (h : getGraph p fuel draws small = some (some wg)) {i v : Nat} (hi : 2 ≤ i)
    (hv : (handings wg.kinds)[i]? = some v) :
    match p.mode with
    | .parallel => ∃ w, (handings wg.kinds)[0]? = some w ∧ wg.graph.DependsOn v w
    | .sequential => ∃ w, ((handings wg.kinds)[i - 1]? = some w ∨ (handings wg.kinds)[i - 2]? = some w) ∧ wg.graph.DependsOn v w
    | .general => ∃ w road, w < road ∧ road < v ∧ wg.kinds[w]? = some .minRoad ∧ wg.kinds[road]? = some .minRoad ∧
        wg.graph.DependsOn v w ∧ (∀ z, road < z → z < v → wg.kinds[z]? ≠ some .minRoad) ∧
        ((∀ j, p.branching < (draws j).branch) → ∀ z, w < z → z < road → wg.kinds[z]? ≠ some .minRoad) := by
  obtain ⟨s, hl, hI, hm, -, hr⟩ := result hd hs h
  rcases hr with ⟨-, -, h3, -⟩ | ⟨-, -, -, hk, hdep⟩
  · exfalso
    unfold WorkGraph.clusters WorkGraph.countOf at h3
    rw [← handings_length] at h3
    have := (List.getElem?_eq_some_iff.1 hv).1
    omega
  · rw [hk, ← hI.handings] at hv ⊢
    rw [List.getElem?_map] at hv
    obtain ⟨x, hx, rfl⟩ := Option.map_eq_some_iff.1 hv
    have hxm := (hI.inside x (List.mem_of_getElem? hx)).1
    have hmi := hm i hi x hx
    cases hmode : p.mode with
    | parallel =>
      rw [hmode] at hmi
      obtain ⟨y, h1, h2⟩ := hmi
      exact ⟨y.1, by rw [List.getElem?_map, h1]; rfl, (hdep _ _ hxm (hI.inside y (List.mem_of_getElem? h1)).1).2 h2⟩
    | sequential =>
      rw [hmode] at hmi
      obtain ⟨y, h1, h2⟩ := hmi
      refine ⟨y.1, ?_, (hdep _ _ hxm ?_).2 h2⟩
      · rw [List.getElem?_map, List.getElem?_map]
        rcases h1 with h1 | h1
        · left; rw [h1]; rfl
        · right; rw [h1]; rfl
      · rcases h1 with h1 | h1 <;> exact (hI.inside y (List.mem_of_getElem? h1)).1
    | general =>
      rw [hmode] at hmi
      obtain ⟨y, h1, h2, h3, h4, h5, h6⟩ := hmi
      exact ⟨y.2.min, x.2.min, h2, h3, hI.road y h1, hI.road x h4, (hdep _ _ hxm (hI.inside y h1).2.1).2 h5, h6⟩

/-- The random numbers decide: equal numbers for the clusters give the same graph, unless it consists of a single cluster. -/
theorem same_numbers_partial {p : Params} {draws : Nat → Draw} {small small' : Draw} (hd : ∀ i, Possible (draws i))
    (hs : Possible small) {fuel : Nat} {wg : WorkGraph} (h : getGraph p fuel draws small = some (some wg)) (hc : 2 ≤ wg.clusters) :
    getGraph p fuel draws small' = some (some wg) := by
  obtain ⟨s, hl, -, -, -, hr⟩ := result hd hs h
  rcases hr with ⟨-, -, h3, -⟩ | ⟨h1, -⟩
  · omega
  · unfold getGraph at h ⊢
    split at h
    · simp at h
    · rename_i hn
      rw [if_neg hn, hl]
      rw [hl] at h
      simp only [Option.map_some] at h ⊢
      rw [if_neg (by omega)] at h ⊢
      exact h

/-! ### Where the borders fail -/

/-- All numbers drawn are `u`, and the lowest integers. -/
private def flat (u extra : ℚ) : Draw := ⟨u, u, u, u, extra, 1, fun a _ => a⟩

private theorem flat_ok {u extra : ℚ} (h0 : 0 ≤ u) (h1 : u ≤ 1) (h2 : 0 ≤ extra) (h3 : extra ≤ 1) : Possible (flat u extra) :=
  ⟨⟨h0, h1⟩, ⟨h0, h1⟩, ⟨h0, h1⟩, ⟨h0, h1⟩, ⟨h2, h3⟩, ⟨by norm_num [flat], by norm_num [flat]⟩, fun a b h => ⟨le_refl _, h⟩⟩

/-- The default arguments with the given borders. -/
private def args (mode : Mode) (clusters bottom top : Int) : Params := ⟨mode, clusters, bottom, top, 15 / 100, 25 / 100⟩

/-- Not proved because false: "the graph has at least as many works as the bottom border".  At least 60 works are asked for, a
single cluster of 84 works is made, and the small graph returned instead has 28. -/
theorem bottom_border_missed : ∃ (draws : Nat → Draw) (small : Draw), (∀ i, Possible (draws i)) ∧ Possible small ∧
    ((getGraph (args .general 0 60 0) 62 draws small).bind id).map (·.works) = some 28 :=
  ⟨fun _ => flat 1 1, flat 0 1, fun _ => flat_ok (by norm_num) (by norm_num) (by norm_num) (by norm_num),
    flat_ok (by norm_num) (by norm_num) (by norm_num) (by norm_num), by decide +kernel⟩

/-- Not proved because false: "the graph has at most as many works as the top border".  At most 50 works are asked for, and the
first round alone makes two clusters of 164 works. -/
theorem top_border_exceeded : ∃ (draws : Nat → Draw) (small : Draw), (∀ i, Possible (draws i)) ∧ Possible small ∧
    ((getGraph (args .general 0 0 50) 52 draws small).bind id).map (·.works) = some 164 :=
  ⟨fun _ => flat 1 0, flat 0 1, fun _ => flat_ok (by norm_num) (by norm_num) (by norm_num) (by norm_num),
    flat_ok (by norm_num) (by norm_num) (by norm_num) (by norm_num), by decide +kernel⟩

/-- Not proved because false: "the seed decides the graph".  The same random numbers, and graphs of 28 and 48 works: the small
graph is not made with the given generator. -/
theorem seed_does_not_decide : ∃ (draws : Nat → Draw) (small small' : Draw), (∀ i, Possible (draws i)) ∧ Possible small ∧
    Possible small' ∧
    ((getGraph (args .general 0 60 0) 62 draws small).bind id).map (·.works) = some 28 ∧
    ((getGraph (args .general 0 60 0) 62 draws small').bind id).map (·.works) = some 48 :=
  ⟨fun _ => flat 1 1, flat 0 1, flat 1 1, fun _ => flat_ok (by norm_num) (by norm_num) (by norm_num) (by norm_num),
    flat_ok (by norm_num) (by norm_num) (by norm_num) (by norm_num),
    flat_ok (by norm_num) (by norm_num) (by norm_num) (by norm_num), by decide +kernel, by decide +kernel⟩

/-! ### Concrete graphs -/

-- both ends of the range of small graphs are reached
example : (smallGraph (flat 0 1)).map (·.vertices) = some 30 ∧ (smallGraph (flat 1 1)).map (·.vertices) = some 50 := by
  decide +kernel

-- one cluster is asked for: two are made
example : ((getGraph (args .sequential 1 0 0) 3 (fun _ => flat 0 1) (flat 0 1)).bind id).map (fun wg => (wg.works, wg.clusters))
    = some (74, 2) := by decide +kernel

-- three clusters in sequence: the third waits for the second
example : ((getGraph (args .sequential 2 0 0) 4 (fun _ => flat 0 1) (flat 0 1)).bind id).map (fun wg =>
    (handings wg.kinds, (wg.graph.parents 110).contains 73)) = some ([36, 73, 110], true) := by decide +kernel

-- a bottom border that is kept
example : ((getGraph (args .parallel 0 100 0) 102 (fun _ => flat 0 1) (flat 0 1)).bind id).map (fun wg => (wg.works, wg.clusters))
    = some (111, 3) := by decide +kernel

end Sampo.C69
