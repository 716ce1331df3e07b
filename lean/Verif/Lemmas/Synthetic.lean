import Verif.Spec.Synthetic
import Verif.Lemmas.FromNodes
import Mathlib.Tactic.Linarith

namespace Sampo.Synthetic

/-- There is a dependency edge from `p` to `v`. -/
def Build.E (b : Build) (p v : Nat) : Prop :=
  ∃ e ∈ b.edges, e.start = p ∧ e.finish = v

/-- Edges go from earlier to later works, and are dependencies. -/
def Build.Ordered (b : Build) : Prop :=
  ∀ e ∈ b.edges, e.start < e.finish ∧ e.finish < b.kinds.length ∧ e.type.isDependency = true

/-- Nothing is lost. -/
def Build.Le (b b' : Build) : Prop := b.kinds <+: b'.kinds ∧ b.edges <+: b'.edges

theorem Build.Le.refl (b : Build) : b.Le b := ⟨List.prefix_refl _, List.prefix_refl _⟩

theorem Build.Le.trans {a b c : Build} (h : a.Le b) (h' : b.Le c) : a.Le c := ⟨h.1.trans h'.1, h.2.trans h'.2⟩

theorem Build.Le.length {a b : Build} (h : a.Le b) : a.kinds.length ≤ b.kinds.length := h.1.length_le

theorem Build.Le.E {a b : Build} (h : a.Le b) {p v : Nat} (he : a.E p v) : b.E p v := by
  obtain ⟨e, h1, h2⟩ := he
  exact ⟨e, h.2.subset h1, h2⟩

theorem link_le (b : Build) (v : Nat) (ps : List (Nat × Int × EdgeType)) : b.Le (b.link v ps) :=
  ⟨List.prefix_refl _, List.prefix_append _ _⟩

theorem link_ordered {b : Build} (h : b.Ordered) {v : Nat} {ps : List (Nat × Int × EdgeType)} (hv : v < b.kinds.length)
    (hp : ∀ p ∈ ps, p.1 < v ∧ p.2.2.isDependency = true) : (b.link v ps).Ordered := by
  intro e he
  unfold Build.link at he ⊢
  dsimp only at he ⊢
  rcases List.mem_append.1 he with he | he
  · exact h e he
  · obtain ⟨p, hp', rfl⟩ := List.mem_map.1 he
    exact ⟨(hp p hp').1, hv, (hp p hp').2⟩

theorem link_E {b : Build} {v : Nat} {ps : List (Nat × Int × EdgeType)} {p : Nat × Int × EdgeType} (hp : p ∈ ps) :
    (b.link v ps).E p.1 v :=
  ⟨⟨p.1, v, p.2.1, p.2.2⟩, List.mem_append_right _ (List.mem_map.2 ⟨p, hp, rfl⟩), rfl, rfl⟩

theorem add_fst (b : Build) (k : Kind) (ps : List (Nat × Int × EdgeType)) : (b.add k ps).1 = b.kinds.length := rfl

theorem add_kinds (b : Build) (k : Kind) (ps : List (Nat × Int × EdgeType)) : (b.add k ps).2.kinds = b.kinds ++ [k] := rfl

theorem add_le (b : Build) (k : Kind) (ps : List (Nat × Int × EdgeType)) : b.Le (b.add k ps).2 :=
  ⟨List.prefix_append _ _, List.prefix_append _ _⟩

theorem add_ordered {b : Build} (h : b.Ordered) (k : Kind) {ps : List (Nat × Int × EdgeType)}
    (hp : ∀ p ∈ ps, p.1 < b.kinds.length ∧ p.2.2.isDependency = true) : (b.add k ps).2.Ordered := by
  unfold Build.add
  refine link_ordered ?_ (by simp) hp
  intro e he
  obtain ⟨h1, h2, h3⟩ := h e he
  refine ⟨h1, ?_, h3⟩
  simp only [List.length_append, List.length_cons, List.length_nil]
  omega

theorem add_E {b : Build} {k : Kind} {ps : List (Nat × Int × EdgeType)} {p : Nat × Int × EdgeType} (hp : p ∈ ps) :
    (b.add k ps).2.E p.1 b.kinds.length := link_E hp

theorem addAll_fst (parents : List Nat) : ∀ (ks : List Kind) (b : Build),
    (b.addAll parents ks).1 = List.range' b.kinds.length ks.length
  | [], _ => rfl
  | k :: ks, b => by
    unfold Build.addAll
    dsimp only
    rw [addAll_fst parents ks, add_fst, add_kinds, List.length_append, List.length_cons, List.length_cons, List.length_nil,
      List.range'_succ]

theorem addAll_kinds (parents : List Nat) : ∀ (ks : List Kind) (b : Build),
    (b.addAll parents ks).2.kinds = b.kinds ++ ks
  | [], b => by simp [Build.addAll]
  | k :: ks, b => by
    unfold Build.addAll
    dsimp only
    rw [addAll_kinds parents ks, add_kinds, List.append_assoc]
    rfl

theorem addAll_len (parents : List Nat) (ks : List Kind) (b : Build) :
    (b.addAll parents ks).2.kinds.length = b.kinds.length + ks.length := by
  rw [addAll_kinds, List.length_append]

theorem mem_addAll {parents : List Nat} {ks : List Kind} {b : Build} {v : Nat} :
    v ∈ (b.addAll parents ks).1 ↔ b.kinds.length ≤ v ∧ v < b.kinds.length + ks.length := by
  rw [addAll_fst, List.mem_range'_1]

theorem addAll_le (parents : List Nat) : ∀ (ks : List Kind) (b : Build), b.Le (b.addAll parents ks).2
  | [], b => Build.Le.refl b
  | k :: ks, b => (add_le b k (plain parents)).trans (addAll_le parents ks _)

theorem plain_ok {parents : List Nat} {n : Nat} (hp : ∀ p ∈ parents, p < n) :
    ∀ p ∈ plain parents, p.1 < n ∧ p.2.2.isDependency = true := by
  intro p hp'
  obtain ⟨q, hq, rfl⟩ := List.mem_map.1 hp'
  exact ⟨hp q hq, rfl⟩

theorem addAll_ordered {parents : List Nat} : ∀ (ks : List Kind) {b : Build}, b.Ordered → (∀ p ∈ parents, p < b.kinds.length) →
    (b.addAll parents ks).2.Ordered
  | [], _, h, _ => h
  | k :: ks, b, h, hp => by
    unfold Build.addAll
    dsimp only
    refine addAll_ordered ks (add_ordered h k (plain_ok hp)) ?_
    intro p hp'
    have := hp p hp'
    rw [add_kinds, List.length_append]
    omega

theorem addAll_E {parents : List Nat} {p v : Nat} (hp : p ∈ parents) : ∀ (ks : List Kind) {b : Build},
    v ∈ (b.addAll parents ks).1 → (b.addAll parents ks).2.E p v
  | [], _, h => by simp [Build.addAll] at h
  | k :: ks, b, h => by
    unfold Build.addAll at h ⊢
    dsimp only at h ⊢
    rcases List.mem_cons.1 h with rfl | h
    · refine (addAll_le parents ks _).E ?_
      rw [add_fst]
      exact add_E (p := (p, 0, .finishStart)) (List.mem_map.2 ⟨p, hp, rfl⟩)
    · exact addAll_E hp ks h

/-! ## Groups of boreholes -/

/-- The kinds of the works of the groups. -/
def groupsKinds : List Nat → List Kind
  | [] => []
  | n :: ns => groupKinds ++ (List.replicate n .borehole ++ groupsKinds ns)

theorem getGroups_kinds (prep shared : List Nat) : ∀ (ns : List Nat) (b : Build),
    (getGroups prep shared b ns).2.2.kinds = b.kinds ++ groupsKinds ns
  | [], b => by simp [getGroups, groupsKinds]
  | n :: ns, b => by
    unfold getGroups groupsKinds
    dsimp only
    rw [getGroups_kinds prep shared ns, addAll_kinds, addAll_kinds, List.append_assoc, List.append_assoc]

theorem getGroups_count (prep shared : List Nat) : ∀ (ns : List Nat) (b : Build),
    (getGroups prep shared b ns).2.1 = (groupsKinds ns).length
  | [], b => rfl
  | n :: ns, b => by
    unfold getGroups groupsKinds
    dsimp only
    rw [getGroups_count prep shared ns, addAll_fst, addAll_fst, List.length_range', List.length_range', List.length_append,
      List.length_append]
    omega

theorem getGroups_le (prep shared : List Nat) : ∀ (ns : List Nat) (b : Build), b.Le (getGroups prep shared b ns).2.2
  | [], b => Build.Le.refl b
  | n :: ns, b => ((addAll_le _ _ b).trans (addAll_le _ _ _)).trans (getGroups_le prep shared ns _)

theorem getGroups_ordered {prep shared : List Nat} : ∀ (ns : List Nat) {b : Build}, b.Ordered →
    (∀ p ∈ prep, p < b.kinds.length) → (∀ p ∈ shared, p < b.kinds.length) → (getGroups prep shared b ns).2.2.Ordered
  | [], _, h, _, _ => h
  | n :: ns, b, h, hp, hs => by
    unfold getGroups
    dsimp only
    have l1 := addAll_len prep groupKinds b
    have l2 := fun ps => addAll_len ps (List.replicate n Kind.borehole) (b.addAll prep groupKinds).2
    refine getGroups_ordered ns (addAll_ordered _ (addAll_ordered _ h hp) ?_) ?_ ?_
    · intro p hp'
      rcases List.mem_append.1 hp' with h1 | h1
      · rw [mem_addAll] at h1; omega
      · have := hs p h1; omega
    · intro p hp'
      have := hp p hp'
      rw [l2]; omega
    · intro p hp'
      have := hs p hp'
      rw [l2]; omega

/-- The works of the groups: the boreholes are the ones returned; everything has a predecessor, and everything else a
successor. -/
theorem getGroups_links {prep shared : List Nat} {q : Nat} (hq : q ∈ prep) : ∀ (ns : List Nat) (b : Build), (∀ n ∈ ns, 0 < n) →
    (∀ v ∈ (getGroups prep shared b ns).1, b.kinds.length ≤ v ∧ v < (getGroups prep shared b ns).2.2.kinds.length) ∧
    (∀ v, b.kinds.length ≤ v → v < (getGroups prep shared b ns).2.2.kinds.length →
      (∃ p, (getGroups prep shared b ns).2.2.E p v) ∧
        (v ∈ (getGroups prep shared b ns).1 ∨ ∃ c, (getGroups prep shared b ns).2.2.E v c)) ∧
    (ns ≠ [] → ∀ v ∈ shared, ∃ c, (getGroups prep shared b ns).2.2.E v c)
  | [], b, _ => by
    refine ⟨by simp [getGroups], ?_, fun h => absurd rfl h⟩
    intro v h1 h2
    simp only [getGroups] at h2
    omega
  | n :: ns, b, hn => by
    have hpos : 0 < n := hn n List.mem_cons_self
    set eq := b.addAll prep groupKinds with heq
    set holes := eq.2.addAll (eq.1 ++ shared) (List.replicate n .borehole) with hholes
    obtain ⟨ih1, ih2, ih3⟩ := getGroups_links (shared := shared) hq ns holes.2 fun m hm => hn m (List.mem_cons_of_mem _ hm)
    have hr : getGroups prep shared b (n :: ns) = (holes.1 ++ (getGroups prep shared holes.2 ns).1,
      eq.1.length + holes.1.length + (getGroups prep shared holes.2 ns).2.1, (getGroups prep shared holes.2 ns).2.2) := rfl
    rw [hr]
    dsimp only
    have l1 : eq.2.kinds.length = b.kinds.length + 3 := addAll_len prep groupKinds b
    have l2 : holes.2.kinds.length = eq.2.kinds.length + n := by
      rw [hholes, addAll_len, List.length_replicate]
    have le := getGroups_le prep shared ns holes.2
    have mh : ∀ v, v ∈ holes.1 ↔ eq.2.kinds.length ≤ v ∧ v < eq.2.kinds.length + n := by
      intro v; rw [hholes, mem_addAll, List.length_replicate]
    have me : ∀ v, v ∈ eq.1 ↔ b.kinds.length ≤ v ∧ v < b.kinds.length + 3 := by
      intro v; rw [heq, mem_addAll]; rfl
    have first : eq.2.kinds.length ∈ holes.1 := (mh _).2 ⟨le_refl _, by omega⟩
    have child : ∀ v ∈ eq.1 ++ shared, (getGroups prep shared holes.2 ns).2.2.E v eq.2.kinds.length := fun v hv =>
      le.E (addAll_E hv _ first)
    refine ⟨?_, ?_, fun _ v hv => ⟨_, child v (List.mem_append_right _ hv)⟩⟩
    · intro v hv
      have hle := le.length
      rcases List.mem_append.1 hv with hv | hv
      · rw [mh] at hv; omega
      · have := ih1 v hv; omega
    · intro v h1 h2
      by_cases c1 : v < b.kinds.length + 3
      · have hv : v ∈ eq.1 := (me v).2 ⟨h1, c1⟩
        exact ⟨⟨q, le.E ((addAll_le _ _ _).E (addAll_E hq _ hv))⟩, Or.inr ⟨_, child v (List.mem_append_left _ hv)⟩⟩
      · by_cases c2 : v < eq.2.kinds.length + n
        · have hv : v ∈ holes.1 := (mh v).2 ⟨by omega, c2⟩
          refine ⟨⟨b.kinds.length, le.E (addAll_E ?_ _ hv)⟩, Or.inl (List.mem_append_left _ hv)⟩
          exact List.mem_append_left _ ((me _).2 ⟨le_refl _, by omega⟩)
        · obtain ⟨h3, h4⟩ := ih2 v (by omega) h2
          exact ⟨h3, h4.imp (List.mem_append_right _) id⟩

/-! ## Clusters -/

/-- The works of a cluster after its roads. -/
def onRoads (b : Build) (c : Counts) (master : Bool) (r : Roads) : Nat × Build :=
  let eng := b.addAll [r.min] [.engineering]
  let prep := [r.temp] ++ eng.1
  let power := eng.2.addAll prep (powerKinds master)
  let pipes := power.2.addAll prep (pipeKinds c.pipeNodes)
  let loop := pipes.2.addAll (pipes.1.take 1) [.looping]
  let shared := loop.2.addAll prep sharedKinds
  let general := shared.2.addAll prep (generalKinds c)
  let groups := getGroups prep shared.1 general.2 c.boreholes
  let all := [r.final] ++ power.1 ++ (pipes.1 ++ loop.1) ++ groups.1 ++ general.1
  let hand := groups.2.2.addAll all [.handing]
  (groups.2.2.kinds.length, hand.2)

/-- The kinds of these works. -/
def onRoadsKinds (c : Counts) (master : Bool) : List Kind :=
  [.engineering] ++ powerKinds master ++ pipeKinds c.pipeNodes ++ [.looping] ++ sharedKinds ++ generalKinds c
    ++ groupsKinds c.boreholes ++ [.handing]

theorem onRoads_kinds (b : Build) (c : Counts) (master : Bool) (r : Roads) :
    (onRoads b c master r).2.kinds = b.kinds ++ onRoadsKinds c master := by
  unfold onRoads onRoadsKinds
  dsimp only
  simp only [addAll_kinds, getGroups_kinds, List.append_assoc]

theorem pipeKinds_length (n : Nat) : (pipeKinds n).length = 1 + 2 * n := by
  unfold pipeKinds
  rw [List.length_cons, List.length_flatten, List.map_replicate]
  show (List.replicate n 2).sum + 1 = _
  rw [List.sum_replicate_nat]
  omega

theorem getCluster_none (b : Build) (c : Counts) : getCluster b c none =
    ((onRoads (getRoads b).2 c true (getRoads b).1).1, (getRoads b).1, 3 + (onRoadsKinds c true).length,
      (onRoads (getRoads b).2 c true (getRoads b).1).2) := by
  unfold getCluster onRoads onRoadsKinds
  simp only [Option.isNone_none, Prod.mk.injEq, true_and, and_true, addAll_fst, List.length_range', List.length_append,
    getGroups_count, Roads.values, List.length_cons, List.length_nil]
  omega

theorem getCluster_some (b : Build) (c : Counts) (r : Roads) : getCluster b c (some r) =
    ((onRoads b c false r).1, r, (onRoadsKinds c false).length, (onRoads b c false r).2) := by
  unfold getCluster onRoads onRoadsKinds
  simp only [Option.isNone_some, Prod.mk.injEq, true_and, and_true, addAll_fst, List.length_range', List.length_append,
    getGroups_count, Roads.values, List.length_cons, List.length_nil]
  omega

/-- The works of a cluster after its roads are linked: each has a predecessor, each but the last a successor, and so have the
roads. -/
theorem onRoads_links {b : Build} {c : Counts} {master : Bool} {r : Roads} (h : b.Ordered) (hm : r.min < b.kinds.length)
    (ht : r.temp < b.kinds.length) (hf : r.final < b.kinds.length) (hb : c.boreholes ≠ []) (hpos : ∀ n ∈ c.boreholes, 0 < n) :
    b.Le (onRoads b c master r).2 ∧ (onRoads b c master r).2.Ordered ∧
    (onRoads b c master r).1 + 1 = (onRoads b c master r).2.kinds.length ∧ b.kinds.length ≤ (onRoads b c master r).1 ∧
    (∃ d, (onRoads b c master r).2.E r.min d) ∧ (∃ d, (onRoads b c master r).2.E r.temp d) ∧
    (∃ d, (onRoads b c master r).2.E r.final d) ∧
    ∀ v, b.kinds.length ≤ v → v < (onRoads b c master r).2.kinds.length → (∃ p, (onRoads b c master r).2.E p v) ∧
      (v = (onRoads b c master r).1 ∨ ∃ d, (onRoads b c master r).2.E v d) := by
  set eng := b.addAll [r.min] [.engineering] with heng
  set prep := [r.temp] ++ eng.1 with hprep
  set power := eng.2.addAll prep (powerKinds master) with hpower
  set pipes := power.2.addAll prep (pipeKinds c.pipeNodes) with hpipes
  set lp := pipes.2.addAll (pipes.1.take 1) [.looping] with hlp
  set shared := lp.2.addAll prep sharedKinds with hshared
  set general := shared.2.addAll prep (generalKinds c) with hgeneral
  set groups := getGroups prep shared.1 general.2 c.boreholes with hgroups
  set all := [r.final] ++ power.1 ++ (pipes.1 ++ lp.1) ++ groups.1 ++ general.1 with hall
  set hand := groups.2.2.addAll all [.handing] with hhand
  have hr : onRoads b c master r = (groups.2.2.kinds.length, hand.2) := rfl
  rw [hr]
  dsimp only
  -- lengths
  have l1 : eng.2.kinds.length = b.kinds.length + 1 := addAll_len _ _ _
  have l2 : power.2.kinds.length = eng.2.kinds.length + (powerKinds master).length := addAll_len _ _ _
  have l3 : pipes.2.kinds.length = power.2.kinds.length + (pipeKinds c.pipeNodes).length := addAll_len _ _ _
  have l4 : lp.2.kinds.length = pipes.2.kinds.length + 1 := addAll_len _ _ _
  have l5 : shared.2.kinds.length = lp.2.kinds.length + 5 := addAll_len _ _ _
  have l6 : general.2.kinds.length = shared.2.kinds.length + (generalKinds c).length := addAll_len _ _ _
  have l7 : hand.2.kinds.length = groups.2.2.kinds.length + 1 := addAll_len _ _ _
  have p2 : 0 < (powerKinds master).length := by unfold powerKinds; simp
  have p3 : 0 < (pipeKinds c.pipeNodes).length := by rw [pipeKinds_length]; omega
  -- ids
  have m1 : ∀ v, v ∈ eng.1 ↔ b.kinds.length ≤ v ∧ v < b.kinds.length + 1 := fun v => mem_addAll
  have m2 : ∀ v, v ∈ power.1 ↔ eng.2.kinds.length ≤ v ∧ v < eng.2.kinds.length + (powerKinds master).length :=
    fun v => mem_addAll
  have m3 : ∀ v, v ∈ pipes.1 ↔ power.2.kinds.length ≤ v ∧ v < power.2.kinds.length + (pipeKinds c.pipeNodes).length :=
    fun v => mem_addAll
  have m4 : ∀ v, v ∈ lp.1 ↔ pipes.2.kinds.length ≤ v ∧ v < pipes.2.kinds.length + 1 := fun v => mem_addAll
  have m5 : ∀ v, v ∈ shared.1 ↔ lp.2.kinds.length ≤ v ∧ v < lp.2.kinds.length + 5 := fun v => mem_addAll
  have m6 : ∀ v, v ∈ general.1 ↔ shared.2.kinds.length ≤ v ∧ v < shared.2.kinds.length + (generalKinds c).length :=
    fun v => mem_addAll
  have m7 : groups.2.2.kinds.length ∈ hand.1 := mem_addAll.2 ⟨le_refl _, by simp⟩
  have mt : ∀ v ∈ pipes.1.take 1, v = power.2.kinds.length := by
    intro v hv
    rw [hpipes, addAll_fst] at hv
    obtain ⟨k, hk⟩ : ∃ k, (pipeKinds c.pipeNodes).length = k + 1 := ⟨_, (Nat.succ_pred_eq_of_pos p3).symm⟩
    rw [hk, List.range'_succ] at hv
    simpa using hv
  have mt' : power.2.kinds.length ∈ pipes.1.take 1 := by
    rw [hpipes, addAll_fst]
    obtain ⟨k, hk⟩ : ∃ k, (pipeKinds c.pipeNodes).length = k + 1 := ⟨_, (Nat.succ_pred_eq_of_pos p3).symm⟩
    rw [hk, List.range'_succ]
    simp
  -- growth
  have e1 : b.Le eng.2 := addAll_le _ _ _
  have e2 : eng.2.Le power.2 := addAll_le _ _ _
  have e3 : power.2.Le pipes.2 := addAll_le _ _ _
  have e4 : pipes.2.Le lp.2 := addAll_le _ _ _
  have e5 : lp.2.Le shared.2 := addAll_le _ _ _
  have e6 : shared.2.Le general.2 := addAll_le _ _ _
  have e7 : general.2.Le groups.2.2 := getGroups_le _ _ _ _
  have e8 : groups.2.2.Le hand.2 := addAll_le _ _ _
  have s7 := e7.trans e8
  have s6 := e6.trans s7
  have s5 := e5.trans s6
  have s4 := e4.trans s5
  have s3 := e3.trans s4
  have s2 := e2.trans s3
  obtain ⟨g1, g2, g3⟩ := getGroups_links (prep := prep) (shared := shared.1) (q := r.temp) (by simp [hprep]) c.boreholes general.2 hpos
  rw [← hgroups] at g1 g2 g3
  have hprepm : ∀ p ∈ prep, p < eng.2.kinds.length := by
    intro p hp
    rcases List.mem_append.1 hp with hp | hp
    · rw [List.mem_singleton] at hp; omega
    · rw [m1] at hp; omega
  have L7 := e7.length
  have L8 := e8.length
  -- order
  have o1 : eng.2.Ordered := addAll_ordered _ h (by intro p hp; rw [List.mem_singleton] at hp; omega)
  have o2 : power.2.Ordered := addAll_ordered _ o1 hprepm
  have o3 : pipes.2.Ordered := addAll_ordered _ o2 (fun p hp => by have := hprepm p hp; omega)
  have o4 : lp.2.Ordered := addAll_ordered _ o3 (fun p hp => by have := mt p hp; omega)
  have o5 : shared.2.Ordered := addAll_ordered _ o4 (fun p hp => by have := hprepm p hp; omega)
  have o6 : general.2.Ordered := addAll_ordered _ o5 (fun p hp => by have := hprepm p hp; omega)
  have o7 : groups.2.2.Ordered := getGroups_ordered _ o6 (fun p hp => by have := hprepm p hp; omega)
    (fun p hp => by have := (m5 p).1 hp; omega)
  have hallm : ∀ p ∈ all, p < groups.2.2.kinds.length := by
    intro p hp
    simp only [hall, List.mem_append, List.mem_singleton] at hp
    rcases hp with (((rfl | hp) | hp | hp) | hp) | hp
    · omega
    · rw [m2] at hp; omega
    · rw [m3] at hp; omega
    · rw [m4] at hp; omega
    · exact (g1 p hp).2
    · rw [m6] at hp; omega
  have o8 : hand.2.Ordered := addAll_ordered _ o7 hallm
  have last : ∀ p ∈ all, hand.2.E p groups.2.2.kinds.length := fun p hp => addAll_E hp _ m7
  have firstPower : eng.2.kinds.length ∈ power.1 := (m2 _).2 ⟨le_refl _, by omega⟩
  refine ⟨(e1.trans s2), o8, l7.symm, by omega, ⟨b.kinds.length, s2.E (addAll_E (by simp) _ ((m1 _).2 ⟨le_refl _, by omega⟩))⟩,
    ⟨eng.2.kinds.length, s3.E (addAll_E (by simp [hprep]) _ firstPower)⟩, ⟨_, last _ (by simp [hall])⟩, ?_⟩
  intro v h1 h2
  have tprep : r.temp ∈ prep := by simp [hprep]
  by_cases c1 : v < eng.2.kinds.length
  · have hv : v ∈ eng.1 := (m1 v).2 ⟨h1, by omega⟩
    exact ⟨⟨_, s2.E (addAll_E (List.mem_singleton_self _) _ hv)⟩,
      Or.inr ⟨_, s3.E (addAll_E (List.mem_append_right _ hv) _ firstPower)⟩⟩
  by_cases c2 : v < power.2.kinds.length
  · have hv : v ∈ power.1 := (m2 v).2 ⟨by omega, by omega⟩
    exact ⟨⟨_, s3.E (addAll_E tprep _ hv)⟩, Or.inr ⟨_, last v (by simp [hall, hv])⟩⟩
  by_cases c3 : v < pipes.2.kinds.length
  · have hv : v ∈ pipes.1 := (m3 v).2 ⟨by omega, by omega⟩
    exact ⟨⟨_, s4.E (addAll_E tprep _ hv)⟩, Or.inr ⟨_, last v (by simp [hall, hv])⟩⟩
  by_cases c4 : v < lp.2.kinds.length
  · have hv : v ∈ lp.1 := (m4 v).2 ⟨by omega, by omega⟩
    exact ⟨⟨_, s5.E (addAll_E mt' _ hv)⟩, Or.inr ⟨_, last v (by simp [hall, hv])⟩⟩
  by_cases c5 : v < shared.2.kinds.length
  · have hv : v ∈ shared.1 := (m5 v).2 ⟨by omega, by omega⟩
    obtain ⟨d, hd⟩ := g3 hb v hv
    exact ⟨⟨_, s6.E (addAll_E tprep _ hv)⟩, Or.inr ⟨d, e8.E hd⟩⟩
  by_cases c6 : v < general.2.kinds.length
  · have hv : v ∈ general.1 := (m6 v).2 ⟨by omega, by omega⟩
    exact ⟨⟨_, s7.E (addAll_E tprep _ hv)⟩, Or.inr ⟨_, last v (by simp [hall, hv])⟩⟩
  by_cases c7 : v < groups.2.2.kinds.length
  · obtain ⟨⟨p, hp⟩, h4⟩ := g2 v (by omega) c7
    refine ⟨⟨p, e8.E hp⟩, Or.inr ?_⟩
    rcases h4 with h4 | ⟨d, hd⟩
    · exact ⟨_, last v (by simp [hall, h4])⟩
    · exact ⟨d, e8.E hd⟩
  · have hv : v = groups.2.2.kinds.length := by omega
    subst hv
    exact ⟨⟨_, last r.final (by simp [hall])⟩, Or.inl rfl⟩

theorem getRoads_eq {b : Build} (h : b.Ordered) :
    (getRoads b).1 = ⟨b.kinds.length, b.kinds.length + 1, b.kinds.length + 2⟩ ∧
    (getRoads b).2.kinds = b.kinds ++ [.minRoad, .tempRoad, .finalRoad] ∧ b.Le (getRoads b).2 ∧ (getRoads b).2.Ordered ∧
    (getRoads b).2.E b.kinds.length (b.kinds.length + 1) ∧ (getRoads b).2.E (b.kinds.length + 1) (b.kinds.length + 2) := by
  set m := b.add .minRoad [] with hm
  set t := m.2.add .tempRoad [(m.1, 0, .lagFinishStart)] with ht
  set f := t.2.add .finalRoad [(t.1, 0, .lagFinishStart)] with hf
  have hr : getRoads b = (⟨m.1, t.1, f.1⟩, f.2) := rfl
  have k1 : m.2.kinds = b.kinds ++ [.minRoad] := rfl
  have k2 : t.2.kinds = m.2.kinds ++ [.tempRoad] := rfl
  have k3 : f.2.kinds = t.2.kinds ++ [.finalRoad] := rfl
  have i1 : m.1 = b.kinds.length := rfl
  have i2 : t.1 = m.2.kinds.length := rfl
  have i3 : f.1 = t.2.kinds.length := rfl
  have n1 : m.2.kinds.length = b.kinds.length + 1 := by rw [k1, List.length_append]; rfl
  have n2 : t.2.kinds.length = b.kinds.length + 2 := by rw [k2, List.length_append, n1]; rfl
  have o1 : m.2.Ordered := add_ordered h _ (by simp)
  have o2 : t.2.Ordered := add_ordered o1 _ (by
    intro p hp; rw [List.mem_singleton] at hp; subst hp; exact ⟨by rw [i1, n1]; omega, rfl⟩)
  have o3 : f.2.Ordered := add_ordered o2 _ (by
    intro p hp; rw [List.mem_singleton] at hp; subst hp; exact ⟨by rw [i2, n1, n2]; omega, rfl⟩)
  rw [hr]
  dsimp only
  refine ⟨by rw [i1, i2, i3, n1, n2], by rw [k3, k2, k1]; simp, (add_le _ _ _).trans ((add_le _ _ _).trans (add_le _ _ _)), o3,
    ?_, ?_⟩
  · have := add_E (b := m.2) (k := .tempRoad) (ps := [(m.1, 0, .lagFinishStart)]) (List.mem_singleton_self _)
    rw [← ht, n1] at this
    exact (add_le _ _ _).E this
  · have := add_E (b := t.2) (k := .finalRoad) (ps := [(t.1, 0, .lagFinishStart)]) (List.mem_singleton_self _)
    rw [← hf, n2, i2, n1] at this
    exact this

theorem handings_snoc {ks xs : List Kind} (hx : Kind.handing ∉ xs) :
    handings (ks ++ (xs ++ [.handing])) = handings ks ++ [ks.length + xs.length] := by
  unfold handings
  have hlen : (ks ++ (xs ++ [Kind.handing])).length = ks.length + (xs.length + 1) := by simp
  rw [hlen, List.range_add, List.filter_append]
  have h1 : (List.range ks.length).filter (fun v => decide ((ks ++ (xs ++ [Kind.handing]))[v]? = some .handing))
      = (List.range ks.length).filter fun v => decide (ks[v]? = some .handing) := by
    apply List.filter_congr
    intro v hv
    rw [List.mem_range] at hv
    rw [List.getElem?_append_left hv]
  rw [h1]
  congr 1
  rw [List.range_succ, List.map_append, List.filter_append]
  have h2 : ((List.range xs.length).map (ks.length + ·)).filter
      (fun v => decide ((ks ++ (xs ++ [Kind.handing]))[v]? = some .handing)) = [] := by
    rw [List.filter_eq_nil_iff]
    intro v hv
    obtain ⟨j, hj, rfl⟩ := List.mem_map.1 hv
    rw [List.mem_range] at hj
    rw [List.getElem?_append_right (by omega), Nat.add_sub_cancel_left, List.getElem?_append_left hj]
    simp only [decide_eq_true_eq]
    intro he
    exact hx (List.mem_of_getElem? he)
  rw [h2, List.nil_append, List.map_singleton, List.filter_cons_of_pos, List.filter_nil]
  rw [List.getElem?_append_right (by omega), Nat.add_sub_cancel_left, List.getElem?_append_right (by omega), Nat.sub_self]
  rfl

theorem onRoadsKinds_snoc (c : Counts) (master : Bool) : ∃ xs, onRoadsKinds c master = xs ++ [.handing] ∧ Kind.handing ∉ xs := by
  refine ⟨_, rfl, ?_⟩
  have hg : ∀ ns : List Nat, Kind.handing ∉ groupsKinds ns := by
    intro ns
    induction ns with
    | nil => simp [groupsKinds]
    | cons n ns ih => simp [groupsKinds, groupKinds, ih]
  have hp : Kind.handing ∉ pipeKinds c.pipeNodes := by
    unfold pipeKinds
    simp only [List.mem_cons, List.mem_flatten, List.mem_replicate, not_or, reduceCtorEq, not_false_eq_true, true_and]
    rintro ⟨l, ⟨-, rfl⟩, h⟩
    simp at h
  simp only [List.mem_append, not_or, hg, hp, not_false_eq_true, and_true]
  unfold powerKinds sharedKinds generalKinds
  cases master <;> simp

/-- What new clusters on the same roads add: the last works `hands`. -/
structure Grown (b b' : Build) (hands : List Nat) (r : Roads) (count : Nat) : Prop where
  le : b.Le b'
  ordered : b'.Ordered
  length : b'.kinds.length = b.kinds.length + count
  roads : r = ⟨b.kinds.length, b.kinds.length + 1, b.kinds.length + 2⟩
  inside : ∀ v ∈ hands, b.kinds.length + 3 ≤ v ∧ v < b'.kinds.length
  increasing : hands.Pairwise (· < ·)
  nonempty : hands ≠ []
  links : ∀ v, b.kinds.length ≤ v → v < b'.kinds.length →
    ((∃ p, b'.E p v) ∨ v = r.min) ∧ (v ∈ hands ∨ ∃ d, b'.E v d)
  handings : handings b'.kinds = handings b.kinds ++ hands
  road : b'.kinds[b.kinds.length]? = some .minRoad
  only : ∀ z, b.kinds.length < z → b'.kinds[z]? ≠ some .minRoad

theorem minRoad_notMem (c : Counts) (master : Bool) : Kind.minRoad ∉ onRoadsKinds c master := by
  have hg : ∀ ns : List Nat, Kind.minRoad ∉ groupsKinds ns := by
    intro ns
    induction ns with
    | nil => simp [groupsKinds]
    | cons n ns ih => simp [groupsKinds, groupKinds, ih]
  have hp : ∀ n : Nat, Kind.minRoad ∉ pipeKinds n := by
    intro n
    simp [pipeKinds]
  unfold onRoadsKinds generalKinds
  cases master <;> simp [powerKinds, sharedKinds, hg, hp]

theorem grown_master {b : Build} (h : b.Ordered) {c : Counts} (hb : c.boreholes ≠ []) (hpos : ∀ n ∈ c.boreholes, 0 < n) :
    Grown b (getCluster b c none).2.2.2 [(getCluster b c none).1] (getCluster b c none).2.1 (getCluster b c none).2.2.1 := by
  rw [getCluster_none]
  obtain ⟨r1, r2, r3, r4, r5, r6⟩ := getRoads_eq h
  have rl : (getRoads b).2.kinds.length = b.kinds.length + 3 := by rw [r2, List.length_append]; rfl
  have hl := onRoads_links (c := c) (master := true) (r := (getRoads b).1) r4 (by rw [r1, rl]; simp) (by rw [r1, rl]; simp)
    (by rw [r1, rl]; simp) hb hpos
  obtain ⟨l1, l2, l3, l4, ⟨d1, l5⟩, ⟨d2, l6⟩, ⟨d3, l7⟩, l8⟩ := hl
  dsimp only
  set o := onRoads (getRoads b).2 c true (getRoads b).1 with ho
  have hk : o.2.kinds.length = b.kinds.length + (3 + (onRoadsKinds c true).length) := by
    rw [ho, onRoads_kinds, List.length_append, rl]; omega
  refine ⟨r3.trans l1, l2, hk, r1, ?_, by simp, by simp, ?_, ?_, ?_, ?_⟩
  · intro v hv
    rw [List.mem_singleton] at hv
    omega
  · intro v h1 h2
    rw [r1] at l5 l6 l7 ⊢
    dsimp only at l5 l6 l7 ⊢
    by_cases c1 : v = b.kinds.length
    · subst c1; exact ⟨Or.inr rfl, Or.inr ⟨_, l5⟩⟩
    by_cases c2 : v = b.kinds.length + 1
    · subst c2; exact ⟨Or.inl ⟨_, l1.E r5⟩, Or.inr ⟨_, l6⟩⟩
    by_cases c3 : v = b.kinds.length + 2
    · subst c3; exact ⟨Or.inl ⟨_, l1.E r6⟩, Or.inr ⟨_, l7⟩⟩
    obtain ⟨h3, h4⟩ := l8 v (by omega) h2
    exact ⟨Or.inl h3, h4.imp (fun h => by rw [h]; exact List.mem_singleton_self _) id⟩
  · obtain ⟨xs, hx, hx'⟩ := onRoadsKinds_snoc c true
    rw [ho, onRoads_kinds, r2, hx, List.append_assoc,
      show [Kind.minRoad, .tempRoad, .finalRoad] ++ (xs ++ [Kind.handing]) = ([.minRoad, .tempRoad, .finalRoad] ++ xs) ++ [.handing] from by simp,
      handings_snoc (by simp [hx']), ← ho]
    congr 2
    rw [hx, List.length_append] at hk
    simp only [List.length_append, List.length_cons, List.length_nil] at hk ⊢
    omega
  · rw [ho, onRoads_kinds, r2, List.append_assoc, List.getElem?_append_right (le_refl _), Nat.sub_self]
    rfl
  · intro z hz h0
    rw [ho, onRoads_kinds, r2, List.append_assoc, List.getElem?_append_right (by omega)] at h0
    obtain ⟨k, hk'⟩ : ∃ k, z - b.kinds.length = k + 1 := ⟨z - b.kinds.length - 1, by omega⟩
    rw [hk', show [Kind.minRoad, .tempRoad, .finalRoad] ++ onRoadsKinds c true =
      .minRoad :: ([.tempRoad, .finalRoad] ++ onRoadsKinds c true) from rfl, List.getElem?_cons_succ] at h0
    have := List.mem_of_getElem? h0
    simp [minRoad_notMem] at this

theorem grown_slave {b b' : Build} {hands : List Nat} {r : Roads} {count : Nat} (g : Grown b b' hands r count) (hc : 3 ≤ count)
    {c : Counts} (hb : c.boreholes ≠ []) (hpos : ∀ n ∈ c.boreholes, 0 < n) :
    Grown b (getCluster b' c (some r)).2.2.2 (hands ++ [(getCluster b' c (some r)).1]) r
      (count + (getCluster b' c (some r)).2.2.1) := by
  rw [getCluster_some]
  have hroads := g.roads
  have hlen := g.length
  have hl := onRoads_links (c := c) (master := false) (r := r) g.ordered (by rw [hroads]; dsimp only; omega)
    (by rw [hroads]; dsimp only; omega) (by rw [hroads]; dsimp only; omega) hb hpos
  obtain ⟨l1, l2, l3, l4, -, -, -, l8⟩ := hl
  dsimp only
  set o := onRoads b' c false r with ho
  have hk : o.2.kinds.length = b'.kinds.length + (onRoadsKinds c false).length := by
    rw [ho, onRoads_kinds, List.length_append]
  refine ⟨g.le.trans l1, l2, by omega, hroads, ?_, ?_, by simp, ?_, ?_, ?_, ?_⟩
  · intro v hv
    rcases List.mem_append.1 hv with hv | hv
    · have := g.inside v hv; omega
    · rw [List.mem_singleton] at hv; omega
  · rw [List.pairwise_append]
    refine ⟨g.increasing, by simp, ?_⟩
    intro x hx y hy
    have := g.inside x hx
    rw [List.mem_singleton] at hy
    omega
  · intro v h1 h2
    by_cases c1 : v < b'.kinds.length
    · obtain ⟨h3, h4⟩ := g.links v h1 c1
      exact ⟨h3.imp (fun ⟨p, hp⟩ => ⟨p, l1.E hp⟩) id, h4.imp (List.mem_append_left _) fun ⟨d, hd⟩ => ⟨d, l1.E hd⟩⟩
    · obtain ⟨h3, h4⟩ := l8 v (by omega) h2
      exact ⟨Or.inl h3, h4.imp (fun h => by rw [h]; simp) id⟩
  · obtain ⟨xs, hx, hx'⟩ := onRoadsKinds_snoc c false
    rw [ho, onRoads_kinds, hx, handings_snoc hx', ← ho, g.handings, List.append_assoc]
    congr 3
    rw [hx, List.length_append] at hk
    simp only [List.length_cons, List.length_nil] at hk
    omega
  · have := g.road
    rw [ho, onRoads_kinds, List.getElem?_append_left (by omega)]
    exact this
  · intro z hz h0
    rw [ho, onRoads_kinds] at h0
    by_cases hzb : z < b'.kinds.length
    · rw [List.getElem?_append_left hzb] at h0
      exact g.only z hz h0
    · rw [List.getElem?_append_right (by omega)] at h0
      exact minRoad_notMem _ _ (List.mem_of_getElem? h0)

/-! ## Random counts -/

theorem round_int (z : Int) : Pipeline.roundHalfEven (z : ℚ) = z := by
  unfold Pipeline.roundHalfEven
  rw [Int.floor_intCast]
  norm_num

theorem round_between {q : ℚ} {lo hi : Int} (h1 : (lo : ℚ) ≤ q) (h2 : q ≤ hi) :
    lo ≤ Pipeline.roundHalfEven q ∧ Pipeline.roundHalfEven q ≤ hi := by
  have hf : lo ≤ ⌊q⌋ := Int.le_floor.2 h1
  have hle : (⌊q⌋ : ℚ) ≤ q := Int.floor_le q
  by_cases hlt : ⌊q⌋ < hi
  · unfold Pipeline.roundHalfEven
    split
    · omega
    · split
      · omega
      · split <;> omega
  · have hq : ⌊q⌋ ≤ hi := by
      have : (⌊q⌋ : ℚ) ≤ hi := le_trans hle h2
      exact_mod_cast this
    have he : ⌊q⌋ = hi := by omega
    have : q = ⌊q⌋ := by
      apply le_antisymm _ hle
      rw [he]; exact h2
    rw [this, round_int]
    omega

theorem uniformInt_between {lo hi : Int} {u : ℚ} (hlh : lo ≤ hi) (h0 : 0 ≤ u) (h1 : u ≤ 1) :
    lo ≤ uniformInt lo hi u ∧ uniformInt lo hi u ≤ hi := by
  have hq : ((hi - lo : Int) : ℚ) ≥ 0 := by exact_mod_cast sub_nonneg.2 hlh
  push_cast at hq
  have b1 : (lo : ℚ) ≤ uniform lo hi u := by
    unfold uniform
    have := mul_nonneg hq h0
    linarith
  have b2 : uniform lo hi u ≤ (hi : ℚ) := by
    unfold uniform
    have := mul_le_mul_of_nonneg_left h1 hq
    linarith
  obtain ⟨r1, r2⟩ := round_between b1 b2
  have toInt_int : ∀ z : Int, Pipeline.toInt (z : ℚ) = z := by
    intro z
    unfold Pipeline.toInt
    split <;> simp
  have t1 : Pipeline.toInt ((lo : ℚ) - 100000) = lo - 100000 := by
    have := toInt_int (lo - 100000); push_cast at this; exact this
  have t2 : Pipeline.toInt ((hi : ℚ) + 100000) = hi + 100000 := by
    have := toInt_int (hi + 100000); push_cast at this; exact this
  unfold uniformInt
  rw [t1, t2]
  omega

theorem smallCounts_spec {d : Draw} (h : Possible d) : ∃ n, (smallCounts d).boreholes = [n] ∧ 4 ≤ n ∧ n ≤ 12 ∧
    1 ≤ (smallCounts d).pipeNodes ∧ (smallCounts d).pipeNodes ≤ 3 ∧ 2 ≤ (smallCounts d).pipeNet ∧ (smallCounts d).pipeNet ≤ 8 ∧
    1 ≤ (smallCounts d).masts ∧ (smallCounts d).masts ≤ 3 := by
  have a := uniformInt_between (lo := 4) (hi := 12) (by omega) h.boreholes.1 h.boreholes.2
  have b := uniformInt_between (lo := 1) (hi := 3) (by omega) h.pipeNodes.1 h.pipeNodes.2
  have c := uniformInt_between (lo := 2) (hi := 8) (by omega) h.pipeNet.1 h.pipeNet.2
  have e := uniformInt_between (lo := 1) (hi := 3) (by omega) h.masts.1 h.masts.2
  push_cast at a b c e
  refine ⟨_, rfl, ?_⟩
  unfold smallCounts
  dsimp only
  omega

theorem clusterCounts_spec {d : Draw} (h : Possible d) : ∃ n, (n ≤ 14 ∧ (clusterCounts d).boreholes = [n] ∨
      14 < n ∧ (clusterCounts d).boreholes = [14, n - 14]) ∧ 8 ≤ n ∧ n ≤ 28 ∧
    1 ≤ (clusterCounts d).pipeNodes ∧ (clusterCounts d).pipeNodes ≤ 5 ∧ 6 ≤ (clusterCounts d).pipeNet ∧
    (clusterCounts d).pipeNet ≤ 20 ∧ 2 ≤ (clusterCounts d).masts ∧ (clusterCounts d).masts ≤ 4 := by
  have a := uniformInt_between (lo := 8) (hi := 28) (by omega) h.boreholes.1 h.boreholes.2
  have b := uniformInt_between (lo := 1) (hi := 5) (by omega) h.pipeNodes.1 h.pipeNodes.2
  have c := uniformInt_between (lo := 6) (hi := 20) (by omega) h.pipeNet.1 h.pipeNet.2
  have e := uniformInt_between (lo := 2) (hi := 4) (by omega) h.masts.1 h.masts.2
  push_cast at a b c e
  refine ⟨(uniformInt 8 28 d.boreholes).toNat, ?_, ?_⟩
  · unfold clusterCounts MAX_BOREHOLES
    dsimp only
    by_cases hn : (uniformInt 8 28 d.boreholes).toNat ≤ 14
    · exact Or.inl ⟨hn, by rw [if_pos hn]⟩
    · exact Or.inr ⟨by omega, by rw [if_neg hn]⟩
  · unfold clusterCounts
    dsimp only
    omega

theorem clusterCounts_holes {d : Draw} (h : Possible d) :
    (clusterCounts d).boreholes ≠ [] ∧ ∀ n ∈ (clusterCounts d).boreholes, 0 < n := by
  obtain ⟨n, h1, h2, -⟩ := clusterCounts_spec h
  rcases h1 with ⟨h0, h1⟩ | ⟨h0, h1⟩ <;> rw [h1]
  · exact ⟨by simp, by intro m hm; rw [List.mem_singleton] at hm; omega⟩
  · refine ⟨by simp, ?_⟩
    intro m hm
    simp only [List.mem_cons, List.not_mem_nil, or_false] at hm
    omega

theorem groupsKinds_length : ∀ ns : List Nat, (groupsKinds ns).length = 3 * ns.length + ns.sum
  | [] => rfl
  | n :: ns => by
    unfold groupsKinds
    rw [List.length_append, List.length_append, groupsKinds_length ns, List.length_replicate, List.length_cons, List.sum_cons]
    show 3 + _ = _
    omega

/-- The number of works of a cluster without its roads. -/
theorem onRoadsKinds_length (c : Counts) (master : Bool) : (onRoadsKinds c master).length =
    12 + (if master then 1 else 0) + 2 * c.pipeNodes + c.pipeNet + c.masts + 3 * c.boreholes.length + c.boreholes.sum := by
  unfold onRoadsKinds generalKinds
  simp only [List.length_append, pipeKinds_length, groupsKinds_length, List.length_replicate, List.length_cons, List.length_nil]
  unfold powerKinds sharedKinds
  cases master <;> simp <;> omega

end Sampo.Synthetic
