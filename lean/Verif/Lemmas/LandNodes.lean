import Verif.Spec.LandNodes
import Mathlib.Data.List.Nodup
import Mathlib.Data.List.Induction

/-! Lemmas for C94. -/

namespace Sampo.LandNodes

/-- A road as it is listed at a node. -/
def view (v i : Nat) (l : Laid) : List Edge :=
  (if l.a = v then [⟨i, v, l.b, l.weight, l.bandwidth⟩] else []) ++ if l.b = v then [⟨i, v, l.a, l.weight, l.bandwidth⟩] else []

/-- All roads as they are listed at a node. -/
def seen (v : Nat) (log : List Laid) : List Edge := log.zipIdx.flatMap fun p => view v p.2 p.1

theorem seen_append (v : Nat) (log : List Laid) (x : Laid) : seen v (log ++ [x]) = seen v log ++ view v log.length x := by
  simp [seen, List.zipIdx_append]

theorem mem_seen {v : Nat} {log : List Laid} {e : Edge} : e ∈ seen v log ↔ ∃ l, log[e.id]? = some l ∧ e.start = v ∧ e.Shows l := by
  unfold seen
  rw [List.mem_flatMap]
  constructor
  · rintro ⟨⟨l, i⟩, hp, he⟩
    rw [List.mem_zipIdx_iff_getElem?] at hp
    dsimp only at hp he
    unfold view at he
    rcases List.mem_append.1 he with he | he
    · split at he
      · simp only [List.mem_singleton] at he; subst he
        rename_i h; subst h
        exact ⟨l, hp, rfl, Or.inl ⟨rfl, rfl⟩, rfl, rfl⟩
      · simp at he
    · split at he
      · simp only [List.mem_singleton] at he; subst he
        rename_i h; subst h
        exact ⟨l, hp, rfl, Or.inr ⟨rfl, rfl⟩, rfl, rfl⟩
      · simp at he
  · rintro ⟨l, hl, hs, h, hw, hb⟩
    refine ⟨(l, e.id), List.mem_zipIdx_iff_getElem?.2 hl, ?_⟩
    unfold view
    cases e
    dsimp only at *
    subst hs hw hb
    rcases h with ⟨rfl, rfl⟩ | ⟨rfl, rfl⟩
    · simp
    · simp

/-- What is known of the heap after roads `log`. -/
structure Good (log : List Laid) (h : Heap) : Prop where
  ids : h.ids = log.length
  inside : ∀ l ∈ log, l.a < h.nodes.length ∧ l.b < h.nodes.length
  roads : ∀ v n, h.nodes[v]? = some n → n.roads = seen v log

theorem seen_nil_of {log : List Laid} {v : Nat} (h : ∀ l ∈ log, l.a ≠ v ∧ l.b ≠ v) : seen v log = [] := by
  rw [List.eq_nil_iff_forall_not_mem]
  intro e he
  obtain ⟨l, hl, hs, hsh, -⟩ := mem_seen.1 he
  have := h l (List.mem_of_getElem? hl)
  rcases hsh with ⟨h1, h2⟩ | ⟨h1, h2⟩
  · exact this.1 (h1.symm.trans hs)
  · exact this.2 (h1.symm.trans hs)

theorem join_good {log : List Laid} {h h' : Heap} (hg : Good log h) {a : Nat} {x : Nat × Nat × Nat} (hj : h.join a x = some h') :
    Good (log ++ [⟨a, x.1, x.2.1, x.2.2⟩]) h' ∧ h'.nodes.length = h.nodes.length := by
  unfold Heap.join at hj
  split at hj
  · rename_i hlt
    simp only [Option.some.injEq] at hj
    subst hj
    have hlen : ((h.append a ⟨h.ids, a, x.1, x.2.1, x.2.2⟩).append x.1 ⟨h.ids, x.1, a, x.2.1, x.2.2⟩).nodes.length = h.nodes.length := by
      simp [Heap.append]
    refine ⟨⟨by simp [hg.ids], ?_, ?_⟩, hlen⟩
    · dsimp only; rw [hlen]
      intro l hl
      rcases List.mem_append.1 hl with hl | hl
      · exact hg.inside l hl
      · simp only [List.mem_singleton] at hl; subst hl; exact hlt
    · intro v n hn
      dsimp only [Heap.append] at hn
      rw [List.getElem?_modify, List.getElem?_modify] at hn
      cases hv : h.nodes[v]? with
      | none => rw [hv] at hn; simp at hn
      | some m =>
        rw [hv] at hn
        have hm := hg.roads v m hv
        rw [seen_append]
        unfold view
        dsimp only
        rw [← hg.ids, ← hm]
        by_cases h1 : a = v <;> by_cases h2 : x.1 = v
        · subst h1; simp [h2] at hn; subst hn; simp [h2]
        · subst h1; simp [h2] at hn; subst hn; simp [h2]
        · subst h2; simp [h1] at hn; subst hn; simp [h1]
        · simp [h1, h2] at hn; subst hn; simp [h1, h2]
  · simp at hj

theorem joins_good {a : Nat} : ∀ (ns : List (Nat × Nat × Nat)) {log : List Laid} {h h' : Heap}, Good log h →
    ns.foldlM (fun h x => h.join a x) h = some h' →
    Good (log ++ ns.map fun x => ⟨a, x.1, x.2.1, x.2.2⟩) h' ∧ h'.nodes.length = h.nodes.length
  | [], log, h, h', hg, hf => by
    simp at hf; subst hf; simpa using hg
  | x :: ns, log, h, h', hg, hf => by
    rw [List.foldlM_cons] at hf
    obtain ⟨h1, hj, hf⟩ := Option.bind_eq_some_iff.1 hf
    obtain ⟨g1, l1⟩ := join_good hg hj
    obtain ⟨g2, l2⟩ := joins_good ns g1 hf
    exact ⟨by simpa using g2, by rw [l2, l1]⟩

theorem laid_append (ops : List Op) (op : Op) : laid (ops ++ [op]) = laid ops ++ laid [op] := by simp [laid]

theorem step_good {ops : List Op} {h h' : Heap} (hg : Good (laid ops) h) {op : Op} (hs : step h op = some h') :
    Good (laid (ops ++ [op])) h' := by
  rw [laid_append]
  cases op with
  | create id ns works =>
    unfold step at hs; dsimp only at hs
    split at hs
    · simp only [Option.some.injEq] at hs; subst hs
      refine ⟨by simpa [laid] using hg.ids, ?_, ?_⟩
      · intro l hl
        have := hg.inside l (by simpa [laid] using hl)
        simp; omega
      · intro v n hn
        dsimp only at hn
        have e : laid ops ++ laid [Op.create id ns works] = laid ops := by simp [laid]
        rw [e]
        rcases Nat.lt_trichotomy v h.nodes.length with hv | hv | hv
        · rw [List.getElem?_append_left hv] at hn
          exact hg.roads v n hn
        · subst hv
          simp at hn; subst hn
          rw [seen_nil_of]
          intro l hl
          have := hg.inside l hl
          omega
        · rw [List.getElem?_eq_none (by simp; omega)] at hn; simp at hn
    · simp at hs
  | add a ns =>
    unfold step at hs; dsimp only at hs
    split at hs
    · have := (joins_good ns hg hs).1
      simpa [laid] using this
    · simp at hs
  | addWorks a ws =>
    unfold step at hs; dsimp only at hs
    split at hs
    · simp only [Option.some.injEq] at hs; subst hs
      refine ⟨by simpa [laid] using hg.ids, by simpa [laid] using hg.inside, ?_⟩
      intro v n hn
      have e : laid ops ++ laid [Op.addWorks a ws] = laid ops := by simp [laid]
      rw [e]
      dsimp only at hn
      rw [List.getElem?_modify, Option.map_eq_map, Option.map_eq_some_iff] at hn
      obtain ⟨m, hm, rfl⟩ := hn
      rw [← hg.roads v m hm]
      split <;> rfl
    · simp at hs
  | look a =>
    unfold step at hs; dsimp only at hs
    split at hs
    · simp only [Option.some.injEq] at hs; subst hs
      refine ⟨by simpa [laid] using hg.ids, by simpa [laid] using hg.inside, ?_⟩
      intro v n hn
      have e : laid ops ++ laid [Op.look a] = laid ops := by simp [laid]
      rw [e]
      dsimp only at hn
      rw [List.getElem?_modify, Option.map_eq_map, Option.map_eq_some_iff] at hn
      obtain ⟨m, hm, rfl⟩ := hn
      rw [← hg.roads v m hm]
      split <;> rfl
    · simp at hs

theorem run_append (ops : List Op) (op : Op) : run (ops ++ [op]) = (run ops).bind fun h => step h op := by
  unfold run
  rw [List.foldlM_append]
  simp only [List.foldlM_cons, List.foldlM_nil]
  cases ops.foldlM step ⟨[], 0⟩ <;> simp

theorem run_good {ops : List Op} : ∀ {h : Heap}, run ops = some h → Good (laid ops) h := by
  induction ops using List.reverseRecOn with
  | nil =>
    intro h hr
    simp [run] at hr; subst hr
    exact ⟨rfl, by simp [laid], by simp⟩
  | append_singleton ops op ih =>
    intro h hr
    rw [run_append] at hr
    obtain ⟨h0, h1, h2⟩ := Option.bind_eq_some_iff.1 hr
    exact step_good (ih h1) h2

/-! ## Dictionaries -/

section
variable {β : Type} [DecidableEq β]

theorem lastIndex_some {l : List β} {x : β} {i : Nat} (h : lastIndex l x = some i) : l[i]? = some x := by
  unfold lastIndex at h
  obtain ⟨p, hp, rfl⟩ := Option.map_eq_some_iff.1 h
  have := List.mem_of_getLast? hp
  obtain ⟨h1, h2⟩ := List.mem_filter.1 this
  rw [List.mem_zipIdx_iff_getElem?] at h1
  simp only [decide_eq_true_eq] at h2
  rw [h1, h2]

theorem lastIndex_isSome {l : List β} {x : β} (h : x ∈ l) : ∃ i, lastIndex l x = some i := by
  obtain ⟨i, hi⟩ := List.mem_iff_getElem?.1 h
  unfold lastIndex
  have hm : (x, i) ∈ l.zipIdx.filter fun p => p.1 = x := by
    rw [List.mem_filter]; exact ⟨List.mem_zipIdx_iff_getElem?.2 hi, by simp⟩
  cases hl : (l.zipIdx.filter fun p => p.1 = x).getLast? with
  | none => rw [List.getLast?_eq_none_iff] at hl; rw [hl] at hm; simp at hm
  | some p => exact ⟨p.2, rfl⟩

theorem lastIndex_none {l : List β} {x : β} (h : x ∉ l) : lastIndex l x = none := by
  cases hl : lastIndex l x with
  | none => rfl
  | some i => exact absurd (List.mem_of_getElem? (lastIndex_some hl)) h

theorem lastIndex_nodup {l : List β} (hn : l.Nodup) {x : β} {i : Nat} : lastIndex l x = some i ↔ l[i]? = some x := by
  refine ⟨lastIndex_some, fun h => ?_⟩
  obtain ⟨j, hj⟩ := lastIndex_isSome (List.mem_of_getElem? h)
  have h' := lastIndex_some hj
  obtain ⟨hi, e1⟩ := List.getElem?_eq_some_iff.1 h
  obtain ⟨hj', e2⟩ := List.getElem?_eq_some_iff.1 h'
  rw [hj, (List.Nodup.getElem_inj_iff hn).1 (e2.trans e1.symm)]

theorem lastIndex_last (l : List β) (x : β) : lastIndex (l ++ [x]) x = some l.length := by
  unfold lastIndex
  rw [List.zipIdx_append, List.filter_append]
  simp

theorem keysOf_append (l : List β) (x : β) : keysOf (l ++ [x]) = if x ∈ keysOf l then keysOf l else keysOf l ++ [x] := by
  unfold keysOf
  rw [List.foldl_append]
  rfl

theorem mem_keysOf {l : List β} {x : β} : x ∈ keysOf l ↔ x ∈ l := by
  induction l using List.reverseRecOn with
  | nil => simp [keysOf]
  | append_singleton l y ih =>
    rw [keysOf_append]
    split
    · rename_i hy
      rw [ih, List.mem_append]
      constructor
      · exact Or.inl
      · rintro (h | h)
        · exact h
        · simp at h; subst h; exact ih.1 hy
    · simp [ih]

theorem keysOf_length (l : List β) : (keysOf l).length ≤ l.length ∧ ((keysOf l).length = l.length → l.Nodup) := by
  induction l using List.reverseRecOn with
  | nil => simp [keysOf]
  | append_singleton l y ih =>
    rw [keysOf_append]
    split
    · simp; omega
    · rename_i hy
      refine ⟨by simp; omega, fun h => ?_⟩
      have := ih.2 (by simpa using h)
      rw [List.nodup_append]
      refine ⟨this, by simp, ?_⟩
      intro a ha b hb
      simp at hb; subst hb
      rintro rfl
      exact hy (mem_keysOf.2 ha)

theorem keysOf_nodup {l : List β} (hn : l.Nodup) : keysOf l = l := by
  induction l using List.reverseRecOn with
  | nil => simp [keysOf]
  | append_singleton l y ih =>
    rw [List.nodup_append] at hn
    rw [keysOf_append, ih hn.1, if_neg]
    intro hy
    exact hn.2.2 y hy y (by simp) rfl

end

/-! ## The matrix -/

theorem fillRow_cons {nodes : List Nat} {size i : Nat} {e : Edge} {es : List Edge} {m : Matrix} :
    fillRow nodes size i (e :: es) m =
      ((lastIndex nodes e.finish).bind fun j => m.write size i j e.weight).bind (fillRow nodes size i es) := rfl

/-- The last length written to an entry. -/
def written (nodes : List Nat) (j : Nat) (roads : List Edge) (old : Option Nat) : Option Nat :=
  roads.foldl (fun r e => if lastIndex nodes e.finish = some j then some e.weight else r) old

theorem fillRow_spec {nodes : List Nat} {size i : Nat} : ∀ {roads : List Edge} {m m' : Matrix}, fillRow nodes size i roads m = some m' →
    (∀ e ∈ roads, i < size ∧ e.finish ∈ nodes) ∧ ∀ k j, m' k j = if k = i then written nodes j roads (m i j) else m k j
  | [], m, m', h => by
    simp [fillRow] at h; subst h
    refine ⟨by simp, fun k j => ?_⟩
    split
    · subst_vars; rfl
    · rfl
  | e :: es, m, m', h => by
    rw [fillRow_cons] at h
    obtain ⟨m1, h1, h2⟩ := Option.bind_eq_some_iff.1 h
    obtain ⟨c, hc, hw⟩ := Option.bind_eq_some_iff.1 h1
    unfold Matrix.write at hw
    split at hw
    · rename_i hlt
      simp only [Option.some.injEq] at hw; subst hw
      obtain ⟨g1, g2⟩ := fillRow_spec h2
      refine ⟨?_, ?_⟩
      · intro x hx
        rcases List.mem_cons.1 hx with rfl | hx
        · exact ⟨hlt.1, List.mem_of_getElem? (lastIndex_some hc)⟩
        · exact g1 x hx
      · intro k j
        rw [g2 k j]
        split
        · unfold written
          rw [List.foldl_cons, Function.update_self]
          congr 1
          by_cases hj : j = c
          · subst hj; rw [Function.update_self, if_pos hc]
          · rw [Function.update_of_ne hj, if_neg]
            rw [hc]; simpa using fun e => hj e.symm
        · rename_i hk
          rw [Function.update_of_ne hk]
    · simp at hw

theorem fillRow_ok {nodes : List Nat} {size i : Nat} (hi : i < size) (hb : ∀ x j, lastIndex nodes x = some j → j < size) :
    ∀ {roads : List Edge} (m : Matrix), (∀ e ∈ roads, e.finish ∈ nodes) → ∃ m', fillRow nodes size i roads m = some m'
  | [], m, _ => ⟨m, rfl⟩
  | e :: es, m, h => by
    obtain ⟨j, hj⟩ := lastIndex_isSome (h e (by simp))
    rw [fillRow_cons, hj, Option.bind_some]
    unfold Matrix.write
    rw [if_pos ⟨hi, hb _ _ hj⟩, Option.bind_some]
    exact fillRow_ok hi hb _ fun x hx => h x (by simp [hx])

/-- The body of the loop over nodes. -/
def fillNode (h : Heap) (nodes : List Nat) (size : Nat) (m : Matrix) (v : Nat) : Option Matrix :=
  (lastIndex nodes v).bind fun i => (h.nodes[v]?).bind fun n => n.roads?.bind fun rs => fillRow nodes size i rs m

theorem toAdj_eq (h : Heap) (nodes : List Nat) :
    toAdj h nodes = (keysOf nodes).foldlM (fillNode h nodes (keysOf nodes).length) fun _ _ => none := rfl

theorem fillNode_some {h : Heap} {nodes : List Nat} {size v : Nat} {m m' : Matrix} (hf : fillNode h nodes size m v = some m') :
    ∃ i n, lastIndex nodes v = some i ∧ h.nodes[v]? = some n ∧ n.roads ≠ [] ∧ fillRow nodes size i n.roads m = some m' := by
  unfold fillNode at hf
  obtain ⟨i, hi, hf⟩ := Option.bind_eq_some_iff.1 hf
  obtain ⟨n, hn, hf⟩ := Option.bind_eq_some_iff.1 hf
  obtain ⟨rs, hrs, hf⟩ := Option.bind_eq_some_iff.1 hf
  unfold Node.roads? at hrs
  split at hrs
  · simp at hrs
  · simp only [Option.some.injEq] at hrs; subst hrs
    exact ⟨i, n, hi, hn, by assumption, hf⟩

theorem fillNodes_spec {h : Heap} {nodes : List Nat} {size : Nat} : ∀ {ks : List Nat} {m m' : Matrix}, ks.Nodup →
    ks.foldlM (fillNode h nodes size) m = some m' →
    (∀ v ∈ ks, ∃ i n, lastIndex nodes v = some i ∧ h.nodes[v]? = some n ∧ n.roads ≠ [] ∧ i < size ∧ (∀ e ∈ n.roads, e.finish ∈ nodes) ∧
      ∀ j, m' i j = written nodes j n.roads (m i j)) ∧
    ∀ k, (∀ v ∈ ks, lastIndex nodes v ≠ some k) → m' k = m k
  | [], m, m', _, hf => by
    simp at hf; subst hf; simp
  | v :: ks, m, m', hn, hf => by
    rw [List.foldlM_cons] at hf
    obtain ⟨m1, h1, h2⟩ := Option.bind_eq_some_iff.1 hf
    rw [List.nodup_cons] at hn
    obtain ⟨i, n, hi, hv, hne, hr⟩ := fillNode_some h1
    obtain ⟨g1, g2⟩ := fillRow_spec hr
    obtain ⟨g3, g4⟩ := fillNodes_spec hn.2 h2
    have hother : ∀ u ∈ ks, lastIndex nodes u ≠ some i := by
      intro u hu hui
      have e1 := lastIndex_some hui
      have e2 := lastIndex_some hi
      rw [e1] at e2
      simp at e2; subst e2
      exact hn.1 hu
    refine ⟨?_, ?_⟩
    · intro u hu
      rcases List.mem_cons.1 hu with rfl | hu
      · obtain ⟨e0, he0⟩ := List.exists_mem_of_ne_nil _ hne
        refine ⟨i, n, hi, hv, hne, (g1 e0 he0).1, fun e he => (g1 e he).2, fun j => ?_⟩
        rw [g4 i hother, g2 i j, if_pos rfl]
      · obtain ⟨i', n', a1, a2, a3, a4, a5, a6⟩ := g3 u hu
        refine ⟨i', n', a1, a2, a3, a4, a5, fun j => ?_⟩
        rw [a6 j, g2 i' j, if_neg]
        rintro rfl
        exact hother u hu a1
    · intro k hk
      rw [g4 k fun u hu => hk u (by simp [hu])]
      funext j
      rw [g2 k j, if_neg]
      rintro rfl
      exact hk v (by simp) hi

theorem fillNodes_ok {h : Heap} {nodes : List Nat} {size : Nat} (hb : ∀ x j, lastIndex nodes x = some j → j < size) :
    ∀ {ks : List Nat} (m : Matrix), (∀ v ∈ ks, v ∈ nodes ∧ ∃ n, h.nodes[v]? = some n ∧ n.roads ≠ [] ∧ ∀ e ∈ n.roads, e.finish ∈ nodes) →
    ∃ m', ks.foldlM (fillNode h nodes size) m = some m'
  | [], m, _ => ⟨m, rfl⟩
  | v :: ks, m, hk => by
    obtain ⟨hv, n, hn, hne, hfin⟩ := hk v (by simp)
    obtain ⟨i, hi⟩ := lastIndex_isSome hv
    obtain ⟨m1, h1⟩ := fillRow_ok (hb _ _ hi) hb m hfin
    have : fillNode h nodes size m v = some m1 := by
      unfold fillNode Node.roads?
      rw [hi, Option.bind_some, hn, Option.bind_some, if_neg hne]
      exact h1
    obtain ⟨m2, h2⟩ := fillNodes_ok hb (ks := ks) m1 fun u hu => hk u (by simp [hu])
    exact ⟨m2, by rw [List.foldlM_cons, this]; exact h2⟩

theorem keysOf_nodup_always {β : Type} [DecidableEq β] (l : List β) : (keysOf l).Nodup := by
  induction l using List.reverseRecOn with
  | nil => simp [keysOf]
  | append_singleton l y ih =>
    rw [keysOf_append]
    split
    · exact ih
    · rename_i hy
      rw [List.nodup_append]
      refine ⟨ih, by simp, ?_⟩
      intro a ha b hb
      simp at hb; subst hb
      rintro rfl
      exact hy ha

theorem lastLength_append (log : List Laid) (x : Laid) (u v : Nat) :
    lastLength (log ++ [x]) u v = if x.Joins u v then some x.weight else lastLength log u v := by
  unfold lastLength
  rw [List.reverse_append, List.reverse_singleton, List.singleton_append, List.find?_cons]
  split <;> simp_all

theorem written_seen {nodes : List Nat} (hn : nodes.Nodup) {i : Nat} {v : Nat} (hi : nodes[i]? = some v) (u : Nat) (log : List Laid) :
    written nodes i (seen u log) none = lastLength log u v := by
  have key : ∀ x, lastIndex nodes x = some i ↔ x = v := by
    intro x
    rw [lastIndex_nodup hn, hi]
    simp [eq_comm]
  unfold written
  simp only [key]
  induction log using List.reverseRecOn with
  | nil => simp [seen, lastLength]
  | append_singleton log x ih =>
    rw [seen_append, List.foldl_append, ih, lastLength_append]
    unfold view Laid.Joins
    by_cases h1 : x.a = u <;> by_cases h2 : x.b = u <;> by_cases h3 : x.a = v <;> by_cases h4 : x.b = v <;>
      simp [h1, h2, h3, h4] <;> simp_all

/-! ## The list of roads -/

theorem noteRoads_spec : ∀ (roads found : List Edge), (found.map Edge.id).Nodup →
    ((noteRoads found roads).map Edge.id).Nodup ∧ (∀ e ∈ noteRoads found roads, e ∈ found ∨ e ∈ roads) ∧
    (∀ e, e ∈ found → e ∈ noteRoads found roads) ∧ ∀ e ∈ roads, e.id ∈ (noteRoads found roads).map Edge.id
  | [], found, h => by simp [noteRoads, h]
  | e :: es, found, h => by
    have hstep : noteRoads found (e :: es) = noteRoads (if e.id ∈ found.map Edge.id then found else found ++ [e]) es := rfl
    rw [hstep]
    by_cases he : e.id ∈ found.map Edge.id
    · rw [if_pos he]
      obtain ⟨h1, h2, h3, h4⟩ := noteRoads_spec es found h
      refine ⟨h1, fun x hx => (h2 x hx).imp id (by simp +contextual), h3, ?_⟩
      intro x hx
      rcases List.mem_cons.1 hx with rfl | hx
      · obtain ⟨y, hy, hyx⟩ := List.mem_map.1 he
        exact List.mem_map.2 ⟨y, h3 y hy, hyx⟩
      · exact h4 x hx
    · rw [if_neg he]
      obtain ⟨h1, h2, h3, h4⟩ := noteRoads_spec es (found ++ [e]) (by
        rw [List.map_append, List.nodup_append]
        refine ⟨h, by simp, ?_⟩
        intro a ha b hb
        simp at hb; subst hb
        rintro rfl; exact he ha)
      refine ⟨h1, ?_, fun x hx => h3 x (by simp [hx]), ?_⟩
      · intro x hx
        rcases h2 x hx with hx | hx
        · rcases List.mem_append.1 hx with hx | hx
          · exact Or.inl hx
          · right; simp at hx; simp [hx]
        · right; simp [hx]
      · intro x hx
        rcases List.mem_cons.1 hx with rfl | hx
        · exact List.mem_map.2 ⟨x, h3 x (by simp), rfl⟩
        · exact h4 x hx

theorem edges_spec {h : Heap} : ∀ (nodes : List Nat) (found : List Edge), (found.map Edge.id).Nodup →
    (∀ v ∈ nodes, ∃ n, h.nodes[v]? = some n ∧ n.roads ≠ []) →
    ∃ es, nodes.foldlM (fun found v => (h.nodes[v]?).bind fun n => n.roads?.map (noteRoads found)) found = some es ∧
      (es.map Edge.id).Nodup ∧ (∀ e ∈ es, e ∈ found ∨ ∃ v ∈ nodes, ∃ n, h.nodes[v]? = some n ∧ e ∈ n.roads) ∧
      (∀ e ∈ found, e ∈ es) ∧ ∀ v ∈ nodes, ∀ n, h.nodes[v]? = some n → ∀ e ∈ n.roads, e.id ∈ es.map Edge.id
  | [], found, h, _ => ⟨found, rfl, h, fun e he => Or.inl he, fun e he => he, by simp⟩
  | v :: nodes, found, hn, hr => by
    obtain ⟨n, hv, hne⟩ := hr v (by simp)
    obtain ⟨a1, a2, a3, a4⟩ := noteRoads_spec n.roads found hn
    obtain ⟨es, b0, b1, b2, b3, b4⟩ := edges_spec nodes _ a1 fun u hu => hr u (by simp [hu])
    refine ⟨es, ?_, b1, ?_, fun e he => b3 e (a3 e he), ?_⟩
    · rw [List.foldlM_cons, hv, Option.bind_some]
      unfold Node.roads?
      rw [if_neg hne]
      exact b0
    · intro e he
      rcases b2 e he with he | ⟨u, hu, m, hm, hem⟩
      · exact (a2 e he).imp id fun he => ⟨v, by simp, n, hv, he⟩
      · exact Or.inr ⟨u, by simp [hu], m, hm, hem⟩
    · intro u hu m hm e he
      rcases List.mem_cons.1 hu with rfl | hu
      · rw [hv] at hm; simp at hm; subst hm
        obtain ⟨y, hy, hye⟩ := List.mem_map.1 (a4 e he)
        exact List.mem_map.2 ⟨y, b3 y hy, hye⟩
      · exact b4 u hu m hm e he

end Sampo.LandNodes
