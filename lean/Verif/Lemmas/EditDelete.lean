import Verif.Lemmas.Edit

namespace Sampo.Graph

variable {g : Graph} {nodes : List Nat} {start r : Nat}

/-! ### Removing edges while iterating -/

theorem filter_erase_of {m : Edge → Bool} {e : Edge} (he : m e = true) (l : List Edge) :
    (l.erase e).filter (fun x => !m x) = l.filter fun x => !m x := by
  induction l with
  | nil => rfl
  | cons a l ih =>
    by_cases h : a = e
    · subst h; rw [List.erase_cons_head, List.filter_cons_of_neg (by simp [he])]
    · rw [List.erase_cons_tail (by simpa using h), List.filter_cons, List.filter_cons, ih]

theorem removePass_filter (m : Edge → Bool) : ∀ (fuel i : Nat) (l : List Edge),
    (removePass m fuel i l).filter (fun x => !m x) = l.filter fun x => !m x
  | 0, _, _ => rfl
  | fuel + 1, i, l => by
    rw [removePass]
    cases h : l[i]? with
    | none => rfl
    | some e =>
      dsimp only
      rw [removePass_filter m fuel]
      by_cases hm : m e = true
      · rw [if_pos hm]; exact filter_erase_of hm l
      · rw [if_neg hm]

theorem countP_erase_of {m : Edge → Bool} {e : Edge} (he : m e = true) {l : List Edge} (hl : e ∈ l) :
    (l.erase e).countP m + 1 = l.countP m := by
  have h := (List.perm_cons_erase hl).countP_eq m
  rw [List.countP_cons_of_pos he] at h
  exact h.symm

theorem removePass_le (m : Edge → Bool) : ∀ (fuel i : Nat) (l : List Edge), (removePass m fuel i l).countP m ≤ l.countP m
  | 0, _, _ => le_refl _
  | fuel + 1, i, l => by
    rw [removePass]
    cases h : l[i]? with
    | none => exact le_refl _
    | some e =>
      dsimp only
      refine (removePass_le m fuel _ _).trans ?_
      by_cases hm : m e = true
      · rw [if_pos hm]
        have := countP_erase_of hm (List.mem_of_getElem? h)
        omega
      · rw [if_neg hm]

theorem removePass_lt (m : Edge → Bool) : ∀ (fuel i : Nat) (l : List Edge), l.length ≤ fuel + i →
    (∃ j e, i ≤ j ∧ l[j]? = some e ∧ m e = true) → (removePass m fuel i l).countP m + 1 ≤ l.countP m
  | 0, i, l, hlen, ⟨j, e, hij, hj, _⟩ => by
    have := (List.getElem?_eq_some_iff.mp hj).1
    omega
  | fuel + 1, i, l, hlen, ⟨j, e, hij, hj, hm⟩ => by
    rw [removePass]
    cases h : l[i]? with
    | none =>
      have h1 := (List.getElem?_eq_some_iff.mp hj).1
      have h2 := List.getElem?_eq_none_iff.mp h
      omega
    | some x =>
      dsimp only
      by_cases hx : m x = true
      · rw [if_pos hx]
        have h1 := removePass_le m fuel (i + 1) (l.erase x)
        have h2 := countP_erase_of hx (List.mem_of_getElem? h)
        omega
      · rw [if_neg hx]
        refine removePass_lt m fuel (i + 1) l (by omega) ⟨j, e, ?_, hj, hm⟩
        have : i ≠ j := by
          rintro rfl
          rw [h] at hj
          cases hj
          exact hx hm
        omega

/-- One pass over a list of edges. -/
def passOver (m : Edge → Bool) (l : List Edge) : List Edge := removePass m l.length 0 l

theorem passOver_countP (m : Edge → Bool) (l : List Edge) : (passOver m l).countP m ≤ l.countP m - 1 := by
  by_cases h : ∃ e ∈ l, m e = true
  · obtain ⟨e, he, hm⟩ := h
    obtain ⟨j, hj, hje⟩ := List.getElem_of_mem he
    have := removePass_lt m l.length 0 l (by omega) ⟨j, e, by omega, by rw [List.getElem?_eq_getElem hj, hje], hm⟩
    unfold passOver
    omega
  · have h0 : l.countP m = 0 := by
      rw [List.countP_eq_zero]
      intro e he hm
      exact h ⟨e, he, hm⟩
    have := removePass_le m l.length 0 l
    unfold passOver
    omega

theorem passOver_filter (m : Edge → Bool) (l : List Edge) : (passOver m l).filter (fun x => !m x) = l.filter fun x => !m x :=
  removePass_filter m _ _ _

theorem passes_eq (m : Edge → Bool) : ∀ (k : Nat) (l : List Edge), l.countP m ≤ k →
    (passOver m)^[k] l = l.filter fun x => !m x
  | 0, l, h => by
    rw [Function.iterate_zero_apply]
    refine (List.filter_eq_self.2 fun e he => ?_).symm
    have := List.countP_eq_zero.mp (Nat.le_zero.mp h) e he
    simpa using this
  | k + 1, l, h => by
    rw [Function.iterate_succ_apply, passes_eq m k, passOver_filter]
    have := passOver_countP m l
    omega

theorem foldl_dropFrom (r : Nat) : ∀ (ps : List Nat) (g : Graph), (ps.foldl (dropFrom r) g).edgesTo = g.edgesTo ∧
    ∀ v, (ps.foldl (dropFrom r) g).edgesFrom v = (passOver fun e => e.finish = r)^[ps.count v] (g.edgesFrom v)
  | [], g => ⟨rfl, fun _ => rfl⟩
  | p :: ps, g => by
    obtain ⟨h1, h2⟩ := foldl_dropFrom r ps (dropFrom r g p)
    rw [List.foldl_cons]
    refine ⟨h1, fun v => ?_⟩
    rw [h2]
    by_cases h : p = v
    · subst h
      rw [List.count_cons_self, Function.iterate_succ_apply]
      simp [dropFrom, passOver]
    · rw [List.count_cons_of_ne (by simpa using h)]
      simp [dropFrom, Function.update_of_ne (Ne.symm h)]

theorem foldl_dropTo (r : Nat) : ∀ (cs : List Nat) (g : Graph), (cs.foldl (dropTo r) g).edgesFrom = g.edgesFrom ∧
    ∀ v, (cs.foldl (dropTo r) g).edgesTo v = (passOver fun e => e.start = r)^[cs.count v] (g.edgesTo v)
  | [], g => ⟨rfl, fun _ => rfl⟩
  | p :: cs, g => by
    obtain ⟨h1, h2⟩ := foldl_dropTo r cs (dropTo r g p)
    rw [List.foldl_cons]
    refine ⟨h1, fun v => ?_⟩
    rw [h2]
    by_cases h : p = v
    · subst h
      rw [List.count_cons_self, Function.iterate_succ_apply]
      simp [dropTo, passOver]
    · rw [List.count_cons_of_ne (by simpa using h)]
      simp [dropTo, Function.update_of_ne (Ne.symm h)]

/-! ### Deletion of one work -/

/-- The new edges. -/
def bridges (g : Graph) (r : Nat) : List Edge :=
  (g.children r).flatMap fun c => (g.parents r).map fun p => ⟨p, c, 0, .finishStart⟩

theorem mem_bridges {e : Edge} : e ∈ g.bridges r ↔
    e.start ∈ g.parents r ∧ e.finish ∈ g.children r ∧ e.lag = 0 ∧ e.type = .finishStart := by
  unfold bridges
  simp only [List.mem_flatMap, List.mem_map]
  constructor
  · rintro ⟨c, hc, p, hp, rfl⟩; exact ⟨hp, hc, rfl, rfl⟩
  · rintro ⟨hp, hc, hl, ht⟩
    obtain ⟨s, f, l, t⟩ := e
    dsimp only at hp hc hl ht
    subst hl ht
    exact ⟨f, hc, s, hp, rfl⟩

theorem foldl_bridges (ps : List Nat) : ∀ (cs : List Nat) (g : Graph),
    cs.foldl (fun g c => g.addParents c (ps.map fun p => (p, 0, .finishStart))) g =
      (cs.flatMap fun c => ps.map fun p => (⟨p, c, 0, .finishStart⟩ : Edge)).foldl addEdge g
  | [], _ => rfl
  | c :: cs, g => by
    rw [List.foldl_cons, foldl_bridges ps cs, List.flatMap_cons, List.foldl_append]
    congr 1
    unfold addParents
    rw [List.foldl_map, List.foldl_map]

theorem deleteNode_eq (g : Graph) (r : Nat) : g.deleteNode r =
    (g.bridges r).foldl addEdge ((g.children r).foldl (dropTo r) ((g.parents r).foldl (dropFrom r) g)) := by
  unfold deleteNode
  exact foldl_bridges _ _ _

theorem count_between (hl : (g.only nodes).Linked) {u v : Nat} (hu : u ∈ nodes) (hv : v ∈ nodes) :
    (g.edgesTo v).countP (fun e => e.start = u) = (g.edgesFrom u).countP fun e => e.finish = v := by
  rw [List.countP_eq_length_filter, List.countP_eq_length_filter]
  refine List.Perm.length_eq (List.perm_iff_count.mpr fun e => ?_)
  have h1 : (g.only nodes).edgesTo v = g.edgesTo v := if_pos hv
  have h2 : (g.only nodes).edgesFrom u = g.edgesFrom u := if_pos hu
  by_cases he : e.start = u ∧ e.finish = v
  · rw [List.count_filter (by simpa using he.1), List.count_filter (by simpa using he.2), ← h1, ← h2, ← he.1, ← he.2]
    exact hl.count e
  · rw [List.count_eq_zero.mpr, List.count_eq_zero.mpr]
    · intro h
      obtain ⟨h3, h4⟩ := List.mem_filter.mp h
      exact he ⟨hl.start u e (h2 ▸ h3), by simpa using h4⟩
    · intro h
      obtain ⟨h3, h4⟩ := List.mem_filter.mp h
      exact he ⟨by simpa using h4, hl.finish v e (h1 ▸ h3)⟩

theorem count_parents (hd : ∀ e ∈ g.edgesTo r, e.type.isDependency) (v : Nat) :
    (g.parents r).count v = (g.edgesTo r).countP fun e => e.start = v := by
  unfold parents
  rw [List.filter_eq_self.2 hd, List.count, List.countP_map]
  rfl

theorem count_children (hd : ∀ e ∈ g.edgesFrom r, e.type.isDependency) (v : Nat) :
    (g.children r).count v = (g.edgesFrom r).countP fun e => e.finish = v := by
  unfold children
  rw [List.filter_eq_self.2 hd, List.count, List.countP_map]
  rfl

theorem deleteNode_from (hl : (g.only nodes).Linked) (hr : r ∈ nodes) (hd : g.OnlyDependencies r) {v : Nat} (hv : v ∈ nodes) :
    (g.deleteNode r).edgesFrom v =
      ((g.edgesFrom v).filter fun e => e.finish ≠ r) ++ (g.bridges r).filter fun e => e.start = v := by
  rw [deleteNode_eq, (foldl_addEdge _ _).2, (foldl_dropTo _ _ _).1, (foldl_dropFrom _ _ _).2, passes_eq]
  · congr 1
    exact List.filter_congr fun e _ => by simp
  · rw [count_parents hd.1, count_between hl hv hr]

theorem deleteNode_to (hl : (g.only nodes).Linked) (hr : r ∈ nodes) (hd : g.OnlyDependencies r) {v : Nat} (hv : v ∈ nodes) :
    (g.deleteNode r).edgesTo v =
      ((g.edgesTo v).filter fun e => e.start ≠ r) ++ (g.bridges r).filter fun e => e.finish = v := by
  rw [deleteNode_eq, (foldl_addEdge _ _).1, (foldl_dropTo _ _ _).2, (foldl_dropFrom _ _ _).1, passes_eq]
  · congr 1
    exact List.filter_congr fun e _ => by simp
  · rw [count_children hd.2, count_between hl hr hv]

theorem only_to {v : Nat} (hv : v ∈ nodes) : (g.only nodes).edgesTo v = g.edgesTo v := if_pos hv
theorem only_from {v : Nat} (hv : v ∈ nodes) : (g.only nodes).edgesFrom v = g.edgesFrom v := if_pos hv

theorem only_before {p v : Nat} : (g.only nodes).Before p v ↔ v ∈ nodes ∧ g.Before p v := by
  constructor
  · rintro ⟨e, he, rfl⟩
    by_cases hv : v ∈ nodes
    · rw [only_to hv] at he; exact ⟨hv, e, he, rfl⟩
    · rw [show (g.only nodes).edgesTo v = [] from if_neg hv] at he; cases he
  · rintro ⟨hv, e, he, rfl⟩
    exact ⟨e, by rw [only_to hv]; exact he, rfl⟩

namespace ProjectOf

variable (hp : g.ProjectOf start nodes)
include hp

theorem start_of_to {v : Nat} (hv : v ∈ nodes) {e : Edge} (he : e ∈ g.edgesTo v) : e.finish = v ∧ e.start ∈ nodes :=
  have he' : e ∈ (g.only nodes).edgesTo v := by rw [only_to hv]; exact he
  ⟨hp.linked.finish v e he', (hp.closed v hv).1 e he'⟩

theorem finish_of_from {v : Nat} (hv : v ∈ nodes) {e : Edge} (he : e ∈ g.edgesFrom v) : e.start = v ∧ e.finish ∈ nodes :=
  have he' : e ∈ (g.only nodes).edgesFrom v := by rw [only_from hv]; exact he
  ⟨hp.linked.start v e he', (hp.closed v hv).2 e he'⟩

theorem no_loop {v : Nat} (hv : v ∈ nodes) : ¬ g.Before v v := fun h =>
  hp.acyclic v hv (Relation.TransGen.single (only_before.mpr ⟨hv, h⟩))

theorem mem_parents (hr : r ∈ nodes) {p : Nat} (h : p ∈ g.parents r) : p ∈ nodes ∧ p ≠ r ∧ g.Before p r := by
  obtain ⟨e, he, rfl⟩ := List.mem_map.mp h
  have he' := (List.mem_filter.mp he).1
  have hb : g.Before e.start r := ⟨e, he', rfl⟩
  exact ⟨(hp.start_of_to hr he').2, fun h => hp.no_loop hr (h ▸ hb), hb⟩

theorem mem_children (hr : r ∈ nodes) {c : Nat} (h : c ∈ g.children r) : c ∈ nodes ∧ c ≠ r ∧ g.Before r c := by
  obtain ⟨e, he, rfl⟩ := List.mem_map.mp h
  have he' := (List.mem_filter.mp he).1
  have hf := hp.finish_of_from hr he'
  have hb : g.Before r e.finish := by
    have h2 : e ∈ (g.only nodes).edgesFrom e.start := by rw [hf.1, only_from hr]; exact he'
    have := (hp.linked.both e).mpr h2
    rw [only_to hf.2] at this
    exact ⟨e, this, hf.1⟩
  exact ⟨hf.2, fun h => hp.no_loop hr (by rw [h] at hb; exact hb), hb⟩

theorem children_of (hr : r ∈ nodes) (hd : g.OnlyDependencies r) {c : Nat} (hc : c ∈ nodes) (h : g.Before r c) :
    c ∈ g.children r := by
  obtain ⟨e, he, rfl⟩ := h
  have h1 := hp.start_of_to hc he
  have h2 : e ∈ (g.only nodes).edgesFrom e.start := (hp.linked.both e).mp (by rw [h1.1, only_to hc]; exact he)
  rw [only_from hr] at h2
  exact List.mem_map.mpr ⟨e, List.mem_filter.mpr ⟨h2, hd.2 e h2⟩, h1.1⟩

theorem parents_of (hd : g.OnlyDependencies r) {p : Nat} (h : g.Before p r) : p ∈ g.parents r := by
  obtain ⟨e, he, rfl⟩ := h
  exact List.mem_map_of_mem (List.mem_filter.mpr ⟨he, hd.1 e he⟩)

theorem delete_before (hr : r ∈ nodes) (hd : g.OnlyDependencies r) {p v : Nat} (hv : v ∈ nodes) (hne : v ≠ r) :
    (g.deleteNode r).Before p v ↔ p ≠ r ∧ (g.Before p v ∨ g.Before p r ∧ g.Before r v) := by
  constructor
  · rintro ⟨e, he, rfl⟩
    rw [deleteNode_to hp.linked hr hd hv] at he
    rcases List.mem_append.mp he with he | he
    · obtain ⟨h1, h2⟩ := List.mem_filter.mp he
      exact ⟨by simpa using h2, Or.inl ⟨e, h1, rfl⟩⟩
    · obtain ⟨h1, h2⟩ := List.mem_filter.mp he
      obtain ⟨h3, h4, _⟩ := mem_bridges.mp h1
      have h5 := hp.mem_parents hr h3
      have h6 := hp.mem_children hr h4
      rw [show e.finish = v by simpa using h2] at h6
      exact ⟨h5.2.1, Or.inr ⟨h5.2.2, h6.2.2⟩⟩
  · rintro ⟨hpr, h | ⟨h1, h2⟩⟩
    · obtain ⟨e, he, rfl⟩ := h
      refine ⟨e, ?_, rfl⟩
      rw [deleteNode_to hp.linked hr hd hv]
      exact List.mem_append_left _ (List.mem_filter.mpr ⟨he, by simpa using hpr⟩)
    · refine ⟨⟨p, v, 0, .finishStart⟩, ?_, rfl⟩
      rw [deleteNode_to hp.linked hr hd hv]
      exact List.mem_append_right _ (List.mem_filter.mpr
        ⟨mem_bridges.mpr ⟨hp.parents_of hd h1, hp.children_of hr hd hv h2, rfl, rfl⟩, by simp⟩)

/-- Reachability between remaining works is the same. -/
theorem delete_reaches (hr : r ∈ nodes) (hd : g.OnlyDependencies r) {u v : Nat} (hur : u ≠ r)
    (hvr : v ≠ r) : ((g.deleteNode r).only (nodes.erase r)).Reaches u v ↔ (g.only nodes).Reaches u v := by
  have hn := hp.once
  have hmem : ∀ {x : Nat}, x ∈ nodes.erase r ↔ x ≠ r ∧ x ∈ nodes := fun {x} => hn.mem_erase_iff
  constructor
  · intro h
    clear hvr
    induction h with
    | refl => exact Relation.ReflTransGen.refl
    | tail _ hs ih =>
      obtain ⟨h1, h2⟩ := only_before.mp hs
      obtain ⟨hc1, hc2⟩ := hmem.mp h1
      obtain ⟨_, h | ⟨h3, h4⟩⟩ := (hp.delete_before hr hd hc2 hc1).mp h2
      · exact ih.tail (only_before.mpr ⟨hc2, h⟩)
      · exact (ih.tail (only_before.mpr ⟨hr, h3⟩)).tail (only_before.mpr ⟨hc2, h4⟩)
  · intro h
    have key : (v ≠ r → ((g.deleteNode r).only (nodes.erase r)).Reaches u v) ∧
        (v = r → ∃ p, p ≠ r ∧ g.Before p r ∧ ((g.deleteNode r).only (nodes.erase r)).Reaches u p) := by
      clear hvr
      induction h with
      | refl => exact ⟨fun _ => Relation.ReflTransGen.refl, fun h => absurd h hur⟩
      | @tail b c _ hs ih =>
        obtain ⟨hc, hs⟩ := only_before.mp hs
        constructor
        · intro hcr
          by_cases hb : b = r
          · obtain ⟨p, hpr, hpb, hup⟩ := ih.2 hb
            refine hup.tail (only_before.mpr ⟨hmem.mpr ⟨hcr, hc⟩, ?_⟩)
            exact (hp.delete_before hr hd hc hcr).mpr ⟨hpr, Or.inr ⟨hpb, hb ▸ hs⟩⟩
          · refine (ih.1 hb).tail (only_before.mpr ⟨hmem.mpr ⟨hcr, hc⟩, ?_⟩)
            exact (hp.delete_before hr hd hc hcr).mpr ⟨hb, Or.inl hs⟩
        · intro hcr
          subst hcr
          have hb : b ≠ c := fun hb => hp.no_loop hc (by rw [hb] at hs; exact hs)
          exact ⟨b, hb, hs, ih.1 hb⟩
    exact key.1 hvr

theorem delete_project (hr : r ∈ nodes) (hrs : r ≠ start) (hd : g.OnlyDependencies r) :
    (g.deleteNode r).ProjectOf start (nodes.erase r) := by
  have hn := hp.once
  have hmem : ∀ {x : Nat}, x ∈ nodes.erase r ↔ x ≠ r ∧ x ∈ nodes := fun {x} => hn.mem_erase_iff
  have hto : ∀ {v : Nat}, v ∈ nodes.erase r → ((g.deleteNode r).only (nodes.erase r)).edgesTo v =
      ((g.edgesTo v).filter fun e => e.start ≠ r) ++ (g.bridges r).filter fun e => e.finish = v := fun hv => by
    rw [only_to hv, deleteNode_to hp.linked hr hd (hmem.mp hv).2]
  have hfrom : ∀ {v : Nat}, v ∈ nodes.erase r → ((g.deleteNode r).only (nodes.erase r)).edgesFrom v =
      ((g.edgesFrom v).filter fun e => e.finish ≠ r) ++ (g.bridges r).filter fun e => e.start = v := fun hv => by
    rw [only_from hv, deleteNode_from hp.linked hr hd (hmem.mp hv).2]
  have toMem : ∀ {v : Nat} {e : Edge}, v ∈ nodes.erase r → e ∈ ((g.deleteNode r).only (nodes.erase r)).edgesTo v →
      e.finish = v ∧ e.start ∈ nodes.erase r := by
    intro v e hv he
    rw [hto hv] at he
    rcases List.mem_append.mp he with he | he
    · obtain ⟨h1, h2⟩ := List.mem_filter.mp he
      have h3 := hp.start_of_to (hmem.mp hv).2 h1
      exact ⟨h3.1, hmem.mpr ⟨by simpa using h2, h3.2⟩⟩
    · obtain ⟨h1, h2⟩ := List.mem_filter.mp he
      have h5 := hp.mem_parents hr (mem_bridges.mp h1).1
      exact ⟨by simpa using h2, hmem.mpr ⟨h5.2.1, h5.1⟩⟩
  have fromMem : ∀ {v : Nat} {e : Edge}, v ∈ nodes.erase r → e ∈ ((g.deleteNode r).only (nodes.erase r)).edgesFrom v →
      e.start = v ∧ e.finish ∈ nodes.erase r := by
    intro v e hv he
    rw [hfrom hv] at he
    rcases List.mem_append.mp he with he | he
    · obtain ⟨h1, h2⟩ := List.mem_filter.mp he
      have h3 := hp.finish_of_from (hmem.mp hv).2 h1
      exact ⟨h3.1, hmem.mpr ⟨by simpa using h2, h3.2⟩⟩
    · obtain ⟨h1, h2⟩ := List.mem_filter.mp he
      have h5 := hp.mem_children hr (mem_bridges.mp h1).2.1
      exact ⟨by simpa using h2, hmem.mpr ⟨h5.2.1, h5.1⟩⟩
  have hnil : ∀ {v : Nat}, v ∉ nodes.erase r → ((g.deleteNode r).only (nodes.erase r)).edgesTo v = [] ∧
      ((g.deleteNode r).only (nodes.erase r)).edgesFrom v = [] := fun hv => ⟨if_neg hv, if_neg hv⟩
  refine ⟨hn.erase r, ⟨?_, ?_, ?_⟩, hmem.mpr ⟨Ne.symm hrs, hp.start_mem⟩, ?_, ?_, ?_⟩
  · intro v e he
    by_cases hv : v ∈ nodes.erase r
    · exact (toMem hv he).1
    · rw [(hnil hv).1] at he; cases he
  · intro v e he
    by_cases hv : v ∈ nodes.erase r
    · exact (fromMem hv he).1
    · rw [(hnil hv).2] at he; cases he
  · intro e
    by_cases hs : e.start ∈ nodes.erase r
    · by_cases hf : e.finish ∈ nodes.erase r
      · rw [hto hf, hfrom hs, List.count_append, List.count_append]
        congr 1
        · rw [List.count_filter (by simpa using (hmem.mp hs).1), List.count_filter (by simpa using (hmem.mp hf).1)]
          have := hp.linked.count e
          rwa [only_to (hmem.mp hf).2, only_from (hmem.mp hs).2] at this
        · rw [List.count_filter (by simp), List.count_filter (by simp)]
      · rw [(hnil hf).1, List.count_nil]
        exact (List.count_eq_zero.mpr fun h => hf (fromMem hs h).2).symm
    · rw [(hnil hs).2, List.count_nil]
      by_cases hf : e.finish ∈ nodes.erase r
      · exact List.count_eq_zero.mpr fun h => hs (toMem hf h).2
      · rw [(hnil hf).1, List.count_nil]
  · intro v hv
    exact ⟨fun e he => (toMem hv he).2, fun e he => (fromMem hv he).2⟩
  · intro v hv
    exact (hp.delete_reaches hr hd (Ne.symm hrs) (hmem.mp hv).1).mpr (hp.reach v (hmem.mp hv).2)
  · intro v hv hc
    have : ∀ {a b : Nat}, Relation.TransGen ((g.deleteNode r).only (nodes.erase r)).Before a b →
        Relation.TransGen (g.only nodes).Before a b := by
      intro a b h
      have one : ∀ {a b : Nat}, ((g.deleteNode r).only (nodes.erase r)).Before a b →
          Relation.TransGen (g.only nodes).Before a b := by
        intro a b h
        obtain ⟨h1, h2⟩ := only_before.mp h
        obtain ⟨hc1, hc2⟩ := hmem.mp h1
        obtain ⟨_, h | ⟨h3, h4⟩⟩ := (hp.delete_before hr hd hc2 hc1).mp h2
        · exact Relation.TransGen.single (only_before.mpr ⟨hc2, h⟩)
        · exact (Relation.TransGen.single (only_before.mpr ⟨hr, h3⟩)).tail (only_before.mpr ⟨hc2, h4⟩)
      induction h with
      | single h => exact one h
      | tail _ h ih => exact ih.trans (one h)
    exact hp.acyclic v (hmem.mp hv).2 (this hc)

end ProjectOf

end Sampo.Graph
