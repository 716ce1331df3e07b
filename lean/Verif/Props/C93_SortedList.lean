import Verif.Lemmas.SortedList
import Mathlib.Data.List.Induction

/-!
# C93: The extended sorted list replaces the item it is told to and stays in order

`ExtendedSortedList` has two operations of its own: `merge(old, value, merger)`, which merges the value into the item with the key of `old` or inserts it,
and assignment to a position.  With different keys both do what they say, for any list, and a list filled by `merge` is a dictionary
that combines the values of each key in the order they came.  With equal keys another item of the same key may be replaced.

Not proved because false: assignment to a position replaces the item at that position when keys may be equal (`other_item_replaced`), or when the new
value has another key (`order_lost`; the documentation asks for the same key and nothing checks it).
-/

namespace Sampo.C93

open Sorted

variable {α κ : Type} [LinearOrder κ]

private theorem step_updated {key : α → κ} {k : κ} {value : α} {merger : α → α → α} {a b : List α}
    (h : Step key k value merger a b) (ha : a.Pairwise fun x y => key x < key y) : b = updated key a k value merger := by
  cases h with
  | merged L R x h =>
    rw [List.pairwise_append, List.pairwise_cons] at ha
    unfold updated
    rw [if_pos (by simp [h])]
    rw [List.map_append, List.map_cons, if_pos h]
    congr 1
    · rw [List.map_congr_left (g := id), List.map_id]
      intro y hy
      have := ha.2.2 y hy x (by simp)
      rw [if_neg (by rw [← h]; exact this.ne)]; rfl
    · congr 1
      rw [List.map_congr_left (g := id), List.map_id]
      intro y hy
      have := ha.2.1.1 y hy
      rw [if_neg (by rw [← h]; exact this.ne')]; rfl
  | added L R hl hr =>
    unfold updated
    rw [if_neg]
    · have h1 : (L ++ R).takeWhile (key · < k) = L := by
        rw [List.takeWhile_append_of_pos (by simpa using hl)]
        cases R with
        | nil => simp
        | cons y R =>
          rw [List.takeWhile_cons_of_neg (by simpa using (hr y (by simp)).le)]; simp
      have h2 : (L ++ R).dropWhile (key · < k) = R := by
        rw [List.dropWhile_append_of_pos (by simpa using hl)]
        cases R with
        | nil => rfl
        | cons y R => rw [List.dropWhile_cons_of_neg (by simpa using (hr y (by simp)).le)]
      rw [h1, h2]
    · intro hc
      obtain ⟨y, hy, hyk⟩ := List.mem_map.1 hc
      rcases List.mem_append.1 hy with hy | hy
      · exact (hl y hy).ne hyk
      · exact (hr y hy).ne' hyk

private theorem step_strict {key : α → κ} {k : κ} {value : α} {merger : α → α → α} {a b : List α}
    (h : Step key k value merger a b) (hv : key value = k) (hm : ∀ x, key x = k → key (merger x value) = k)
    (ha : a.Pairwise fun x y => key x < key y) : b.Pairwise fun x y => key x < key y := by
  cases h with
  | merged L R x h =>
    have := hm x h
    rw [List.pairwise_append, List.pairwise_cons] at ha ⊢
    refine ⟨ha.1, ⟨fun y hy => ?_, ha.2.1.2⟩, fun y hy z hz => ?_⟩
    · rw [this, ← h]; exact ha.2.1.1 y hy
    · rcases List.mem_cons.1 hz with rfl | hz
      · rw [this, ← h]; exact ha.2.2 y hy x (by simp)
      · exact ha.2.2 y hy z (by simp [hz])
  | added L R hl hr =>
    rw [List.pairwise_append] at ha
    rw [List.pairwise_append, List.pairwise_cons]
    refine ⟨ha.1, ⟨fun y hy => ?_, ha.2.1⟩, fun y hy z hz => ?_⟩
    · rw [hv]; exact hr y hy
    · rcases List.mem_cons.1 hz with rfl | hz
      · rw [hv]; exact hl y hy
      · exact ha.2.2 y hy z hz

/-- With different keys, `merge` merges the value into the item with the key of `old` and leaves the others, or puts the value where it belongs; the
list stays in order and whole. -/
theorem merge_updates {key : α → κ} {expand : Store α κ → Nat → Store α κ} (he : Splits key expand) {s : Store α κ} (h : Whole key s)
    (hd : s.items.Pairwise fun x y => key x < key y) (old value : α) (hv : key value = key old) (merger : α → α → α)
    (hm : ∀ x, key x = key old → key (merger x value) = key old) :
    ∃ t, merge key expand s old value merger = some t ∧ Whole key t ∧ t.items = updated key s.items (key old) value merger ∧
      t.items.Pairwise fun x y => key x < key y := by
  obtain ⟨t, h1, h2, h3⟩ := merge_step he h old rfl hv hm
  exact ⟨t, h1, h2, step_updated h3 hd, step_strict h3 hv hm hd⟩

/-- With different keys, assignment replaces exactly the item at the position. -/
theorem set_item_replaces {key : α → κ} {expand : Store α κ → Nat → Store α κ} (he : Splits key expand) {s : Store α κ}
    (h : Whole key s) (hd : s.items.Pairwise fun x y => key x < key y) {i : Nat} (hi : i < s.items.length) (value : α)
    (hv : key value = key s.items[i]) :
    ∃ t, setItem key expand s i value = some t ∧ Whole key t ∧ t.items = s.items.set i value := by
  obtain ⟨t, h1, h2, h3, -⟩ := merge_updates he h hd s.items[i] value hv (fun _ y => y) (fun _ _ => hv)
  refine ⟨t, ?_, h2, ?_⟩
  · unfold setItem
    rw [List.getElem?_eq_getElem hi]
    exact h1
  · rw [h3]
    unfold updated
    rw [if_pos (List.mem_map_of_mem (List.getElem_mem hi))]
    apply List.ext_getElem
    · simp
    · intro j h4 h5
      rw [List.getElem_map, List.getElem_set]
      have hj : j < s.items.length := by simpa using h4
      by_cases hij : i = j
      · subst hij; simp
      · rw [if_neg hij, if_neg]
        rcases Nat.lt_or_gt_of_ne hij with hlt | hlt
        · exact (List.pairwise_iff_getElem.1 hd i j hi hj hlt).ne'
        · exact (List.pairwise_iff_getElem.1 hd j i hj hi hlt).ne

/-- A position outside the list is refused. -/
theorem set_item_outside {key : α → κ} {expand : Store α κ → Nat → Store α κ} {s : Store α κ} {i : Nat} (hi : s.items.length ≤ i)
    (value : α) : setItem key expand s i value = none := by
  unfold setItem
  rw [List.getElem?_eq_none hi]; rfl

/-- Keys may be equal: `merge` still changes no more than one item, and one of the right key. -/
theorem merge_one_item {key : α → κ} {expand : Store α κ → Nat → Store α κ} (he : Splits key expand) {s : Store α κ} (h : Whole key s)
    (old value : α) (hv : key value = key old) (merger : α → α → α) (hm : ∀ x, key x = key old → key (merger x value) = key old)
    (hin : key old ∈ s.items.map key) :
    ∃ t i, ∃ hi : i < s.items.length, merge key expand s old value merger = some t ∧ Whole key t ∧ key s.items[i] = key old ∧
      t.items = s.items.set i (merger s.items[i] value) := by
  obtain ⟨t, h1, h2, h3⟩ := merge_step he h old rfl hv hm
  generalize ha : s.items = a at h3 hin
  generalize hb : t.items = b at h3
  cases h3 with
  | merged L R x hx =>
    refine ⟨t, L.length, by simp, h1, h2, by simpa using hx, ?_⟩
    simp [hb]
  | added L R hl hr =>
    obtain ⟨y, hy, hyk⟩ := List.mem_map.1 hin
    rcases List.mem_append.1 hy with hy | hy
    · exact absurd hyk (hl y hy).ne
    · exact absurd hyk (hr y hy).ne'

/-- A list filled by `merge` has one item for each key that came, in the order of keys: the values of that key merged in the order they came. -/
theorem collects {key : α → κ} {expand : Store α κ → Nat → Store α κ} (he : Splits key expand) (merger : α → α → α)
    (hm : ∀ x y, key x = key y → key (merger x y) = key y) (values : List α) :
    ∃ t, values.foldlM (fun s v => merge key expand s v v merger) Store.empty = some t ∧ Whole key t ∧
      (t.items.Pairwise fun x y => key x < key y) ∧
      ∀ x, x ∈ t.items ↔ ∃ v vs, values.filter (key · = key x) = v :: vs ∧ x = vs.foldl merger v := by
  induction values using List.reverseRecOn with
  | nil =>
    refine ⟨_, rfl, ⟨⟨rfl, rfl⟩, ?_, rfl⟩, ?_, ?_⟩
    · simp [Store.empty, Store.items]
    · simp [Store.empty, Store.items]
    · simp [Store.empty, Store.items]
  | append_singleton values v ih =>
    obtain ⟨s, h1, h2, h3, h4⟩ := ih
    obtain ⟨t, g1, g2, g3, g4⟩ := merge_updates he h2 h3 v v rfl merger (fun x hx => hm x v hx)
    refine ⟨t, ?_, g2, g4, ?_⟩
    · rw [List.foldlM_append, h1]
      simp [g1]
    · have hkey : ∀ (vs : List α) (w : α), (∀ y ∈ vs, key y = key w) → key (vs.foldl merger w) = key w := by
        intro vs
        induction vs using List.reverseRecOn with
        | nil => intro w _; rfl
        | append_singleton vs y ih =>
          intro w hw
          rw [List.foldl_append]
          have e1 := ih w (fun z hz => hw z (by simp [hz]))
          have e2 := hw y (by simp)
          simp only [List.foldl_cons, List.foldl_nil]
          rw [hm _ _ (e1.trans e2.symm), e2]
      intro x
      rw [g3, List.filter_append]
      unfold updated
      split
      · rename_i hin
        obtain ⟨z, hz, hzk⟩ := List.mem_map.1 hin
        rw [List.mem_map]
        constructor
        · rintro ⟨y, hy, rfl⟩
          obtain ⟨w, vs, e1, e2⟩ := (h4 y).1 hy
          split
          · rename_i hyv
            refine ⟨w, vs ++ [v], ?_, ?_⟩
            · rw [hm y v hyv, ← hyv, e1]
              simp [hyv]
            · rw [List.foldl_append, ← e2]; rfl
          · rename_i hyv
            refine ⟨w, vs, ?_, e2⟩
            rw [e1]
            simp [Ne.symm hyv]
        · rintro ⟨w, vs, e1, e2⟩
          by_cases hxv : key v = key x
          · obtain ⟨w', vs', e3, e4⟩ := (h4 z).1 hz
            rw [hzk, hxv] at e3
            rw [e3] at e1
            simp only [hxv, decide_true, List.filter_cons_of_pos, List.filter_nil, List.cons_append, List.cons.injEq] at e1
            obtain ⟨rfl, rfl⟩ := e1
            refine ⟨z, hz, ?_⟩
            rw [if_pos hzk, e2, List.foldl_append, ← e4]; rfl
          · refine ⟨x, (h4 x).2 ⟨w, vs, ?_, e2⟩, if_neg (Ne.symm hxv)⟩
            simpa [hxv] using e1
      · rename_i hout
        have hmem : ∀ y, y ∈ s.items.takeWhile (key · < key v) ++ v :: s.items.dropWhile (key · < key v) ↔ y = v ∨ y ∈ s.items := by
          intro y
          have e : y ∈ s.items ↔ y ∈ s.items.takeWhile (key · < key v) ++ s.items.dropWhile (key · < key v) := by
            rw [List.takeWhile_append_dropWhile]
          rw [e]
          simp only [List.mem_append, List.mem_cons]
          exact or_left_comm
        rw [hmem]
        have hnone : values.filter (key · = key v) = [] := by
          rcases hf : values.filter (key · = key v) with _ | ⟨w, vs⟩
          · rfl
          · exfalso
            apply hout
            have hall : ∀ y ∈ w :: vs, key y = key v := by
              intro y hy; rw [← hf] at hy; simpa using (List.mem_filter.1 hy).2
            have hw := hall w (by simp)
            have e := hkey vs w (fun y hy => (hall y (by simp [hy])).trans hw.symm)
            exact List.mem_map.2 ⟨vs.foldl merger w, (h4 _).2 ⟨w, vs, by rw [e, hw, hf], rfl⟩, e.trans hw⟩
        by_cases hxv : key v = key x
        · constructor
          · rintro (rfl | hx)
            · exact ⟨x, [], by rw [hnone]; simp, rfl⟩
            · exact absurd (List.mem_map.2 ⟨x, hx, hxv.symm⟩) hout
          · rintro ⟨w, vs, e1, e2⟩
            rw [← hxv, hnone] at e1
            simp only [decide_true, List.filter_cons_of_pos, List.filter_nil, List.nil_append, List.cons.injEq] at e1
            obtain ⟨rfl, rfl⟩ := e1
            exact Or.inl e2
        · have : x ≠ v := fun e => hxv (by rw [e])
          simp only [this, false_or, h4]
          simp [hxv]

/-- `_expand` as the library has it: a sublist longer than `2 * load` gives its items after the first `load` to a new sublist. -/
def halve (load : Nat) (s : Store α κ) (p : Nat) : Store α κ :=
  match s.lists[p]?, s.keys[p]?, s.maxes[p]? with
  | some xs, some ks, some m =>
    if 2 * load < ks.length then
      match (ks.take load).getLast? with
      | some l => ⟨(s.lists.set p (xs.take load)).insertIdx (p + 1) (xs.drop load), (s.keys.set p (ks.take load)).insertIdx (p + 1) (ks.drop load),
          (s.maxes.set p l).insertIdx (p + 1) m, s.len⟩
      | none => s
    else s
  | _, _, _ => s

private theorem insert_any {β : Type} (y : β) : ∀ (l : List β) (p : Nat), p + 1 ≤ l.length →
    ∀ x, (l.set p x).insertIdx (p + 1) y = l.take p ++ x :: y :: l.drop (p + 1)
  | [], p, h, _ => by simp at h
  | a :: l, 0, h, x => by simp
  | a :: l, p + 1, h, x => by
    rw [List.set_cons_succ, List.insertIdx_succ_cons, insert_any y l p (by simpa using h) x]; rfl

/-- The assumption on `_expand` is met by what the library does. -/
theorem halve_splits (key : α → κ) (load : Nat) : Splits key (halve load) := by
  intro s p h hp
  obtain ⟨xs, hx⟩ := h.listAt (p := p) (by rw [h.length]; exact hp)
  obtain ⟨x, hl, hmx⟩ := h.maxAt hx
  have hk := h.keysAt hx
  unfold halve
  rw [hx, hk, hmx]
  dsimp only
  split
  · rename_i hload
    split
    · rename_i l hlast
      have hkl : s.keys.length = s.lists.length := by rw [h.keys]; simp
      have hml := h.length
      refine ⟨⟨?_, ?_⟩, ?_, rfl⟩
      · dsimp only
        rw [insert_any _ _ _ (by omega), insert_any _ _ _ (by omega), h.keys]
        simp
      · dsimp only
        rw [insert_any _ _ _ (by omega), insert_any _ _ _ (by omega)]
        have hd : ((xs.map key).drop load).getLast? = some (key x) := by
          rw [List.getLast?_drop, if_neg (by omega), List.getLast?_map, hl]; rfl
        simp only [List.map_append, List.map_cons, List.map_take, List.map_drop, h.maxes]
        rw [← List.map_take (f := key), ← List.map_drop (f := key)] 
        simp [hlast, hd]
      · show ((s.lists.set p _).insertIdx (p + 1) _).flatten = s.lists.flatten
        rw [insert_any _ _ _ (by omega), flatten_split hx]
        simp only [List.flatten_append, List.flatten_cons, List.append_assoc]
        rw [← List.append_assoc (xs.take load), List.take_append_drop]
    · exact ⟨h, rfl, rfl⟩
  · exact ⟨h, rfl, rfl⟩

/-- Items with equal keys: assignment to the first position replaces the second item. -/
theorem other_item_replaced : ∃ s t : Store (Nat × Nat) Nat, Whole Prod.fst s ∧
    setItem Prod.fst (halve 1000) s 0 (1, 9) = some t ∧ s.items = [(1, 7), (1, 8)] ∧ t.items = [(1, 7), (1, 9)] :=
  ⟨⟨[[(1, 7), (1, 8)]], [[1, 1]], [1], 2⟩, ⟨[[(1, 7), (1, 9)]], [[1, 1]], [1], 2⟩,
    ⟨⟨by decide, by decide⟩, by decide, by decide⟩, by decide +kernel, by decide, by decide⟩

/-- A value with another key is put at the old place, out of order. -/
theorem order_lost : ∃ s t : Store (Nat × Nat) Nat, Whole Prod.fst s ∧
    setItem Prod.fst (halve 1000) s 0 (5, 9) = some t ∧ s.items = [(1, 7), (2, 8)] ∧ t.items = [(5, 9), (2, 8)] :=
  ⟨⟨[[(1, 7), (2, 8)]], [[1, 2]], [2], 2⟩, ⟨[[(5, 9), (2, 8)]], [[1, 2]], [2], 2⟩,
    ⟨⟨by decide, by decide⟩, by decide, by decide⟩, by decide +kernel, by decide, by decide⟩

private def demo : Store (Nat × Nat) Nat := ⟨[[(1, 7), (2, 8)], [(4, 1)]], [[1, 2], [4]], [2, 4], 3⟩

/-- `merge_updates` and `set_item_replaces` apply to a list of two sublists; the splitting happens. -/
example : Whole Prod.fst demo ∧ demo.items.Pairwise (fun x y => x.1 < y.1) ∧
    (merge Prod.fst (halve 1) demo (3, 0) (3, 5) (fun x y => (x.1, x.2 + y.2))).map Store.lists = some [[(1, 7), (2, 8)], [(3, 5), (4, 1)]] ∧
    (merge Prod.fst (halve 1) demo (2, 0) (2, 5) (fun x y => (x.1, x.2 + y.2))).map Store.lists = some [[(1, 7), (2, 13)], [(4, 1)]] ∧
    (setItem Prod.fst (halve 1) demo 2 (4, 6)).map Store.lists = some [[(1, 7), (2, 8)], [(4, 6)]] :=
  ⟨⟨⟨by decide, by decide⟩, by decide, by decide⟩, by decide, by decide +kernel, by decide +kernel, by decide +kernel⟩

/-- `collects`: amounts by name. -/
example : ([(3, 1), (1, 4), (3, 2), (2, 2), (1, 1)].foldlM (fun s v => merge Prod.fst (halve 1) s v v fun x y => (x.1, x.2 + y.2))
    Store.empty).map Store.items = some [(1, 5), (2, 2), (3, 3)] := by decide +kernel

end Sampo.C93
