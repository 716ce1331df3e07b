import Verif.Lemmas.Collections

/-!
# C114: helpers for collections
-/

namespace Sampo.C114

open Collections

variable {α K V : Type}

/-- `flatten` yields the values at all places, in the order of places, each once. -/
theorem flatten_reads_all_values (xs : List (Item α)) : ∃ ps : List (List Nat), ps.Pairwise (List.Lex (· < ·)) ∧
    (∀ p, p ∈ ps ↔ (valueAt xs p).isSome) ∧ (flatten xs).map some = ps.map (valueAt xs) := by
  refine ⟨places xs 0, places_sorted xs 0, fun p => ?_, ?_⟩
  · cases p with
    | nil =>
      simp only [valueAt, Option.isSome_none, Bool.false_eq_true, iff_false]
      intro h
      obtain ⟨k, ks, h1, -⟩ := places_head h
      cases h1
    | cons k ks =>
      have := mem_places xs 0 k ks
      simpa using this
  · rw [flatten_places xs 0]
    refine List.map_congr_left fun p hp => ?_
    obtain ⟨k, ks, rfl, -⟩ := places_head hp
    simp

/-- Flattening what is flat changes nothing. -/
theorem flatten_flat (xs : List α) : flatten (xs.map .leaf) = xs := by
  induction xs with
  | nil => rfl
  | cons x xs ih => simp [flatten, flat, ih]

/-- The index gives for each key the value of the last item with this key, and nothing for other keys. -/
theorem last_item_wins [DecidableEq K] (key : α → K) (value : α → V) (items : List α) (k : K) :
    ((∀ x ∈ items, key x ≠ k) → (buildIndex key value items).lookup k = none) ∧
    ∀ before x after, items = before ++ x :: after → key x = k → (∀ y ∈ after, key y ≠ k) →
      (buildIndex key value items).lookup k = some (value x) := by
  unfold buildIndex
  constructor
  · intro h
    rw [lookup_foldl, List.find?_eq_none.2 (by simpa using h)]
    rfl
  · rintro before x after rfl hx ha
    rw [lookup_foldl, List.reverse_append, List.reverse_cons, List.append_assoc, List.find?_append,
      List.find?_eq_none.2 (by simpa using ha)]
    simp [hx]

/-- With different keys the index has one entry per item, in the order of the items. -/
theorem entry_per_item [DecidableEq K] (key : α → K) (value : α → V) (items : List α) (h : (items.map key).Nodup) :
    buildIndex key value items = items.map fun x => (key x, value x) := by
  unfold buildIndex
  rw [foldl_fresh _ _ _ _ (by simpa using h)]
  rfl

/-- The keys of an index are different. -/
theorem keys_once [DecidableEq K] (key : α → K) (value : α → V) (items : List α) : ((buildIndex key value items).map (·.1)).Nodup := by
  unfold buildIndex
  suffices ∀ d : List (K × V), (d.map (·.1)).Nodup → ((items.foldl (fun d x => put (key x) (value x) d) d).map (·.1)).Nodup from
    this [] (by simp)
  induction items with
  | nil => exact fun d h => h
  | cons x items ih =>
    intro d hd
    refine ih _ ?_
    rw [keys_put]
    split
    · exact hd
    · rename_i h
      rw [List.nodup_append]
      exact ⟨hd, by simp, fun a ha b hb => by rintro rfl; simp only [List.mem_singleton] at hb; exact h (hb ▸ ha)⟩

/-- They come in the order in which they occur first. -/
theorem keys_in_order [DecidableEq K] (key : α → K) (value : α → V) (items : List α) :
    (buildIndex key value items).map (·.1) = (items.map key).reverse.dedup.reverse := by
  unfold buildIndex
  induction items using List.reverseRecOn with
  | nil => rfl
  | append_singleton items x ih =>
    rw [List.foldl_append, List.foldl_cons, List.foldl_nil, keys_put, ih, List.map_append, List.reverse_append]
    simp only [List.mem_reverse, List.mem_dedup, List.map_cons, List.map_nil, List.reverse_singleton, List.singleton_append]
    split
    · rename_i h
      rw [List.dedup_cons_of_mem (by simpa using h)]
    · rename_i h
      rw [List.dedup_cons_of_notMem (by simpa using h), List.reverse_cons]

/-- Reversing a dictionary twice gives it back if its values are different.  Missing: equal values, for which it is false
(`equal_values_are_lost`). -/
theorem reverse_twice_partial [DecidableEq K] [DecidableEq V] (d : List (K × V)) (hk : (d.map (·.1)).Nodup) (hv : (d.map (·.2)).Nodup) :
    reverseDictionary (reverseDictionary d) = d ∧ ∀ k v, d.lookup k = some v ↔ (reverseDictionary d).lookup v = some k := by
  have h1 : reverseDictionary d = d.map fun e => (e.2, e.1) := entry_per_item _ _ d hv
  have h2 : reverseDictionary (d.map fun e => (e.2, e.1)) = d := by
    unfold reverseDictionary
    rw [entry_per_item]
    · rw [List.map_map]; exact List.map_id d
    · rw [List.map_map]; exact hk
  refine ⟨by rw [h1, h2], fun k v => ?_⟩
  rw [h1, lookup_iff_mem d hk, lookup_iff_mem _ (by rw [List.map_map]; exact hv)]
  simp only [List.mem_map, Prod.mk.injEq]
  exact ⟨fun h => ⟨_, h, rfl, rfl⟩, fun ⟨e, he, h1, h2⟩ => by rw [← h1, ← h2]; exact he⟩

/-- Not proved because false: for all dictionaries.  Whenever two keys have the same value, reversing twice does not give the
dictionary back. -/
theorem equal_values_are_lost [DecidableEq K] [DecidableEq V] (d : List (K × V)) (k k' : K) (v : V) (hne : k ≠ k')
    (hk : d.lookup k = some v) (hk' : d.lookup k' = some v) : reverseDictionary (reverseDictionary d) ≠ d := by
  intro h
  have hin : ∀ k, d.lookup k = some v → (v, k) ∈ reverseDictionary d := by
    intro k hk
    have hd : (d.map (·.1)).Nodup := by rw [← h]; exact keys_once _ _ _
    have := (lookup_iff_mem d hd k v).1 hk
    rw [← h] at this
    rcases mem_foldl _ _ _ _ _ this with h | ⟨x, hx, h⟩
    · cases h
    · obtain ⟨h1, h2⟩ := Prod.mk.inj h
      rw [h1, h2]; exact hx
  have hr : ((reverseDictionary d).map (·.1)).Nodup := keys_once _ _ _
  have h1 := (lookup_iff_mem _ hr v k).2 (hin k hk)
  have h2 := (lookup_iff_mem _ hr v k').2 (hin k' hk')
  rw [h1] at h2
  exact hne (Option.some.inj h2)

/-- `first` returns the first element that meets the condition, `None` if there is none. -/
theorem first_is_first (condition : α → Bool) (xs : List α) :
    ((∀ x ∈ xs, condition x = false) → first condition xs = none) ∧
    ∀ before x after, xs = before ++ x :: after → condition x = true → (∀ y ∈ before, condition y = false) →
      first condition xs = some x := by
  constructor
  · intro h
    induction xs with
    | nil => rfl
    | cons x xs ih => simp only [first, h x (by simp)]; exact ih fun y hy => h y (by simp [hy])
  · rintro before x after rfl hx hb
    induction before with
    | nil => simp [first, hx]
    | cons y ys ih => simp only [List.cons_append, first, hb y (by simp)]; exact ih fun z hz => hb z (by simp [hz])

/-! ### Concrete cases -/

example : flatten [.leaf 1, .node [.leaf 2, .node [], .node [.leaf 3]], .leaf 4] = [1, 2, 3, 4] := by decide

example : valueAt [.leaf 1, .node [.leaf 2, .node [], .node [.leaf 3]], .leaf 4] [1, 2, 0] = some 3 := by decide

example : buildIndex (·.1) (·.2) [(1, 'a'), (2, 'b'), (1, 'c')] = [(1, 'c'), (2, 'b')] := by decide

example : reverseDictionary [("x", 0), ("y", 1)] = [(0, "x"), (1, "y")] ∧ reverseDictionary [("x", 0), ("y", 0)] = [(0, "y")] := by decide

example : reverseDictionary (reverseDictionary [("x", 0), ("y", 1)]) = [("x", 0), ("y", 1)] :=
  (reverse_twice_partial _ (by decide) (by decide)).1

example : first (fun x => 2 < x) [1, 2, 5, 3] = some 5 := (first_is_first _ _).2 [1, 2] 5 [3] rfl (by decide) (by decide)

end Sampo.C114
