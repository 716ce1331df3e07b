import Verif.Spec.Collections
import Mathlib.Data.List.Lex
import Mathlib.Data.List.Dedup
import Mathlib.Data.List.Induction

/-!
# Lemmas: helpers for collections
-/

namespace Sampo.Collections

variable {α K V : Type}

mutual
/-- Places of the values of one element. -/
def placesOf : Item α → List (List Nat)
  | .leaf _ => [[]]
  | .node xs => places xs 0

/-- Places of the values of elements numbered from `n`. -/
def places : List (Item α) → Nat → List (List Nat)
  | [], _ => []
  | x :: xs, n => (placesOf x).map (n :: ·) ++ places xs (n + 1)
end

/-- The value of one element at a place. -/
def valueIn : Item α → List Nat → Option α
  | .leaf a, ks => if ks = [] then some a else none
  | .node xs, ks => valueAt xs ks

theorem valueAt_cons (xs : List (Item α)) (k : Nat) (ks : List Nat) : valueAt xs (k :: ks) = xs[k]?.bind (valueIn · ks) := by
  simp only [valueAt]
  cases xs[k]? with
  | none => rfl
  | some x => cases x <;> rfl

theorem places_head {xs : List (Item α)} : ∀ {n : Nat} {p : List Nat}, p ∈ places xs n → ∃ k ks, p = k :: ks ∧ n ≤ k := by
  induction xs with
  | nil => intro n p h; simp [places] at h
  | cons x xs ih =>
    intro n p h
    simp only [places, List.mem_append, List.mem_map] at h
    rcases h with ⟨q, -, rfl⟩ | h
    · exact ⟨n, q, rfl, Nat.le_refl _⟩
    · obtain ⟨k, ks, h1, h2⟩ := ih h
      exact ⟨k, ks, h1, by omega⟩

mutual
theorem mem_placesOf : ∀ (x : Item α) (p : List Nat), p ∈ placesOf x ↔ (valueIn x p).isSome
  | .leaf a, p => by
    by_cases h : p = [] <;> simp [placesOf, valueIn, h]
  | .node xs, p => by
    simp only [placesOf, valueIn]
    cases p with
    | nil =>
      simp only [valueAt, Option.isSome_none, Bool.false_eq_true, iff_false]
      intro h
      obtain ⟨k, ks, h1, -⟩ := places_head h
      cases h1
    | cons k ks =>
      have := mem_places xs 0 k ks
      simpa using this

theorem mem_places : ∀ (xs : List (Item α)) (n k : Nat) (ks : List Nat), (n + k) :: ks ∈ places xs n ↔ (valueAt xs (k :: ks)).isSome
  | [], n, k, ks => by simp [places, valueAt]
  | x :: xs, n, k, ks => by
    rw [valueAt_cons]
    simp only [places, List.mem_append, List.mem_map]
    cases k with
    | zero =>
      simp only [Nat.add_zero, List.getElem?_cons_zero, Option.bind_some]
      rw [← mem_placesOf x ks]
      constructor
      · rintro (⟨q, hq, he⟩ | h)
        · simp only [List.cons.injEq, true_and] at he
          rw [← he]; exact hq
        · obtain ⟨k, ks', h1, h2⟩ := places_head h
          simp only [List.cons.injEq] at h1
          omega
      · exact fun h => .inl ⟨ks, h, rfl⟩
    | succ k =>
      simp only [List.getElem?_cons_succ]
      rw [← valueAt_cons, ← mem_places xs (n + 1) k ks]
      rw [show n + 1 + k = n + (k + 1) by omega]
      constructor
      · rintro (⟨q, hq, he⟩ | h)
        · simp only [List.cons.injEq] at he
          omega
        · exact h
      · exact .inr
end

mutual
theorem placesOf_sorted : ∀ x : Item α, (placesOf x).Pairwise (List.Lex (· < ·))
  | .leaf _ => by simp [placesOf]
  | .node xs => by simpa [placesOf] using places_sorted xs 0

theorem places_sorted : ∀ (xs : List (Item α)) (n : Nat), (places xs n).Pairwise (List.Lex (· < ·))
  | [], _ => by simp [places]
  | x :: xs, n => by
    simp only [places]
    refine List.pairwise_append.2 ⟨?_, places_sorted xs (n + 1), ?_⟩
    · rw [List.pairwise_map]
      exact (placesOf_sorted x).imp fun h => .cons h
    · intro a ha b hb
      obtain ⟨q, -, rfl⟩ := List.mem_map.1 ha
      obtain ⟨k, ks, rfl, hk⟩ := places_head hb
      exact .rel (by omega)
end

mutual
theorem flat_places : ∀ x : Item α, (flat x).map some = (placesOf x).map (valueIn x)
  | .leaf a => by simp [flat, placesOf, valueIn]
  | .node xs => by
    simp only [flat, placesOf]
    rw [flatten_places xs 0]
    refine List.map_congr_left fun p hp => ?_
    obtain ⟨k, ks, rfl, -⟩ := places_head hp
    simp [valueIn]

theorem flatten_places : ∀ (xs : List (Item α)) (n : Nat),
    (flatten xs).map some = (places xs n).map fun p => valueAt xs ((p.headD 0 - n) :: p.tail)
  | [], _ => by simp [flatten, places]
  | x :: xs, n => by
    simp only [flatten, places, List.map_append]
    congr 1
    · rw [flat_places x, List.map_map]
      refine List.map_congr_left fun p _ => ?_
      simp [valueAt_cons]
    · rw [flatten_places xs (n + 1)]
      refine List.map_congr_left fun p hp => ?_
      obtain ⟨k, ks, rfl, hk⟩ := places_head hp
      simp only [List.headD_cons, List.tail_cons]
      rw [valueAt_cons, valueAt_cons, show k - n = (k - (n + 1)) + 1 by omega, List.getElem?_cons_succ]
end

theorem lookup_put [DecidableEq K] (k k' : K) (v : V) (d : List (K × V)) :
    (put k v d).lookup k' = if k' = k then some v else d.lookup k' := by
  induction d with
  | nil =>
    by_cases h : k' = k
    · simp [put, List.lookup, h]
    · have hb : (k' == k) = false := by simpa using h
      simp [put, List.lookup, h, hb]
  | cons e d ih =>
    simp only [put]
    split
    · rename_i he
      by_cases h : k' = k
      · simp [h]
      · have hb : (k' == k) = false := by simpa using h
        have hb' : (k' == e.1) = false := by rw [he]; exact hb
        simp only [List.lookup, hb, hb', if_neg h]
    · rename_i he
      by_cases h : k' = e.1
      · simp [List.lookup, h, he]
      · have hb : (k' == e.1) = false := by simpa using h
        simp only [List.lookup, hb, ih]

theorem keys_put [DecidableEq K] (k : K) (v : V) (d : List (K × V)) :
    (put k v d).map (·.1) = if k ∈ d.map (·.1) then d.map (·.1) else d.map (·.1) ++ [k] := by
  induction d with
  | nil => simp [put]
  | cons e d ih =>
    simp only [put]
    split
    · rename_i he
      simp [he]
    · rename_i he
      simp only [List.map_cons, ih, List.mem_cons, Ne.symm he, false_or]
      split <;> simp

theorem lookup_foldl [DecidableEq K] (key : α → K) (value : α → V) (k : K) (items : List α) (d : List (K × V)) :
    (items.foldl (fun d x => put (key x) (value x) d) d).lookup k =
      ((items.reverse.find? fun x => key x = k).map value).or (d.lookup k) := by
  induction items generalizing d with
  | nil => simp
  | cons x items ih =>
    rw [List.foldl_cons, ih, lookup_put, List.reverse_cons, List.find?_append]
    cases h : items.reverse.find? fun x => decide (key x = k) with
    | some y => simp
    | none =>
      by_cases hk : key x = k
      · simp [hk]
      · simp [hk, Ne.symm hk]

theorem foldl_fresh [DecidableEq K] (key : α → K) (value : α → V) (items : List α) (d : List (K × V))
    (hnd : (d.map (·.1) ++ items.map key).Nodup) :
    items.foldl (fun d x => put (key x) (value x) d) d = d ++ items.map fun x => (key x, value x) := by
  induction items generalizing d with
  | nil => simp
  | cons x items ih =>
    have hx : key x ∉ d.map (·.1) := by
      rw [List.nodup_append] at hnd
      intro h
      exact hnd.2.2 _ h _ (by simp) rfl
    have hput : ∀ d : List (K × V), key x ∉ d.map (·.1) → put (key x) (value x) d = d ++ [(key x, value x)] := by
      intro d
      induction d with
      | nil => intro _; rfl
      | cons e d ih =>
        intro h
        simp only [List.map_cons, List.mem_cons, not_or] at h
        simp only [put, if_neg (Ne.symm h.1), ih h.2, List.cons_append]
    rw [List.foldl_cons, hput d hx, ih]
    · simp
    · simpa using hnd

theorem mem_put [DecidableEq K] {k : K} {v : V} {d : List (K × V)} {e : K × V} (h : e ∈ put k v d) : e = (k, v) ∨ e ∈ d := by
  induction d with
  | nil => simp only [put, List.mem_singleton] at h; exact .inl h
  | cons x d ih =>
    simp only [put] at h
    split at h
    · rcases List.mem_cons.1 h with h | h
      · exact .inl h
      · exact .inr (List.mem_cons_of_mem _ h)
    · rcases List.mem_cons.1 h with h | h
      · exact .inr (h ▸ List.mem_cons_self)
      · exact (ih h).imp id (List.mem_cons_of_mem _)

theorem mem_foldl [DecidableEq K] (key : α → K) (value : α → V) (items : List α) (d : List (K × V)) (e : K × V)
    (h : e ∈ items.foldl (fun d x => put (key x) (value x) d) d) : e ∈ d ∨ ∃ x ∈ items, e = (key x, value x) := by
  induction items generalizing d with
  | nil => exact .inl h
  | cons x items ih =>
    rcases ih _ h with h | ⟨y, hy, h⟩
    · rcases mem_put h with h | h
      · exact .inr ⟨x, List.mem_cons_self, h⟩
      · exact .inl h
    · exact .inr ⟨y, List.mem_cons_of_mem _ hy, h⟩

theorem lookup_iff_mem [DecidableEq K] (d : List (K × V)) (hnd : (d.map (·.1)).Nodup) (k : K) (v : V) : d.lookup k = some v ↔ (k, v) ∈ d := by
  induction d with
  | nil => simp
  | cons e d ih =>
    simp only [List.map_cons, List.nodup_cons] at hnd
    by_cases h : k = e.1
    · subst h
      simp only [List.lookup, beq_self_eq_true, Option.some.injEq, List.mem_cons]
      constructor
      · rintro rfl; exact .inl rfl
      · rintro (h | h)
        · rw [← h]
        · exact absurd (List.mem_map_of_mem (f := (·.1)) h) hnd.1
    · have hb : (k == e.1) = false := by simpa using h
      simp only [List.lookup, hb, ih hnd.2, List.mem_cons]
      exact ⟨.inr, fun h' => h'.resolve_left fun h'' => h (by rw [← h''])⟩

end Sampo.Collections
