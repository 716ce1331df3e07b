import Verif.Model.SortedList

/-!
# What the extended sorted list is expected to do

A sorted list is seen by its users as its items in order.  With different keys it works as a dictionary: at most one item for a key.
-/

namespace Sampo.Sorted

variable {α κ : Type} [LinearOrder κ]

/-- The keys stored are those of the items, and the greatest of each sublist is the last one; no sublist is empty. -/
structure Agree (key : α → κ) (s : Store α κ) : Prop where
  keys : s.keys = s.lists.map (·.map key)
  maxes : s.maxes.map some = s.keys.map List.getLast?

/-- A list in order whose parts agree. -/
structure Whole (key : α → κ) (s : Store α κ) : Prop extends Agree key s where
  sorted : s.items.Pairwise fun x y => key x ≤ key y
  len : s.len = s.items.length

/-- `_expand` of the library: it splits sublists and nothing else. -/
def Splits (key : α → κ) (expand : Store α κ → Nat → Store α κ) : Prop :=
  ∀ s p, Agree key s → p < s.lists.length → Agree key (expand s p) ∧ (expand s p).items = s.items ∧ (expand s p).len = s.len

/-- What `merge` is for: the item of the key is merged with the value, and without such an item the value is put where it belongs. -/
def updated (key : α → κ) (items : List α) (k : κ) (value : α) (merger : α → α → α) : List α :=
  if k ∈ items.map key then items.map fun x => if key x = k then merger x value else x
  else items.takeWhile (key · < k) ++ value :: items.dropWhile (key · < k)

end Sampo.Sorted
