import Mathlib.Order.Basic
import Mathlib.Order.Defs.LinearOrder

/-!
# The extended sorted list (`sampo/schemas/sorted_list.py`)

`ExtendedSortedList` adds two operations to `SortedKeyList` of `sortedcontainers`: it works on the parts of that class, a list of sublists
`_lists`, the keys of their items `_keys`, and the greatest key of each sublist `_maxes`.  The library itself is not part of the
repository.  `bisect_left` and `bisect_right` are given by what they return for a sorted list, and `_expand`, which may split a sublist that has
become too long, is a parameter.  `IndexError` is `none`.
-/

namespace Sampo.Sorted

variable {α κ : Type} [LinearOrder κ]

/-- The parts of a `SortedKeyList` used here: `_lists`, `_keys`, `_maxes`, `_len` (sorted_list.py:29-31, 81-82). -/
structure Store (α κ : Type) where
  lists : List (List α)
  keys : List (List κ)
  maxes : List κ
  len : Nat
deriving DecidableEq, Repr

/-- The items in the order of iteration. -/
def Store.items (s : Store α κ) : List α := s.lists.flatten

/-- A new list. -/
def Store.empty : Store α κ := ⟨[], [], [], 0⟩

/-- `bisect_left` (used at sorted_list.py:38). -/
def bisectLeft (l : List κ) (k : κ) : Nat := (l.takeWhile (· < k)).length

/-- `bisect_right` (used at sorted_list.py:63). -/
def bisectRight (l : List κ) (k : κ) : Nat := (l.takeWhile (· ≤ k)).length

/-- What follows an insertion (sorted_list.py:74-75, 81-82). -/
def grow (expand : Store α κ → Nat → Store α κ) (s : Store α κ) (p : Nat) : Store α κ :=
  let t := expand s p
  { t with len := t.len + 1 }

/-- The key is greater than all of `_maxes` (sorted_list.py:49-61); `p` is the last sublist. -/
def atEnd (expand : Store α κ → Nat → Store α κ) (s : Store α κ) (p : Nat) (k : κ) (value : α) (merger : α → α → α) :
    Option (Store α κ) := do
  let ks ← s.keys[p]?
  let xs ← s.lists[p]?
  let old ← ks.getLast?
  if old = k then
    let x ← xs.getLast?
    some { s with lists := s.lists.set p (xs.set (xs.length - 1) (merger x value)), maxes := s.maxes.set p k }
  else
    some (grow expand { s with lists := s.lists.set p (xs ++ [value]), keys := s.keys.set p (ks ++ [k]), maxes := s.maxes.set p k } p)

/-- The key belongs to sublist `p` (sorted_list.py:62-72). -/
def inside (expand : Store α κ → Nat → Store α κ) (s : Store α κ) (p : Nat) (k : κ) (value : α) (merger : α → α → α) :
    Option (Store α κ) := do
  let ks ← s.keys[p]?
  let xs ← s.lists[p]?
  let idx := bisectRight ks k
  if idx ≠ 0 ∧ ks[idx - 1]? = some k then
    let x ← xs[idx - 1]?
    some { s with lists := s.lists.set p (xs.set (idx - 1) (merger x value)) }
  else
    some (grow expand { s with lists := s.lists.set p (xs.insertIdx idx value), keys := s.keys.set p (ks.insertIdx idx k) } p)

/-- `merge` (sorted_list.py:18-82). -/
def merge (key : α → κ) (expand : Store α κ → Nat → Store α κ) (s : Store α κ) (old value : α) (merger : α → α → α) :
    Option (Store α κ) :=
  let k := key old
  if s.maxes = [] then some ⟨s.lists ++ [[value]], s.keys ++ [[k]], s.maxes ++ [k], s.len + 1⟩
  else
    let p := bisectLeft s.maxes k
    if p = s.maxes.length then atEnd expand s (p - 1) k value merger else inside expand s p k value merger

/-- `__setitem__` (sorted_list.py:9-16). -/
def setItem (key : α → κ) (expand : Store α κ → Nat → Store α κ) (s : Store α κ) (idx : Nat) (value : α) : Option (Store α κ) := do
  let old ← s.items[idx]?
  merge key expand s old value fun _ y => y

end Sampo.Sorted
