import Mathlib.Data.List.Basic
import Mathlib.Order.Lattice
import Mathlib.Algebra.Order.Ring.Int

/-!
# The priority queue (`sampo/utilities/priority_queue.py`)

The queue is a `SortedKeyList` of `sortedcontainers`, which is not part of the repository: it is modelled by what it does, a list in the order
of the sorting keys, which are computed when an item is put in.  The key getter is a parameter of every operation, as the values may change
in between.  Keys are integers.  `IndexError` is `none`.
-/

namespace Sampo.PQueue

variable {α : Type}

/-- An item of the `SortedKeyList`: its sorting key and the pair of the key and the value (priority_queue.py:11-12). -/
structure Entry (α : Type) where
  pos : Int
  key : Int
  value : α
deriving DecidableEq

/-- A queue: the direction and the items in their order (priority_queue.py:10-13). -/
structure Queue (α : Type) where
  descending : Bool
  entries : List (Entry α)

/-- The comparator (priority_queue.py:11). -/
def comparator (descending : Bool) (key : α → Int) (v : α) : Int := if descending then - key v else key v

/-- `SortedKeyList.add`: behind the items whose sorting keys are not greater (used at priority_queue.py:20). -/
def insert (e : Entry α) (l : List (Entry α)) : List (Entry α) :=
  l.takeWhile (fun x => decide (x.pos ≤ e.pos)) ++ e :: l.dropWhile (fun x => decide (x.pos ≤ e.pos))

/-- `add` (priority_queue.py:19-20). -/
def add (key : α → Int) (q : Queue α) (v : α) : Queue α :=
  { q with entries := insert ⟨comparator q.descending key v, key v, v⟩ q.entries }

/-- `__init__` (priority_queue.py:10-13).  The sort of the library is stable, so it is the same as adding one by one. -/
def new (descending : Bool) (key : α → Int) (l : List α) : Queue α := l.foldl (add key) ⟨descending, []⟩

/-- `extract_extremum` (priority_queue.py:22-23): `pop()` takes the last item. -/
def extract (q : Queue α) : Option (α × Queue α) :=
  q.entries.getLast?.map fun e => (e.value, { q with entries := q.entries.dropLast })

/-- `SortedKeyList.discard` of the pair of the key and the value (used at priority_queue.py:26): the first item with its sorting key that
equals the pair, if there is one. -/
def discard [DecidableEq α] (key : α → Int) (q : Queue α) (v : α) : Queue α :=
  { q with entries := q.entries.eraseP fun x => decide (x.pos = comparator q.descending key v ∧ x.key = key v ∧ x.value = v) }

/-- `replace` (priority_queue.py:25-27). -/
def replace [DecidableEq α] (key : α → Int) (q : Queue α) (old new : α) : Queue α := add key (discard key q old) new

/-- `decrease_key` (priority_queue.py:29-30). -/
def decreaseKey [DecidableEq α] (key : α → Int) (q : Queue α) (v : α) : Queue α := replace key q v v

/-- `__len__` (priority_queue.py:32-33). -/
def len (q : Queue α) : Nat := q.entries.length

/-- A call of a method by a user. -/
inductive Op (α : Type) where
  | add (v : α)
  | extract
  | replace (old new : α)
  | decrease (v : α)

/-- One call (priority_queue.py:19-30): the new queue and, for `extract_extremum`, the value or the exception.  After an exception the queue
is as before. -/
def step [DecidableEq α] (key : α → Int) (q : Queue α) : Op α → Queue α × Option (Option α)
  | .add v => (add key q v, none)
  | .extract => match extract q with
    | some (v, q') => (q', some (some v))
    | none => (q, some none)
  | .replace old new => (replace key q old new, none)
  | .decrease v => (decreaseKey key q v, none)

/-- The calls of a history in turn (priority_queue.py:19-30), with what `extract_extremum` returned. -/
def run [DecidableEq α] (key : α → Int) (q : Queue α) : List (Op α) → Queue α × List (Option α)
  | [] => (q, [])
  | op :: ops =>
    let r := step key q op
    let s := run key r.1 ops
    (s.1, r.2.toList ++ s.2)

end Sampo.PQueue
