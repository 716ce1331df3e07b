/-!
# Helpers for collections (`sampo/utilities/collections_util.py`)

Iterables are finite lists, and nothing changes them while they are read.  Dictionaries are lists of keys with values in the order of
insertion, without repeated keys.
-/

namespace Sampo.Collections

variable {α K V : Type}

/-- An element of a heterogeneous iterable: a value (strings and bytes are values too) or another iterable. -/
inductive Item (α : Type) where
  | leaf (a : α)
  | node (xs : List (Item α))

mutual
/-- What `flatten` yields for one element (collections_util.py:14-18). -/
def flat : Item α → List α
  | .leaf a => [a]
  | .node xs => flatten xs

/-- `flatten` (collections_util.py:7-18), run to the end. -/
def flatten : List (Item α) → List α
  | [] => []
  | x :: xs => flat x ++ flatten xs
end

/-- `d[k] = v` for a dictionary: a known key keeps its place. -/
def put [DecidableEq K] (k : K) (v : V) : List (K × V) → List (K × V)
  | [] => [(k, v)]
  | e :: d => if e.1 = k then (k, v) :: d else e :: put k v d

/-- `build_index` (collections_util.py:25-33): the dictionary comprehension puts the items one after another. -/
def buildIndex [DecidableEq K] (key : α → K) (value : α → V) (items : List α) : List (K × V) :=
  items.foldl (fun d x => put (key x) (value x) d) []

/-- `reverse_dictionary` (collections_util.py:36-37). -/
def reverseDictionary [DecidableEq V] (d : List (K × V)) : List (V × K) := buildIndex (·.2) (·.1) d

/-- `first` (collections_util.py:40-43); `None` if nothing meets the condition. -/
def first (condition : α → Bool) : List α → Option α
  | [] => none
  | x :: xs => if condition x then some x else first condition xs

end Sampo.Collections
