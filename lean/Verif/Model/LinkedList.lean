/-!
# The linked list (`sampo/utilities/linked_list.py`)

Nodes live in a heap; an address is a position in it, and a new node is put at the end.  `AttributeError` on `None` is `none`.
`==` on nodes is the one generated by `@dataclass`: values first, then the next nodes, objects that are the same being equal; the
depth of the recursion is not limited here (Python raises `RecursionError` beyond its limit).
-/

namespace Sampo.Linked

/-- `Node` (linked_list.py:7-10). -/
structure Cell (α : Type) where
  value : α
  next : Option Nat
deriving DecidableEq, Repr

/-- `LinkedList` (linked_list.py:53-61) with the heap. -/
structure LList (α : Type) where
  heap : List (Cell α)
  root : Option Nat
  tail : Option Nat
  len : Int
deriving DecidableEq, Repr

/-- `LinkedList()` (linked_list.py:53-57). -/
def empty {α : Type} : LList α := ⟨[], none, none, 0⟩

/-- `append` (linked_list.py:62-70).  `none`: `None.next = ...`. -/
def append {α : Type} (l : LList α) (v : α) : Option (LList α) :=
  let new := l.heap.length
  match l.root with
  | none => some ⟨l.heap ++ [⟨v, none⟩], some new, some new, l.len + 1⟩
  | some _ =>
    l.tail.bind fun t => (l.heap[t]?).map fun c =>
      ⟨(l.heap ++ [(⟨v, none⟩ : Cell α)]).set t ⟨c.value, some new⟩, l.root, some new, l.len + 1⟩

/-- `LinkedList(iterable)` (linked_list.py:58-60). -/
def ofList {α : Type} (vs : List α) : Option (LList α) :=
  vs.foldl (fun l v => l.bind fun l => append l v) (some empty)

/-- `==` on two nodes. -/
def sameNode {α : Type} [DecidableEq α] (heap : List (Cell α)) : Nat → Nat → Nat → Bool
  | 0, _, _ => false
  | fuel + 1, a, b =>
    if a = b then true
    else match heap[a]?, heap[b]? with
      | some x, some y => decide (x.value = y.value) && match x.next, y.next with
        | none, none => true
        | some p, some q => sameNode heap fuel p q
        | _, _ => false
      | _, _ => false

/-- `self._node == self._lst._root`. -/
def isRoot {α : Type} [DecidableEq α] (l : LList α) (a : Nat) : Bool :=
  match l.root with
  | none => false
  | some r => sameNode l.heap (l.heap.length + 1) a r

/-- `Iterator` (linked_list.py:13-17). -/
structure Iter where
  node : Option Nat
  prev : Option Nat
deriving DecidableEq, Repr

/-- `Iterator.next` (linked_list.py:27-30). -/
def Iter.next {α : Type} (l : LList α) (it : Iter) : Option Iter :=
  it.node.bind fun a => (l.heap[a]?).map fun c => ⟨c.next, some a⟩

/-- `Iterator.remove` (linked_list.py:38-50). -/
def Iter.remove {α : Type} [DecidableEq α] (l : LList α) (it : Iter) : Option (LList α × Iter) :=
  it.node.bind fun a =>
    if isRoot l a then
      l.root.bind fun r => (l.heap[r]?).map fun c => (⟨l.heap, c.next, l.tail, l.len - 1⟩, ⟨c.next, it.prev⟩)
    else
      (l.heap[a]?).bind fun c => it.prev.bind fun p => (l.heap[p]?).map fun d =>
        (⟨l.heap.set p ⟨d.value, c.next⟩, l.root, l.tail, l.len - 1⟩, ⟨c.next, it.prev⟩)

/-- The loop of `remove_if` (linked_list.py:72-80) with a condition that may keep a state (converter.py:193-217).  Outer `none`:
out of fuel; inner `none`: `AttributeError`. -/
def removeLoop {α σ : Type} [DecidableEq α] (cond : σ → α → σ × Bool) : Nat → LList α → Iter → σ → Option (Option (LList α × σ))
  | 0, _, _, _ => none
  | fuel + 1, l, it, s =>
    match it.node with
    | none => some (some (l, s))
    | some a =>
      match l.heap[a]? with
      | none => some none
      | some c =>
        match cond s c.value with
        | (s', true) =>
          match it.remove l with
          | none => some none
          | some (l', it') => removeLoop cond fuel l' it' s'
        | (s', false) =>
          match it.next l with
          | none => some none
          | some it' => removeLoop cond fuel l it' s'

/-- `remove_if` (linked_list.py:72-80). -/
def removeIf {α σ : Type} [DecidableEq α] (cond : σ → α → σ × Bool) (l : LList α) (s : σ) : Option (Option (LList α × σ)) :=
  removeLoop cond (l.heap.length + 1) l ⟨l.root, none⟩ s

/-- `while self._node.next is not None: yield self._node; ...` (linked_list.py:19-22). -/
def iterLoop {α : Type} (heap : List (Cell α)) : Nat → Option Nat → Option (Option (List α))
  | 0, _ => none
  | fuel + 1, node =>
    match node.bind fun a => heap[a]? with
    | none => some none
    | some c =>
      match c.next with
      | none => some (some [])
      | some b => (iterLoop heap fuel (some b)).map fun r => r.map (c.value :: ·)

/-- `for v in lst` (linked_list.py:88-89): what is yielded; inner `none`: `AttributeError`. -/
def iterate {α : Type} (l : LList α) : Option (Option (List α)) := iterLoop l.heap (l.heap.length + 1) l.root

/-- `for`-less walk with `iterator()`, `has_next`, `get` and `next`, as in `remove_if`: all values from the root on. -/
def walk {α : Type} (heap : List (Cell α)) : Nat → Option Nat → Option (List α)
  | 0, _ => none
  | fuel + 1, node =>
    match node with
    | none => some []
    | some a => (heap[a]?).bind fun c => (walk heap fuel c.next).map (c.value :: ·)

/-- The values of a list. -/
def values {α : Type} (l : LList α) : Option (List α) := walk l.heap (l.heap.length + 1) l.root

end Sampo.Linked
