import Verif.Model.PriorityQueue

/-! Specification: a priority queue as a list of values in the order in which they came. -/

namespace Sampo.PQueue

variable {α : Type}

/-- The values of a queue, in its own order. -/
def Queue.values (q : Queue α) : List α := q.entries.map (·.value)

/-- `v` comes out of the waiting values `l`, which leaves `rest`: its key is the greatest (the smallest if the queue is descending), and of
equal keys it is the one that came last. -/
def Out (descending : Bool) (key : α → Int) (l : List α) (v : α) (rest : List α) : Prop :=
  ∃ a b, l = a ++ v :: b ∧ rest = a ++ b ∧
    if descending then (∀ x ∈ a, key v ≤ key x) ∧ ∀ x ∈ b, key v < key x else (∀ x ∈ a, key x ≤ key v) ∧ ∀ x ∈ b, key x < key v

/-- What a history of calls does to the waiting values: the values that come out (`none`: an exception) and the values left. -/
inductive Waiting [DecidableEq α] (descending : Bool) (key : α → Int) : List α → List (Op α) → List (Option α) → List α → Prop
  | done (l : List α) : Waiting descending key l [] [] l
  | add {l ops outs r} (v : α) : Waiting descending key (l ++ [v]) ops outs r → Waiting descending key l (.add v :: ops) outs r
  | extract {l l' ops outs r} (v : α) : Out descending key l v l' → Waiting descending key l' ops outs r →
      Waiting descending key l (.extract :: ops) (some v :: outs) r
  | exception {ops outs r} : Waiting descending key [] ops outs r → Waiting descending key [] (.extract :: ops) (none :: outs) r
  | replace {l ops outs r} (old new : α) : Waiting descending key (l.erase old ++ [new]) ops outs r →
      Waiting descending key l (.replace old new :: ops) outs r
  | decrease {l ops outs r} (v : α) : Waiting descending key (l.erase v ++ [v]) ops outs r →
      Waiting descending key l (.decrease v :: ops) outs r

end Sampo.PQueue
