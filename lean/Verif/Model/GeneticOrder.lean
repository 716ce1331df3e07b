import Mathlib.Data.List.Basic
import Mathlib.Data.List.Dedup
import Verif.Prelude

/-!
# Model of the genetic operators on work orders (sampo/scheduler/genetic/operators.py)

An order is a numpy array of work indices; here a list.  A slice of an array is a view, so the in-place operators change
a segment of the whole order.  Results of the random generator are parameters; the range they are drawn from is stated by
`Draw`, `Draws` and `Choice`.  The result `none` stands for an exception.
-/

namespace Sampo.Genetic

/-- `get_order_part` (operators.py:457-463): the works of the other order that are not in the given list. -/
def orderPart (used other : List Nat) : List Nat := other.filter fun v => v ∉ used

/-- The numpy assignment `slice[:] = values` for a slice of `n` elements: equal sizes, or one value for all, otherwise a
`ValueError`. -/
def broadcast (n : Nat) (values : List Nat) : Option (List Nat) :=
  if values.length = n then some values
  else match values with
    | [x] => some (List.replicate n x)
    | _ => none

/-- `two_point_order_crossover` (operators.py:506-530).  `amount` is `rand.randint(m, 3 * m)`, `head` is
`rand.randint(1, amount - 1)`. -/
def crossover (child other : List Nat) (amount head : Nat) : Option (List Nat) :=
  if 1 < amount then
    let tail := amount - head
    let h := child.take head
    let t := child.drop (child.length - tail)
    (broadcast (child.length - head - tail) (orderPart (h ++ t) other)).map fun part => h ++ part ++ t
  else some child

/-- One pair of random numbers drawn by `two_point_order_crossover` (operators.py:518-522). -/
def Draw (m amount head : Nat) : Prop := m ≤ amount ∧ amount ≤ 3 * m ∧ (1 < amount → 1 ≤ head ∧ head ≤ amount - 1)

/-- `mate_parts` (operators.py:482-488). -/
def mateParts (part1 part2 : List Nat) (d1 d2 : Nat × Nat) : Option (List Nat × List Nat) :=
  (crossover part1 part2 d1.1 d1.2).bind fun c1 => (crossover part2 part1 d2.1 d2.2).map fun c2 => (c1, c2)

/-- One iteration of the loop of `mate_scheduling_order` (operators.py:497-501): the current priority and the two orders.
The start of the group is never advanced, so the parts are prefixes. -/
def mateStep (prio : Nat → Int) (draws : Nat → (Nat × Nat) × (Nat × Nat)) (s : Int × List Nat × List Nat) (i : Nat) :
    Option (Int × List Nat × List Nat) :=
  match s.2.1[i]? with
  | none => none
  | some v =>
    if prio v = s.1 then some s
    else (mateParts (s.2.1.take i) (s.2.2.take i) (draws i).1 (draws i).2).map fun p =>
      (prio v, p.1 ++ s.2.1.drop i, p.2 ++ s.2.2.drop i)

/-- `mate_scheduling_order` (operators.py:466-503) on the orders of the two individuals.  `draws i` are the random numbers
used when position `i` starts another priority. -/
def mate (prio : Nat → Int) (draws : Nat → (Nat × Nat) × (Nat × Nat)) (o1 o2 : List Nat) : Option (List Nat × List Nat) :=
  match o1[0]? with
  | none => none
  | some v => ((List.range o1.length).foldlM (mateStep prio draws) (prio v, o1, o2)).map (·.2)

/-- The random numbers of `mate_scheduling_order`: a part of `i` works is crossed with minimum amount `i // 4`. -/
def Draws (draws : Nat → (Nat × Nat) × (Nat × Nat)) : Prop :=
  ∀ i, Draw (i / 4) (draws i).1.1 (draws i).1.2 ∧ Draw (i / 4) (draws i).2.1 (draws i).2.2

/-! ### Mutation -/

/-- `np.max(np.where(np.isin(order[:i], parents))[0], initial=0) + 1` (operators.py:552-553). -/
def lowest (ps : List Nat) (order : List Nat) (i : Nat) : Nat :=
  ((List.range i).filter fun k => (order[k]?).any (· ∈ ps)).foldl max 0 + 1

/-- `np.min(np.where(np.isin(order[i + 1:], children))[0], initial=len(order) - 2 - i) + i` (operators.py:557-558). -/
def highest (cs : List Nat) (order : List Nat) (i : Nat) : Nat :=
  ((List.range (order.length - (i + 1))).filter fun k => (order[i + 1 + k]?).any (· ∈ cs)).foldl min (order.length - 2 - i) + i

/-- `choices` (operators.py:567): `np.arange(i_parent, i)` and `np.arange(i + 1, i_children + 1)`. -/
def choices (lo i hi : Nat) : List Nat := List.range' lo (i - lo) ++ List.range' (i + 1) (hi - i)

/-- The body of the loop of `mutate_scheduling_order_core` (operators.py:547-577) for the work `work` at the tracked
position `i`, with the tracked positions `rest` of the works still to come.  `pick` is `rand.choices(choices)[0]`; no choices
make it an `IndexError`. -/
def mutateWork (par chi : Nat → List Nat) (pick : List Nat → Option Nat) (order : List Nat) (work i : Nat)
    (rest : List Nat) : Option (List Nat × List Nat) :=
  let lo := lowest (par work) order i
  let hi := highest (chi work) order i
  if lo = hi then some (order, rest)
  else
    let rest1 := rest.map fun k => if i < k then k - 1 else k
    (pick (choices lo i hi)).map fun new =>
      ((order.eraseIdx i).insertIdx new work, rest1.map fun k => if new ≤ k then k + 1 else k)

/-- The loop of `mutate_scheduling_order_core` (operators.py:547-577). -/
def mutateLoop (par chi : Nat → List Nat) (pick : Nat → List Nat → Option Nat) :
    List Nat → List Nat → List Nat → Option (List Nat)
  | [], _, order => some order
  | _ :: _, [], _ => none
  | work :: works, i :: rest, order =>
    (mutateWork par chi (pick works.length) order work i rest).bind fun s => mutateLoop par chi pick works s.2 s.1

/-- `mutate_scheduling_order_core` (operators.py:533-577).  `positions` are the shuffled positions of the mask. -/
def mutateCore (par chi : Nat → List Nat) (positions : List Nat) (pick : Nat → List Nat → Option Nat) (order : List Nat) :
    Option (List Nat) :=
  (positions.mapM fun i => order[i]?).bind fun works => mutateLoop par chi pick works positions order

/-- The random choices of `mutate_scheduling_order_core` for a group of `n` works: distinct positions without the first and
the last one; `rand.choices` gives one of the choices, if there is one. -/
structure Choice (n : Nat) (positions : List Nat) (pick : Nat → List Nat → Option Nat) : Prop where
  nodup : positions.Nodup
  range : ∀ i ∈ positions, 1 ≤ i ∧ i + 2 ≤ n
  pick_mem : ∀ k l, l ≠ [] → ∃ x ∈ l, pick k l = some x

/-- One iteration of the loop of `mutate_scheduling_order` (operators.py:602-609): current priority, start of the group, and
the order. -/
def mutateStep (par chi : Nat → List Nat) (prio : Nat → Int) (positions : Nat → Nat → List Nat)
    (pick : Nat → Nat → List Nat → Option Nat) (s : Int × Nat × List Nat) (i : Nat) : Option (Int × Nat × List Nat) :=
  match s.2.2[i]? with
  | none => none
  | some v =>
    if prio v = s.1 then some s
    else (mutateCore par chi (positions i ((s.2.2.take i).drop s.2.1).length) (pick i) ((s.2.2.take i).drop s.2.1)).map
      fun group => (prio v, i, s.2.2.take s.2.1 ++ group ++ s.2.2.drop i)

/-- `mutate_scheduling_order` (operators.py:580-611) on the order of the individual.  `positions i n`, `pick i` are the
random choices for the group of `n` works that ends before position `i`. -/
def mutate (par chi : Nat → List Nat) (prio : Nat → Int) (positions : Nat → Nat → List Nat)
    (pick : Nat → Nat → List Nat → Option Nat) (order : List Nat) : Option (List Nat) :=
  match order[0]? with
  | none => none
  | some v => ((List.range order.length).foldlM (mutateStep par chi prio positions pick) (prio v, 0, order)).map (·.2.2)

end Sampo.Genetic
