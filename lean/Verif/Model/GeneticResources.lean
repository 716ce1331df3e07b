import Mathlib.Data.List.Basic
import Mathlib.Data.Int.Order.Basic
import Verif.Prelude

/-!
# Model of the genetic operators on resources (sampo/scheduler/genetic/operators.py, utils.py)

The arrays of a chromosome are functions of their indices; their shapes (`n` works, `m` kinds of workers) are parameters.
Indices outside the shapes do not occur, as all indices come from `enumerate`, `arange` and `unique` of the same arrays.
Results of the random generator are parameters.
-/

namespace Sampo.GeneticRes

/-- The resource part (`ind[1]`: amounts and, in the last column, the contractor) and the border part (`ind[2]`) of a
chromosome (converter.py:52-83). -/
structure Chrom where
  amount : Nat → Nat → Int
  contractor : Nat → Nat
  border : Nat → Nat → Int

/-- `res1[positions], res2[positions] = res2[positions], res1[positions]` (operators.py:636), the first child. -/
def takeRows (positions : List Nat) (own other : Chrom) : Chrom where
  amount w := if w ∈ positions then other.amount w else own.amount w
  contractor w := if w ∈ positions then other.contractor w else own.contractor w
  border := own.border

/-- The update of the borders of one child (operators.py:640-645): for contractors of the mated positions the maximum of the
borders of the two children. -/
def raiseBorders (positions : List Nat) (child : Chrom) (b1 b2 : Nat → Nat → Int) : Chrom where
  amount := child.amount
  contractor := child.contractor
  border c k := if c ∈ positions.map child.contractor then max (b1 c k) (b2 c k) else child.border c k

/-- `mate_resources` (operators.py:614-647).  The second child sees the borders of the first one already updated. -/
def mate (positions : List Nat) (optimize : Bool) (p1 p2 : Chrom) : Chrom × Chrom :=
  let c1 := takeRows positions p1 p2
  let c2 := takeRows positions p2 p1
  if optimize then
    let d1 := raiseBorders positions c1 c1.border c2.border
    let d2 := raiseBorders positions c2 d1.border c2.border
    (d1, d2)
  else (c1, c2)

/-- `np.arange(a, b)`. -/
def arange (a b : Int) : List Int := (List.range (b - a).toNat).map fun (k : Nat) => a + (k : Int)

/-- The values `mutate_values` chooses from (operators.py:842-843). -/
def choices (low cur up : Int) : List Int := arange low cur ++ arange (cur + 1) (up + 1)

/-- `mutate_values` (operators.py:830-846) on the masked cells of `old`; `pick` is `rand.choices`.  With nothing to choose from it
raises `IndexError` (`none`). -/
def mutateValues (rows cols : List Nat) (masks : Nat → Nat → Bool) (low up old : Nat → Nat → Int)
    (pick : Nat → Nat → List Int → Int) : Option (Nat → Nat → Int) :=
  if rows.all fun r => cols.all fun k => ! masks r k || decide (choices (low r k) (old r k) (up r k) ≠ []) then
    some fun r k => if r ∈ rows ∧ k ∈ cols ∧ masks r k then pick r k (choices (low r k) (old r k) (up r k)) else old r k
  else none

/-- The change of contractors (operators.py:669-699): a masked work gets the drawn contractor if its team fits into the borders
of this contractor. -/
def mutateContractors (n m : Nat) (mask : Nat → Bool) (new : Nat → Nat) (ch : Chrom) : Chrom where
  amount := ch.amount
  border := ch.border
  contractor w :=
    if w < n ∧ mask w ∧ ∀ k ∈ List.range m, ch.amount w k ≤ ch.border (new w) k then new w else ch.contractor w

/-- `mutate_resources` (operators.py:650-725) for `nc` contractors.  `lo`, `hi` are `resources_border`. -/
def mutate (n m nc : Nat) (lo hi : Nat → Nat → Int) (mask : Nat → Bool) (new : Nat → Nat) (masks : Nat → Nat → Bool)
    (pick : Nat → Nat → List Int → Int) (ch : Chrom) : Option Chrom :=
  let ch1 := if 1 < nc then mutateContractors n m mask new ch else ch
  let up w k := min (hi w k) (ch1.border (ch1.contractor w) k)
  (mutateValues (List.range n) (List.range m) (fun w k => masks w k && decide (up w k ≠ lo w k)) lo up ch1.amount pick).map
    fun amount => { ch1 with amount := amount }

/-- `r.max(axis=0)` of the rows of a contractor (operators.py:452, 815), one column.  Only taken for contractors with rows. -/
def groupMax (n : Nat) (ch : Chrom) (c k : Nat) : Int :=
  ((((List.range n).filter fun w => ch.contractor w = c).map fun w => ch.amount w k).max?).getD 0

/-- `mutate_resource_borders` (operators.py:779-827).  `cap` is `contractor_borders`. -/
def mutateBorders (n m : Nat) (cap : Nat → Nat → Int) (masks : Nat → Nat → Bool) (pick : Nat → Nat → List Int → Int)
    (ch : Chrom) : Option Chrom :=
  (mutateValues ((List.range n).map ch.contractor) (List.range m)
    (fun c k => masks c k && decide (cap c k ≠ groupMax n ch c k)) (groupMax n ch) cap ch.border pick).map
    fun border => { ch with border := border }

/-! ### Checks -/

/-- `is_chromosome_order_correct` (operators.py:401-418): the loop with the set of works seen so far. -/
def orderLoop (parents : Nat → List Nat) (prio : Nat → Int) : List Nat → List Nat → Bool
  | _, [] => true
  | used, v :: rest =>
    (parents v).all (fun p => decide (p ∈ v :: used)) && !(parents v).any (fun p => decide (prio v < prio p)) &&
      orderLoop parents prio (v :: used) rest

def orderCorrect (parents : Nat → List Nat) (prio : Nat → Int) (order : List Nat) : Bool := orderLoop parents prio [] order

/-- `is_chromosome_contractors_correct` (operators.py:421-454).  `enabled w c` is `spec[w].is_contractor_enabled(c)`.  Sorting by
contractor, `np.unique` and `np.split` group the rows by contractor. -/
def contractorsCorrect (n m : Nat) (cap : Nat → Nat → Int) (enabled : Nat → Nat → Bool) (order : List Nat) (ch : Chrom) :
    Bool :=
  if n = 0 then true
  else (order.all fun w => enabled w (ch.contractor w)) &&
    (((List.range n).map ch.contractor).all fun c => (List.range m).all fun k => decide (groupMax n ch c k ≤ ch.border c k)) &&
    (((List.range n).map ch.contractor).all fun c => (List.range m).all fun k => decide (ch.border c k ≤ cap c k))

/-! ### Borders of contractors -/

/-- A contractor: its workers as (kind, count), in the order of its dictionary. -/
abbrev Staff := List (Nat × Int)

/-- Kinds in the order of `get_worker_contractor_pool` (scheduler/utils/__init__.py:12-24): first appearance. -/
def kinds (contractors : List Staff) : List Nat :=
  (contractors.flatMap fun s => s.map (·.1)).foldl (fun acc k => if k ∈ acc then acc else acc ++ [k]) []

/-- `contractor_borders` (utils.py:51-54): the count of the `k`-th worker of the contractor's own dictionary, zero beyond it. -/
def contractorBorders (contractors : List Staff) (c k : Nat) : Int :=
  match contractors[c]? with
  | none => 0
  | some s => match s[k]? with
    | none => 0
    | some w => w.2

end Sampo.GeneticRes
