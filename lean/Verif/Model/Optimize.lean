import Verif.Model.Time

/-!
# Resource optimizers (`sampo/utilities/base_opt.py`, `sampo/scheduler/resource/*.py`)

A worker team is represented by the list of its counts.  `fitness` stands for `get_finish_time` as a function of the
counts: the Python closures write the counts into the team and ask for the finish time; the counts they leave behind are
overwritten at the end.  All lists have one entry per worker of the team.
-/

namespace Sampo.Optimize

/-- The loop of `dichotomy_int` (base_opt.py:27-40); `>> 1` is floor division by 2.  `fuel` bounds the number of
iterations; `dichotomyInt` gives more than needed (`Lemmas/Optimize.lean`). -/
def dichotomyLoop (f : Int → Int) : Nat → Int → Int → Int
  | 0, down, up => (up + down) / 2
  | n + 1, down, up =>
    if up - down > 2 then
      let x1 := (down + up - 1) / 2
      let x2 := (down + up + 1) / 2
      if x1 = x2 then x1
      else if f x1 < f x2 then dichotomyLoop f n down x2
      else dichotomyLoop f n x1 up
    else (up + down) / 2

/-- `dichotomy_int` (base_opt.py:27-40). -/
def dichotomyInt (down up : Int) (f : Int → Int) : Int := dichotomyLoop f (up - down).toNat down up

/-- Truth value of `optimize_array` in a condition: `None` is false, a numpy array with one element has the truth value
of that element, an array with more elements raises `ValueError` (`none`).  An empty array is false. -/
def npTruth : Option (List Bool) → Option Bool
  | none => some false
  | some [] => some false
  | some [b] => some b
  | some _ => none

/-- The loop of `coordinate_descent` (base_opt.py:47-56) from position `pre.length`; `cur = pre ++ down`.  `truth` is the
truth value of `optimize_array` and `flags` are its elements from this position. -/
def descentLoop (method : Int → Int → (Int → Int) → Int) (fitness : List Int → Int) (truth : Bool) :
    List Int → List Int → List Int → List Bool → List Int
  | pre, d :: down, u :: up, flags =>
    if truth && !(flags.headD true) then descentLoop method fitness truth (pre ++ [d]) down up flags.tail
    else
      let x := method d u fun x => fitness (pre ++ x :: down)
      descentLoop method fitness truth (pre ++ [x]) down up flags.tail
  | pre, _, _, _ => pre

/-- `coordinate_descent` (base_opt.py:43-57).  The truth value of `optimize_array` is only asked for when there is a
position. -/
def coordinateDescent (method : Int → Int → (Int → Int) → Int) (fitness : List Int → Int) (arr : Option (List Bool))
    (down up : List Int) : Option (List Int) :=
  if down = [] then some []
  else (npTruth arr).bind fun truth => some (descentLoop method fitness truth [] down up (arr.getD []))

/-- Writing counts into the team (coordinate_descent.py:53-59): all positions when `optimize_array` is false, else the
positions where it is set. -/
def writeBack (truth : Bool) (flags : List Bool) (team new : List Int) : List Int :=
  if truth then (team.zip (new.zip flags)).map fun x => if x.2.2 then x.2.1 else x.1
  else new

/-- `CoordinateDescentResourceOptimizer.optimize_resources` (coordinate_descent.py:20-59): the counts of the team after
the call. -/
def descentOptimize (method : Int → Int → (Int → Int) → Int) (fitness : List Int → Int) (arr : Option (List Bool))
    (down up team : List Int) : Option (List Int) :=
  (coordinateDescent method fitness arr down up).bind fun new =>
    (npTruth arr).bind fun truth => some (writeBack truth (arr.getD []) team new)

/-- `(up + down) // 2` on arrays (full_scan.py:57). -/
def midpoint (down up : List Int) : List Int := List.zipWith (fun d u => (u + d) / 2) down up

/-- `(a > b).any()` (full_scan.py:56). -/
def anyGreater (a b : List Int) : Bool := (List.zipWith (fun x y => decide (x > y)) a b).any id

/-- The loop of `FullScanResourceOptimizer.optimize_resources` (full_scan.py:50-66): `mid` and the upper border at its
end.  `none` when the fuel is used up. -/
def scanLoop (fitness : List Int → Int) : Nat → List Int → List Int → List Int → Int → Int → Option (List Int × List Int)
  | 0, _, _, _, _, _ => none
  | n + 1, down, up, mid, leftFit, rightFit =>
    if anyGreater mid down then
      let mid' := midpoint down up
      let next := fitness mid'
      if next < rightFit then scanLoop fitness n mid' up mid' next rightFit
      else if next > leftFit then scanLoop fitness n down mid' mid' leftFit next
      else some (mid', up)
    else some (mid, up)

/-- Bound for the number of iterations of `scanLoop`. -/
def scanFuel (down up : List Int) : Nat := (List.zipWith (fun d u => (u - d).toNat) down up).sum + 2

/-- `FullScanResourceOptimizer.optimize_resources` (full_scan.py:20-74). -/
def fullScan (fitness : List Int → Int) (arr : Option (List Bool)) (down up team : List Int) : Option (List Int) :=
  (scanLoop fitness (scanFuel down up) down up up (fitness down) (fitness up)).bind fun r =>
    descentOptimize dichotomyInt fitness arr r.1 r.2 team

/-- `max(0, down) + int((up - down) / k)` for `k = kn / kd` (average_req.py:43, 47); `int` rounds towards zero.  Float
rounding is left out. -/
def averageCount (kn kd down up : Int) : Int := max 0 down + Int.tdiv ((up - down) * kd) kn

/-- `AverageReqResourceOptimizer.optimize_resources` (average_req.py:22-47). -/
def averageReq (kn kd : Int) (arr : Option (List Bool)) (down up team : List Int) : Option (List Int) :=
  (npTruth arr).bind fun truth =>
    some (writeBack truth (arr.getD []) team (List.zipWith (averageCount kn kd) down up))

/-- `IdentityResourceOptimizer.optimize_resources` (identity.py:16-24). -/
def identity (_arr : Option (List Bool)) (_down _up team : List Int) : Option (List Int) := some team

end Sampo.Optimize
