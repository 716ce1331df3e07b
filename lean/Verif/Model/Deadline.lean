import Verif.Model.Time

/-!
# Deadline-driven resource search (`sampo/scheduler/resources_in_time/average_binary_search.py`)

`run k indep` is one call of the base scheduler with resource level `k` (coefficient of the average-requirement optimizer)
and a specification in which exactly the works `indep` are marked independent: its execution time, or `none` for
`NoSufficientContractorError`.  The base scheduler is deterministic.  The specification passed by the user does not occur:
it is copied and then cleared before the first call (lines 50-52), see `searchWithSpec`.  Resource levels are rational numbers (Python floats:
all levels are dyadic rationals of at most 32 bits, so they are exact).
-/

namespace Sampo.Deadline

/-- The arguments of the last call of the base scheduler, whose result is returned, and the log of `fitness` calls. -/
structure Outcome where
  k : Rat
  indep : List Nat
  probes : List Rat

/-- Making works independent one by one (lines 67-78).  `none`: `AttributeError`, because the failed call has no
schedule. -/
def indepLoop (run : Rat → List Nat → Option Int) (deadline : Int) (kMax : Rat) :
    List Nat → List Nat → Nat → Option (List Nat)
  | [], indep, _ => some indep
  | v :: vs, indep, tries =>
    (run kMax (v :: indep)).bind fun t =>
      if t > deadline then
        if tries + 1 = 3 then some indep else indepLoop run deadline kMax vs indep (tries + 1)
      else indepLoop run deadline kMax vs (v :: indep) 0

/-- State of the binary search: best distances to the deadline from the left (not later) and from the right (later) with
the levels they were reached at (lines 84-87), and the log. -/
structure Search where
  leftFit : Int
  leftM : Rat
  rightFit : Int
  rightM : Rat
  probes : List Rat

/-- The binary search (lines 89-101).  Outer `none`: out of fuel; inner `none`: `AttributeError`. -/
def binLoop (run : Rat → List Nat → Option Int) (deadline : Int) : Nat → Rat → Rat → Search → Option (Option Search)
  | 0, _, _, _ => none
  | fuel + 1, kMin, kMax, s =>
    if kMax - kMin > 1 / 20 then
      let m := (kMin + kMax) / 2
      match run m [] with
      | none => some none
      | some t =>
        let dist : Int := (t - deadline).natAbs
        if t > deadline then
          let s := if dist ≤ s.rightFit then { s with rightFit := dist, rightM := m } else s
          binLoop run deadline fuel kMin m { s with probes := m :: s.probes }
        else
          let s := if dist ≤ s.leftFit then { s with leftFit := dist, leftM := m } else s
          binLoop run deadline fuel m kMax { s with probes := m :: s.probes }
    else some (some s)

/-- `schedule_with_cache` (lines 26-105); nodes in the order of `wg.nodes`.  19 rounds are more than the binary search
needs. -/
def search (run : Rat → List Nat → Option Int) (nodes : List Nat) (deadline : Int) : Option (Option Outcome) :=
  match run 10000 [] with
  | none => some none
  | some t =>
    if t < deadline then
      some ((indepLoop run deadline 10000 nodes [] 0).map fun indep => ⟨10000, indep, [10000]⟩)
    else
      (binLoop run deadline 19 1 10000 ⟨timeInf, 10000, timeInf, 1, [10000]⟩).map fun r => r.map fun s =>
        if s.leftFit < timeInf then ⟨s.leftM, [], s.probes⟩ else ⟨s.rightM, [], s.probes⟩

/-- `schedule_with_cache` with the user's specification (a dict of work specifications `σ`): lines 50-52 deep-copy it and
clear the copy.  `base` is the base scheduler under a specification. -/
def searchWithSpec {σ : Type} (base : List (Nat × σ) → Rat → List Nat → Option Int) (spec : List (Nat × σ))
    (nodes : List Nat) (deadline : Int) : Option (Option Outcome) :=
  let copied := spec
  let cleared := copied.filter fun _ => false
  search (base cleared) nodes deadline

end Sampo.Deadline
