import Verif.Model.Scheduler
import Mathlib.Algebra.Order.Ring.Rat

/-!
# The LFT scheduler as a whole: choice of contractors, order and placement (`sampo/scheduler/lft/base.py`)

Scores are rational numbers here, floats in the code.
-/

namespace Sampo.LFT

/-- `get_chain_duration` (lft/time_computaion.py:9-17) with `calculate_working_time_cascade`
(scheduler/utils/time_computaion.py:12-32).  The workers it passes belong to no contractor, `nobody` here. -/
def chainDuration {σ : Type} (E : Env σ) (nobody : Nat) (reqs : Nat → List WorkerReq) (v : Nat) (amounts : List Int) : Int :=
  let team := ((reqs v).zip amounts).map fun x => (⟨nobody, x.1.kind, x.2⟩ : Worker)
  (if (E.insepParent v).isSome then 0 else ((E.chain v).map fun u => E.estimate u team).foldl tAdd 0) + 1

/-- `scores` (lft/base.py:216-222): `durs` and `counts` of the accepted contractors, `total` is the sum over all contractors. -/
def scores (durs counts : List Int) (total : Int) : List ℚ :=
  List.zipWith (fun (d c : Int) => 2 - ((d : ℚ) / (durs.sum : ℤ) + (c : ℚ) / (total : ℤ))) durs counts

/-- `np.argmax` (lft/base.py:247-248): the first index of the largest score. -/
def argmax : List ℚ → Nat
  | [] => 0
  | x :: xs => (x :: xs).idxOf (xs.foldl max x)

/-- `contractors_assignments_count`, `self._node_id2workers` (contractor and team) and `node_id2duration` (lft/base.py:201-205); works
in the order in which they were written. -/
structure Assignment where
  counts : List Int
  teams : List (Nat × Nat × List Worker) := []
  durations : List (Nat × Int) := []

/-- One round of the loop of `_contractor_workers_assignment` (lft/base.py:206-243).  `pick` is `_get_contractor_index`.  The counter
that is increased has the index of the contractor among the accepted ones (line 232), as in the code.  `none`: an exception. -/
def assignWork (contractors : List Contractor) (spec : Nat → WorkSpec) (reqs : Nat → List WorkerReq)
    (chainDur : Nat → List Int → Int) (pick : Nat → List ℚ → Nat) (A : Assignment) (v : Nat) : Option Assignment :=
  match contractorsAndAmounts (getPool contractors) contractors (spec v) (reqs v) with
  | .error _ => none
  | .ok l =>
    let mask := contractors.map (accepted (getPool contractors) (spec v) (reqs v))
    let durs := l.map fun ca => chainDur v ca.2
    let i := pick v (scores durs (((A.counts.zip mask).filter (·.2)).map (·.1)) A.counts.sum)
    (l[i]?).bind fun ca => (durs[i]?).bind fun d =>
      if (spec v).enabled ca.1.id then
        some ⟨A.counts.modify i (· + 1), A.teams ++ [(v, ca.1.id, ((reqs v).zip ca.2).map fun x => ⟨ca.1.id, x.1.kind, x.2⟩)],
          A.durations ++ [(v, d)]⟩
      else none

/-- `_contractor_workers_assignment` (lft/base.py:197-245). -/
def assignAll (contractors : List Contractor) (spec : Nat → WorkSpec) (reqs : Nat → List WorkerReq)
    (chainDur : Nat → List Int → Int) (pick : Nat → List ℚ → Nat) (heads : List Nat) : Option Assignment :=
  heads.foldlM (assignWork contractors spec reqs chainDur pick) ⟨List.replicate contractors.length 1, [], []⟩

/-- The inputs of `build_scheduler` (lft/base.py:144-195) after the assignment, without assigned durations. -/
def Assignment.plan (A : Assignment) (S : Type) (independent : Nat → Bool) (parentTime : Int) : Plan S :=
  ⟨fun _ v => (A.teams.lookup v).map fun x => (x.2, x.1), independent, fun _ => none, parentTime⟩

/-- `LFTScheduler.schedule_with_cache` (lft/base.py:102-142) on a new just-in-time timeline, without the validation and the `Schedule`
object built at the end.  Outer `none`: a search loop does not end within the fuel; inner `none`: an exception. -/
def schedule {σ : Type} (site : Env σ) (nobody : Nat) (g : Graph) (nodes : List Nat) (contractors : List Contractor)
    (spec : Nat → WorkSpec) (reqs : Nat → List WorkerReq) (prio : Nat → Int) (independent : Nat → Bool) (parentTime : Int) (env : σ)
    (fuel : Nat) : Option (Option (JIT.State σ)) :=
  let E := Scheduler.onGraph site g nodes
  match Heads.collapse g nodes with
  | none => some none
  | some c =>
    match assignAll contractors spec reqs (chainDuration E nobody reqs) (fun _ => argmax) c.1 with
    | none => some none
    | some A =>
      JIT.build E (A.plan _ independent parentTime) (agents contractors) env fuel
        (prioritize (fun v => (A.durations.lookup v).getD 0) prio (fun v => (c.2.2.lookup v).getD []) c.1)

/-- The same on a new momentum timeline, which LFT uses by default (lft/base.py:97).  `fuelIn` and `fuel` bound the two loops of the
search for a start. -/
def scheduleMomentum {σ : Type} (site : Env σ) (nobody : Nat) (g : Graph) (nodes : List Nat) (contractors : List Contractor)
    (spec : Nat → WorkSpec) (reqs : Nat → List WorkerReq) (prio : Nat → Int) (independent : Nat → Bool) (parentTime : Int) (env : σ)
    (inf : Int) (fuelIn fuel : Nat) : Option (Option (Momentum.State σ)) :=
  let E := Scheduler.onGraph site g nodes
  match Heads.collapse g nodes with
  | none => some none
  | some c =>
    match assignAll contractors spec reqs (chainDuration E nobody reqs) (fun _ => argmax) c.1 with
    | none => some none
    | some A =>
      Momentum.build E (A.plan _ independent parentTime) (agents contractors) env inf fuelIn fuel
        (prioritize (fun v => (A.durations.lookup v).getD 0) prio (fun v => (c.2.2.lookup v).getD []) c.1)

end Sampo.LFT
