import Verif.Model.Time
import Verif.Model.Worker
import Verif.Model.Optimize

/-!
# Contractors, contractor search and choice of teams

`sampo/scheduler/utils/multi_contractor.py`, `sampo/scheduler/base.py`, `sampo/scheduler/generic.py`,
`sampo/scheduler/lft/base.py`, `sampo/schemas/schedule_spec.py`.

Dicts keyed by worker names are association lists; `List.lookup` finds the first entry of a key.
-/

namespace Sampo

/-- `WorkerReq` (requirements.py:31-46); volume and name are not needed here. -/
structure WorkerReq where
  kind : Nat
  minCount : Int
  maxCount : Int
deriving DecidableEq, Repr

/-- `Contractor` (contractor.py): id and the dict of workers (name, count). -/
structure Contractor where
  id : Nat
  workers : List (Nat × Int)
deriving DecidableEq, Repr

/-- `WorkSpec` (schedule_spec.py:12-33): enabled contractors and fixed worker counts.  The assigned time and the
independence flag are handled by the timelines (`Model/Sched.lean`). -/
structure WorkSpec where
  contractors : List Nat := []
  assigned : List (Nat × Int) := []
deriving DecidableEq, Repr

/-- `WorkSpec.is_contractor_enabled` (schedule_spec.py:29-30). -/
def WorkSpec.enabled (s : WorkSpec) (c : Nat) : Bool := s.contractors.isEmpty || s.contractors.contains c

/-- `WorkSpec.filter_contractors` (schedule_spec.py:32-33). -/
def WorkSpec.filter (s : WorkSpec) (cs : List Contractor) : List Contractor := cs.filter fun c => s.enabled c.id

/-- `WorkerContractorPool`: count of workers by worker name and contractor id. -/
abbrev WPool := Nat → Nat → Option Int

/-- `get_worker_contractor_pool` (scheduler/utils/__init__.py:12-24). -/
def getPool (cs : List Contractor) : WPool :=
  cs.foldl (fun pool c => c.workers.foldl (fun p w => fun name id => if name = w.1 ∧ id = c.id then some w.2 else p name id) pool)
    fun _ _ => none

/-- `get_worker_borders` (multi_contractor.py:14-42): lower borders, upper borders and the workers of the pool; three
empty lists when a requirement cannot be met. -/
def getWorkerBorders (pool : WPool) (c : Nat) (reqs : List WorkerReq) : List Int × List Int × List Worker :=
  go reqs [] [] []
where
  go : List WorkerReq → List Int → List Int → List Worker → List Int × List Int × List Worker
  | [], lo, hi, ws => (lo, hi, ws)
  | r :: reqs, lo, hi, ws =>
    match pool r.kind c with
    | none => ([], [], [])
    | some n =>
      if n < r.minCount then ([], [], [])
      else go reqs (lo ++ [r.minCount]) (hi ++ [min r.maxCount n]) (ws ++ [⟨c, r.kind, n⟩])

/-- `sum(w.count for w in contractor.workers.values())` (multi_contractor.py:69). -/
def Contractor.size (c : Contractor) : Int := (c.workers.map (·.2)).sum

/-- The best contractor so far: finish time, contractor and its size (multi_contractor.py:60-63).  `none` stands for
`Time.inf()`, `None` and `float('inf')`. -/
abbrev Best := Option (Int × Contractor × Int)

/-- One iteration of the search (multi_contractor.py:67-75). -/
def searchStep (best : Best) (c : Contractor) (finish : Int) : Best :=
  let better := match best with
    | none => decide (finish < timeInf) || finish == timeInf
    | some (bf, _, bs) => decide (finish < bf) || (finish == bf && decide (c.size < bs))
  if !tIsInf finish && better then some (finish, c, c.size) else best

/-- The loop of the search over the contractors; `none` when the runner raises. -/
def searchLoop {τ : Type} (runner : Contractor → Option (Int × Int × τ)) : List Contractor → Best → Option Best
  | [], best => some best
  | c :: cs, best => (runner c).bind fun r => searchLoop runner cs (searchStep best c r.2.1)

/-- `run_contractor_search` (multi_contractor.py:45-83).  The runner is a deterministic function of the contractor.
Outer `none`: the runner raised; inner `none`: `NoSufficientContractorError`. -/
def runContractorSearch {τ : Type} (contractors : List Contractor) (spec : WorkSpec)
    (runner : Contractor → Option (Int × Int × τ)) : Option (Option (Int × Int × Contractor × τ)) :=
  (searchLoop runner (spec.filter contractors) none).bind fun best =>
    match best with
    | none => some none
    | some (_, c, _) => (runner c).bind fun r => some (some (r.1, r.2.1, c, r.2.2))

/-- A resource optimizer: `optimize_array`, lower and upper borders, counts of the team ↦ new counts. -/
abbrev Optimizer := Option (List Bool) → List Int → List Int → List Int → Option (List Int)

/-- `Scheduler.optimize_resources_using_spec` (scheduler/base.py:91-128) for a team in which every worker's name is among
the requirements (the filter in line 106 keeps it whole; `run_with_contractor` builds it so).  `optimize` is
`optimize_lambda` acting on the counts.  `none`: `KeyError` in line 111 or an exception in the optimizer. -/
def applyTeamSpec (reqs : List WorkerReq) (team : List Worker) (assigned : List (Nat × Int))
    (optimize : Option (List Bool) → List Int → Option (List Int)) : Option (List Worker) :=
  if assigned.length = reqs.length then
    team.mapM fun w => (assigned.lookup w.name).map fun n => { w with count := n }
  else
    let fixed := team.map fun w => ((assigned.lookup w.name).getD 0)
    let team' := if assigned.isEmpty then team
      else (team.zip fixed).map fun x => if x.2 > 0 then { x.1 with count := x.2 } else x.1
    let arr := if assigned.isEmpty then none else some (fixed.map fun n => !decide (n > 0))
    (optimize arr (team'.map (·.count))).map fun counts => (team'.zip counts).map fun x => { x.1 with count := x.2 }

/-- `run_with_contractor` inside `optimize_resources_def` (scheduler/generic.py:81-100).  `find` is
`timeline.find_min_start_time_with_additional` (start and finish for a team); `none`: an exception. -/
def runWithContractor (pool : WPool) (parent : Int) (reqs : List WorkerReq) (spec : WorkSpec) (opt : Optimizer)
    (find : Contractor → List Worker → Option (Int × Int)) (c : Contractor) : Option (Int × Int × List Worker) :=
  let b := getWorkerBorders pool c.id reqs
  if b.2.2.length ≠ reqs.length then some (parent, timeInf, [])
  else (applyTeamSpec reqs b.2.2 spec.assigned fun arr counts => opt arr b.1 b.2.1 counts).bind fun team =>
    (find c team).bind fun t => some (t.1, t.2, team)

/-- `optimize_resources_def` (scheduler/generic.py:74-102): start, finish, contractor and team for a work.  The optimizer
may behave differently for each contractor: the finish time it asks for (`ft_getter`) depends on the contractor's team. -/
def chooseTeam (contractors : List Contractor) (parent : Int) (reqs : List WorkerReq) (spec : WorkSpec)
    (opt : Contractor → Optimizer) (find : Contractor → List Worker → Option (Int × Int)) :
    Option (Option (Int × Int × Contractor × List Worker)) :=
  runContractorSearch contractors spec fun c => runWithContractor (getPool contractors) parent reqs spec (opt c) find c

namespace LFT

/-- `work_spec.assigned_workers.get(req.kind, -1)` (lft/base.py:34). -/
def specAmount (spec : WorkSpec) (r : WorkerReq) : Int := (spec.assigned.lookup r.kind).getD (-1)

/-- `in_spec_mask` (lft/base.py:36). -/
def inSpec (spec : WorkSpec) (r : WorkerReq) : Bool := specAmount spec r != -1

/-- The contractor's amount of workers of a required type, -1 if it has none (lft/base.py:51-54). -/
def amount (pool : WPool) (c : Contractor) (r : WorkerReq) : Int := (pool r.kind c.id).getD (-1)

/-- One entry of `contractors_mask` (lft/base.py:57-61). -/
def accepted (pool : WPool) (spec : WorkSpec) (reqs : List WorkerReq) (c : Contractor) : Bool :=
  (reqs.all fun r => decide (amount pool c r ≥ r.minCount)) &&
  ((reqs.filter (inSpec spec)).all fun r => decide (amount pool c r ≥ specAmount spec r)) &&
  spec.enabled c.id

/-- One row of `workers_amounts` (lft/base.py:70-84). -/
def amounts (pool : WPool) (spec : WorkSpec) (reqs : List WorkerReq) (c : Contractor) : List Int :=
  if reqs.all (inSpec spec) then reqs.map (specAmount spec)
  else reqs.map fun r => if inSpec spec r then specAmount spec r else min (amount pool c r) r.maxCount

/-- Errors of `get_contractors_and_workers_amounts_for_work`. -/
inductive Err where
  | notEnough | tooMany | noContractor
deriving DecidableEq, Repr

/-- `get_contractors_and_workers_amounts_for_work` (lft/base.py:23-86): accepted contractors with their amounts.  The
contractor list is not empty (numpy fails on an empty one). -/
def contractorsAndAmounts (pool : WPool) (contractors : List Contractor) (spec : WorkSpec) (reqs : List WorkerReq) :
    Except Err (List (Contractor × List Int)) :=
  if (reqs.filter (inSpec spec)).any fun r => decide (specAmount spec r < r.minCount) then .error .notEnough
  else if (reqs.filter (inSpec spec)).any fun r => decide (specAmount spec r > r.maxCount) then .error .tooMany
  else if !(contractors.any (accepted pool spec reqs)) then .error .noContractor
  else .ok ((contractors.filter (accepted pool spec reqs)).map fun c => (c, amounts pool spec reqs c))

/-- Contractor and team of one work in `_contractor_workers_assignment` (lft/base.py:206-240).  `index` is the choice of
`_get_contractor_index` (arg max of the scores, or a random index in the randomized scheduler): any function of the number
of accepted contractors. -/
def assign (contractors : List Contractor) (spec : WorkSpec) (reqs : List WorkerReq) (index : Nat → Nat) :
    Except Err (Option (Contractor × List Worker)) :=
  match contractorsAndAmounts (getPool contractors) contractors spec reqs with
  | .error e => .error e
  | .ok l => .ok <| (l[index l.length]?).map fun ca =>
      (ca.1, (reqs.zip ca.2).map fun x => ⟨ca.1.id, x.1.kind, x.2⟩)

end LFT

end Sampo
