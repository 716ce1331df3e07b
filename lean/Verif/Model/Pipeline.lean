import Verif.Model.Contractor
import Mathlib.Data.Rat.Floor

/-!
# The pipeline (`sampo/pipeline/default.py`), generated contractors (`sampo/generator/environment`), queues of local optimizers
(`sampo/schemas/apply_queue.py`)

Graphs, schedules and node orders are of any type here; restructuring and the scheduler are parameters.  Only the input of a ready
`WorkGraph` is modelled (tables are read by `CSVParser`, see `Model/Cycles.lean`).
-/

namespace Sampo.Pipeline

/-! ## The check of the contractors -/

/-- The loop over the requirements (default.py:37-40), with the flag `is_at_least_one_contractor_can_perform`.  `none`: `KeyError`. -/
def reqLoop (c : Contractor) : List WorkerReq → Bool → Option Bool
  | [], flag => some flag
  | r :: rs, flag => (c.workers.lookup r.kind).bind fun n => if r.minCount > n then some false else reqLoop c rs flag

/-- The loop over the contractors (default.py:35-44): the flag and `num_contractors_can_perform_node`. -/
def contractorLoop (reqs : List WorkerReq) : List Contractor → Bool → Nat → Option (Bool × Nat)
  | [], flag, num => some (flag, num)
  | c :: cs, flag, num => (reqLoop c reqs flag).bind fun flag =>
    if flag then some (flag, num + 1) else contractorLoop reqs cs true num

/-- The loop over the nodes (default.py:33-47); a node is its list of requirements. -/
def nodeLoop (cs : List Contractor) : List (List WorkerReq) → Bool → Nat → Option Bool
  | [], _, _ => some true
  | reqs :: nodes, flag, num => (contractorLoop reqs cs flag num).bind fun r =>
    if r.2 = 0 then some false else nodeLoop cs nodes r.1 0

/-- `contractors_can_perform_work_graph` (default.py:28-48). -/
def canPerformGraph (cs : List Contractor) (nodes : List (List WorkerReq)) : Option Bool := nodeLoop cs nodes true 0

/-! ## Generated contractors -/

/-- `ContractorGenerationMethod` (contractor_by_wg.py:11-14). -/
inductive Method
  | min
  | max
  | avg
deriving DecidableEq, Repr

/-- `int(x)` of a number: rounding towards zero. -/
def toInt (q : ℚ) : Int := if 0 ≤ q then ⌊q⌋ else ⌈q⌉

/-- `round(x)`: to the nearest integer, halves to the even one. -/
def roundHalfEven (q : ℚ) : Int :=
  if q - ⌊q⌋ < 1 / 2 then ⌊q⌋
  else if 1 / 2 < q - ⌊q⌋ then ⌊q⌋ + 1
  else if ⌊q⌋ % 2 = 0 then ⌊q⌋ else ⌊q⌋ + 1

/-- `_value_by_req` (contractor_by_wg.py:17-31). -/
def valueByReq (m : Method) (r : WorkerReq) : Int :=
  match m with
  | .min => toInt r.minCount
  | .avg => toInt (((r.minCount + r.maxCount : Int) : ℚ) / 2)
  | .max => toInt r.maxCount

/-- The order of tuples in Python. -/
def pairLe (a b : Nat × Int) : Bool := a.1 < b.1 || (a.1 == b.1 && decide (a.2 ≤ b.2))

/-- `groupby(..., itemgetter(0))` with the last element of each group (contractor_by_wg.py:55): the last of a run of equal keys. -/
def lastOfGroups : List (Nat × Int) → List (Nat × Int)
  | [] => []
  | [x] => [x]
  | x :: y :: zs => if x.1 = y.1 then lastOfGroups (y :: zs) else x :: lastOfGroups (y :: zs)

/-- `IntervalGaussian(count, 0, prop, count).rand_int` (interval.py:112-127): with sigma 0 the random number is the mean; `EPS` is
100000.  Floating point numbers are rationals here. -/
def randInt (count : ℚ) (prop : Int) : Int :=
  Min.min (Max.max (roundHalfEven count) (toInt (prop - 100000))) (toInt (count + 100000))

/-- `get_contractor` (contractor.py:67-98) with `_get_stochastic_counts` (contractor.py:10-30) for `sigma_scaler = 0` and all types:
name and count of the workers. -/
def makeContractor (id : Nat) (scaler : ℚ) (props : List (Nat × Int)) : Contractor :=
  ⟨id, props.map fun p => (p.1, randInt (p.2 * scaler) p.2)⟩

/-- `get_contractor_by_wg` (contractor_by_wg.py:34-56).  `none`: `ValueError`. -/
def contractorByGraph (id : Nat) (nodes : List (List WorkerReq)) (scaler : ℚ) (m : Method) : Option Contractor :=
  if scaler < 1 then none
  else some (makeContractor id scaler
    (lastOfGroups (((nodes.flatten).map fun r => (r.kind, valueByReq m r)).mergeSort pairLe)))

/-! ## The choice of the graph -/

/-- `LagOptimizationStrategy` (lag_optimization.py:4-7). -/
inductive Lag
  | on
  | off
  | auto
deriving DecidableEq, Repr

/-- What `schedule_with_cache` returns for a graph: schedules with their execution times and node orders.  `none`: an exception. -/
abbrev Scheduler (γ σ ω : Type) := γ → Option (List (σ × Int × ω))

/-- What the pipeline goes on with: the graph, the schedules and the node orders. -/
structure Chosen (γ σ ω : Type) where
  graph : γ
  schedules : List σ
  orders : List ω
deriving DecidableEq, Repr

/-- `match self._lag_optimize` (default.py:247-299).  The second case is a pattern for a pair, which an enumeration value never
matches, so that the last case is taken for `TRUE` and `FALSE`.  `min` of no schedules raises. -/
def chooseGraph {γ σ ω : Type} (restructure : γ → Bool → Option γ) (schedule : Scheduler γ σ ω) (wg : γ) :
    Lag → Option (Chosen γ σ ω)
  | .auto =>
    (restructure wg false).bind fun wg1 => (schedule wg1).bind fun s1 => ((s1.map (·.2.1)).min?).bind fun t1 =>
    (restructure wg true).bind fun wg2 => (schedule wg2).bind fun s2 => ((s2.map (·.2.1)).min?).bind fun t2 =>
      if t1 < t2 then some ⟨wg1, s1.map (·.1), s1.map (·.2.2)⟩ else some ⟨wg2, s2.map (·.1), s2.map (·.2.2)⟩
  | .on => (schedule wg).map fun s => ⟨wg, s.map (·.1), s.map (·.2.2)⟩
  | .off => (schedule wg).map fun s => ⟨wg, s.map (·.1), s.map (·.2.2)⟩

/-- The contractors given to the pipeline: a list, or a method, a number and a scaler. -/
inductive Given
  | list (cs : List Contractor)
  | generate (m : Method) (number : Nat) (scaler : ℚ)

/-- The contractors used (default.py:208-216). -/
def contractorsOf (nodes : List (List WorkerReq)) : Given → Option (List Contractor)
  | .list cs => some cs
  | .generate m number scaler => (List.range number).mapM fun i => contractorByGraph i nodes scaler m

/-- What `schedule` of the pipeline ends with. -/
inductive Outcome (γ σ ω : Type)
  | error
  | refused
  | done (cs : List Contractor) (c : Chosen γ σ ω)

/-- `DefaultInputPipeline.schedule` (default.py:192-300) for a graph, after the correction of priorities (`Model/Priority.lean`), whose
errors are not modelled here.  `refused`: `NoSufficientContractorError`; the scheduler is given the contractors. -/
def schedule {γ σ ω : Type} (reqsOf : γ → List (List WorkerReq)) (restructure : γ → Bool → Option γ)
    (scheduler : List Contractor → Scheduler γ σ ω) (wg : γ) (given : Given) (lag : Lag) : Outcome γ σ ω :=
  match contractorsOf (reqsOf wg) given with
  | none => .error
  | some cs =>
    match canPerformGraph cs (reqsOf wg) with
    | none => .error
    | some false => .refused
    | some true =>
      match chooseGraph restructure (scheduler cs) wg lag with
      | none => .error
      | some c => .done cs c

/-! ## Queues of local optimizers -/

/-- A function with a fixed number of positional arguments and the arguments stored with it (apply_queue.py:9-15).  Values of all
kinds are of one type. -/
structure Entry (V : Type) where
  arity : Nat
  run : List V → Option V
  args : List V

/-- A call in Python: a wrong number of arguments is a `TypeError`. -/
def Entry.call {V : Type} (e : Entry V) (xs : List V) : Option V := if xs.length = e.arity then e.run xs else none

/-- `ApplyQueue.apply` (apply_queue.py:17-24): `res` is a tuple. -/
def applyQueue {V : Type} : List (Entry V) → List V → Option V
  | [], res => res.head?
  | e :: es, res => (e.call (res ++ e.args)).bind fun r => applyQueue es [r]

/-- `DefaultSchedulePipeline.finish` (default.py:323-329): the schedules with their node orders, each through the queue. -/
def finish {V : Type} (queue : List (Entry V)) (works orders : List V) : Option (List V) :=
  (works.zip orders).mapM fun p => applyQueue queue [p.1, p.2]

end Sampo.Pipeline
