import Verif.Model.Pipeline

/-!
# A pipeline as an object with settings, used more than once (`sampo/pipeline/default.py`)

Graphs, schedules, orders of works, specifications, landscapes, estimators and optimizers of orders are of any type; restructuring and
the schedulers are parameters.  Only ready work graphs are modelled, after the correction of priorities (`Model/Priority.lean`), and
`finish` without optimizers of schedules (for these see `Pipeline.finish`).
-/

namespace Sampo.Session
open Pipeline

deriving instance DecidableEq for Given
deriving instance DecidableEq for Outcome

variable {γ σ ω α S L E : Type}

/-- `DefaultInputPipeline` (pipeline/default.py:56-74), without what is only used for tables. -/
structure Input (γ ω α S L E : Type) where
  wg : Option γ
  contractors : Given
  estimator : E
  orders : Option (List ω)
  lag : Lag
  spec : S
  shift : Int
  stack : List α
  landscape : L

/-- `DefaultInputPipeline.__init__` (pipeline/default.py:56-74). -/
def new (spec : S) (landscape : L) (estimator : E) : Input γ ω α S L E where
  wg := none
  contractors := .generate .avg 1 1
  estimator := estimator
  orders := none
  lag := .off
  spec := spec
  shift := 0
  stack := []
  landscape := landscape

/-- The calls that set options (pipeline/default.py:76-190). -/
inductive Call (γ ω α S L E : Type)
  | wg (g : γ)
  | contractors (c : Given)
  | landscape (l : L)
  | spec (s : S)
  | timeShift (t : Int)
  | lagOptimize (l : Lag)
  | workEstimator (e : E)
  | nodeOrder (o : List ω)
  | optimizeLocal (a : α)

/-- What these calls do (pipeline/default.py:95-99, 111-112, 121-122, 156-157, 166-167, 177-178, 180-182, 184-186, 188-190). -/
def Input.set (s : Input γ ω α S L E) : Call γ ω α S L E → Input γ ω α S L E
  | .wg g => { s with wg := some g }
  | .contractors c => { s with contractors := c }
  | .landscape l => { s with landscape := l }
  | .spec x => { s with spec := x }
  | .timeShift t => { s with shift := t }
  | .lagOptimize l => { s with lag := l }
  | .workEstimator e => { s with estimator := e }
  | .nodeOrder o => { s with orders := some o }
  | .optimizeLocal a => { s with stack := s.stack ++ [a] }

/-- What a scheduler is given beside the graph and the contractors (pipeline/default.py:229-238, 250-254): the specification, the landscape, the time
shift and the optimizers of its order. -/
structure Setup (α S L : Type) where
  spec : S
  landscape : L
  shift : Int
  stack : List α

/-- A scheduler. -/
abbrev Method (γ σ ω α S L : Type) := Setup α S L → List Contractor → Scheduler γ σ ω

/-- `DefaultInputPipeline.schedule` (pipeline/default.py:192-300): the object afterwards and the outcome.  Contractors that are generated replace
the way to generate them, even if the call fails later on; `check_and_correct_priorities(None)` raises. -/
def Input.schedule (reqsOf : γ → List (List WorkerReq)) (restructure : γ → Bool → Option γ) (m : Method γ σ ω α S L)
    (s : Input γ ω α S L E) : Input γ ω α S L E × Outcome γ σ ω :=
  match s.wg with
  | none => (s, .error)
  | some g =>
    match contractorsOf (reqsOf g) s.contractors with
    | none => (s, .error)
    | some cs =>
      match canPerformGraph cs (reqsOf g) with
      | none => ({ s with contractors := .list cs }, .error)
      | some false => ({ s with contractors := .list cs }, .refused)
      | some true =>
        match chooseGraph restructure (m ⟨s.spec, s.landscape, s.shift, s.stack⟩ cs) g s.lag with
        | none => ({ s with contractors := .list cs }, .error)
        | some c => ({ s with contractors := .list cs, orders := some c.orders }, .done cs c)

/-- A step of a session: a setting, or a call of `schedule`. -/
inductive Step (γ σ ω α S L E : Type)
  | set (c : Call γ ω α S L E)
  | schedule (m : Method γ σ ω α S L)

/-- The object after some steps; what `schedule` returns or raises is dropped here. -/
def after (reqsOf : γ → List (List WorkerReq)) (restructure : γ → Bool → Option γ) (s : Input γ ω α S L E) :
    List (Step γ σ ω α S L E) → Input γ ω α S L E
  | [] => s
  | .set c :: h => after reqsOf restructure (s.set c) h
  | .schedule m :: h => after reqsOf restructure (s.schedule reqsOf restructure m).1 h

/-- `ScheduledProject` (schemas/project.py:12-32): the given graph, the graph that was scheduled, the contractors and the schedule. -/
structure Project (γ σ : Type) where
  wg : Option γ
  rawWg : γ
  contractors : Given
  schedule : σ
deriving DecidableEq

/-- `DefaultSchedulePipeline.finish` (pipeline/default.py:323-329) for the result `c` of a call of `schedule`, with the input object as it is
when `finish` is called.  `none`: `TypeError`, as there are no orders. -/
def finish (s : Input γ ω α S L E) (c : Chosen γ σ ω) : Option (List (Project γ σ)) :=
  s.orders.map fun os => (c.schedules.zip os).map fun p => ⟨s.wg, c.graph, s.contractors, p.1⟩

end Sampo.Session
