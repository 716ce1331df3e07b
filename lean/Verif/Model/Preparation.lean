import Verif.Model.Table
import Verif.Model.Pipeline

/-!
# The preparation pipeline (`sampo/pipeline/preparation.py`) and contractors given with a table (`csv_parser.py:139-206`)

Files and data frames are read alike; separators, the name mapper and the estimator of works are part of how the cells are read.
-/

namespace Sampo.Preparation

open Table

/-- A table of history: whether it has any row and a column `granular_name`, and the statistics made of it (`Model/History.lean`). -/
structure History where
  rows : Bool
  granular : Bool
  past : Nat → List Past

/-- The history used if none is given (preparation.py:18-22): no rows, and no column `granular_name`. -/
def History.none : History := ⟨false, false, fun _ => []⟩

/-- What is given as the project (preparation.py:13): nothing, a table (does it have a column `predecessor_ids`?) or a work graph. -/
inductive Project
  | missing
  | frame (linked : Bool) (table : List Raw)
  | graph (g : Graph) (start finish : Nat) (nodes : List Nat)

/-- A contractor (contractor.py:18-35): id, name and the dictionary of workers.  Every worker gets the id of the contractor. -/
structure Party where
  id : String
  name : String
  workers : List (String × Int)
deriving DecidableEq, Repr

/-- A table of contractors: the names of the columns and the cells of the rows. -/
structure ContractorFile where
  columns : List String
  rows : List (List String)
deriving DecidableEq, Repr

/-- What is given as contractors (preparation.py:15, csv_parser.py:141): nothing, a list, a file, a data frame, or how to generate them. -/
inductive Info
  | missing
  | list (cs : List Party)
  | file (f : ContractorFile)
  | frame (f : ContractorFile)
  | generate (m : Pipeline.Method) (number : Nat) (scaler : ℚ)

/-- The fields of the pipeline (preparation.py:12-29). -/
structure Prep where
  wg : Project
  history : History
  contractors : Info
  fix : Bool
  fill : Bool
  estimator : Option (Graph → Option Graph)

/-- `PreparationPipeline(...)` (preparation.py:12-29). -/
def new (wg : Project) (history : Option History) (contractors : Info) : Prep :=
  ⟨wg, history.getD .none, contractors, false, false, .none⟩

/-- The methods that set a field. -/
inductive Call
  | wg (w : Project)
  | history (h : History)
  | contractors (c : Info)
  | fix
  | fill
  | estimator (f : Graph → Option Graph)

/-- One call (preparation.py:31-69). -/
def apply (p : Prep) : Call → Prep
  | .wg w => { p with wg := w }
  | .history h => { p with history := h }
  | .contractors c => { p with contractors := c }
  | .fix => { p with fix := true }
  | .fill => { p with fill := true }
  | .estimator f => { p with estimator := some f }

/-- What is outside the pipeline: how the cells are read and written (`Model/Table.lean`), the requirements of the works of a graph, the
names of types of workers, the random ids of contractors without one, and `int` of a cell. -/
structure Env where
  code : Token → Nat
  readLag : Token → Option Int
  readModel : Token → Bool
  sort : List (Nat × List (Nat × Int × EdgeType)) → List (Nat × List (Nat × Int × EdgeType))
  arrange : List Nat → List Nat
  start : Nat
  finish : Nat
  fuel : Nat
  dump : Nat → Option Json.Val
  name : Nat → Token
  writeLag : Int → Token
  reqsOf : Graph → List (List WorkerReq)
  kind : Nat → String
  fresh : Nat → String
  int : String → Option Int

/-- `CSVParser.read_graph_info` (csv_parser.py:78-93) with its check that there is anything about links, as the pipeline calls it
(preparation.py:73-80). -/
def readInfo (E : Env) (p : Prep) (linked : Bool) (table : List Raw) : Option (Option (List Row)) :=
  if !linked && !p.history.rows then some none
  else readTable E.code E.readLag E.readModel ⟨!p.fix && !p.fill, p.fix, p.history.granular⟩ p.history.past E.fuel table

/-- `_prepare_works_info` (preparation.py:71-80).  Outer `none`: a loop does not end; inner `none`: an exception. -/
def prepare (E : Env) (p : Prep) : Option (Option (List Row)) :=
  match p.wg with
  | .missing => some none
  | .frame linked table => readInfo E p linked table
  | .graph g start finish nodes =>
    match toFrame E.dump E.name E.writeLag g start finish nodes with
    | none => some none
    | some table => readInfo E p true table

/-- `build_wg` (preparation.py:82-92). -/
def buildWg (E : Env) (p : Prep) : Option (Option Graph) :=
  (prepare E p).map fun r => r.bind fun rows => (workGraph E.sort E.arrange E.start E.finish rows).bind fun g =>
    match p.estimator with
    | none => some g
    | some restruct => restruct g

/-- `row[...]` of a row of the table of contractors; `none`: `KeyError`. -/
def cell (f : ContractorFile) (row : List String) (column : String) : Option String := (f.columns.zip row).lookup column

/-- The workers of a row (csv_parser.py:189-190). -/
def workersOf (int : String → Option Int) : List (String × String) → Option (List (String × Int))
  | [] => some []
  | x :: xs => (int x.2).bind fun n => (workersOf int xs).map fun ws => (x.1, n) :: ws

/-- The contractor of a row (csv_parser.py:183-192): all columns behind the first two, or behind the first if there is no column for the
id, are types of workers. -/
def partyOf (E : Env) (f : ContractorFile) (i : Nat) (row : List String) : Option Party :=
  (if "contractor_id" ∈ f.columns then cell f row "contractor_id" else some (E.fresh i)).bind fun id =>
    (cell f row "name").bind fun name =>
      (workersOf E.int ((f.columns.zip row).drop (if "contractor_id" ∈ f.columns then 2 else 1))).map fun ws => ⟨id, name, ws⟩

/-- The loop over the rows (csv_parser.py:182-192). -/
def partiesOf (E : Env) (f : ContractorFile) : Nat → List (List String) → Option (List Party)
  | _, [] => some []
  | i, row :: rows => (partyOf E f i row).bind fun c => (partiesOf E f (i + 1) rows).map fun cs => c :: cs

/-- The contractors that are given (csv_parser.py:174-192).  A data frame is not a file: it gives none. -/
def given (E : Env) : Info → Option (List Party)
  | .list cs => some cs
  | .file f => partiesOf E f 0 f.rows
  | _ => some []

/-- The contractors generated if none are given (csv_parser.py:197-204).  Unpacking anything else than a method, a number and a scaler
raises: `None` and an empty list at once; of a path or of a data frame the number of contractors is no number. -/
def generate (E : Env) (g : Graph) : Info → Option (List Party)
  | .generate m number scaler => (List.range number).mapM fun i =>
      (Pipeline.contractorByGraph i (E.reqsOf g) scaler m).map fun c =>
        ⟨toString i, "Contractor " ++ toString (i + 1), c.workers.map fun w => (E.kind w.1, w.2)⟩
  | _ => none

/-- `build_wg_and_contractors` (preparation.py:94-100) with `CSVParser.work_graph_and_contractors` (csv_parser.py:174-206). -/
def buildBoth (E : Env) (p : Prep) : Option (Option (Graph × List Party)) :=
  (prepare E p).map fun r => r.bind fun rows => (given E p.contractors).bind fun cs =>
    (workGraph E.sort E.arrange E.start E.finish rows).bind fun g =>
      (if cs.isEmpty then generate E g p.contractors else some cs).map fun cs => (g, cs)

end Sampo.Preparation
