import Verif.Model.Time
import Mathlib.Data.List.Dedup
import Mathlib.Data.Rat.Defs
import Mathlib.Algebra.Order.Field.Rat

/-!
# Columns with requirements in tables of works (`sampo/userinput/parser/general_build.py`, `csv_parser.py:126-137`, `graph.py:393-405`)
-/

namespace Sampo.TableReqs

/-- `WorkerReq` (schemas/requirements.py:31-47) without its name.  Numbers are rationals. -/
structure Req where
  kind : String
  volume : Int
  minCount : ℚ
  maxCount : ℚ
deriving DecidableEq

/-- A cell of a column with requirements: a dictionary, a text or a number (`nan` if it is empty). -/
inductive Cell
  | dict (d : String → Option ℚ)
  | text (s : String)
  | number

/-- A row of the table, as far as requirements are concerned. -/
structure Row where
  id : String
  minReq : Cell
  maxReq : Cell
  reqVolume : Cell

/-- Which of the columns the table has. -/
structure Columns where
  minReq : Bool
  maxReq : Bool
  reqVolume : Bool

/-- The reading of a cell (general_build.py:185-186); `literal` is `literal_eval`, `none` an exception. -/
def readCell (literal : String → Option Cell) : Cell → Option Cell
  | .text s => literal s
  | c => some c

/-- The columns with requirements in `preprocess_graph_df` (general_build.py:184-186): the column of volumes is not read. -/
def preprocess (literal : String → Option Cell) (c : Columns) (r : Row) : Option Row :=
  if c.minReq && c.maxReq then
    match readCell literal r.minReq, readCell literal r.maxReq with
    | some mn, some mx => some { r with minReq := mn, maxReq := mx }
    | _, _ => none
  else some r

/-- `name in cell` and `cell[name]` for a name that is in it.  Outer `none`: an exception.  Simplified: `in` raises for texts, too; what
`literal_eval` gives is a text only for a text in quotation marks. -/
def look : Cell → String → Option (Option ℚ)
  | .dict d, name => some (d name)
  | _, _ => none

/-- The body of the loop over the names of resources (general_build.py:250-254).  Outer `none`: an exception. -/
def reqFor (r : Row) (name : String) : Option (Option Req) :=
  match look r.minReq name with
  | none => none
  | some none => some none
  | some (some a) =>
    match look r.maxReq name with
    | none => none
    | some none => some none
    | some (some b) =>
      if 0 < a ∧ a ≤ b then
        match look r.reqVolume name with
        | some (some v) => some (some ⟨name, mkTime (v.num.tdiv v.den), a, b⟩)
        | _ => none
      else some none

/-- The requirements of a row and whether its work is a service work (general_build.py:247-258).  `estimated` is what the estimator answers. -/
def workReqs (c : Columns) (names : List String) (estimated : List Req) (r : Row) : Option (List Req × Bool) :=
  ((if c.minReq && c.maxReq && c.reqVolume then (names.mapM (reqFor r)).map (·.filterMap id) else some estimated)).map
    fun reqs => (reqs, reqs.isEmpty)

/-- The requirements of the works of a table (csv_parser.py:126-137, general_build.py:243-258).  `vocabulary` are the kinds that the
estimator names for a row, `arrange` is the order of the set of all of them.  Simplified: the rows stay in their order. -/
def tableReqs (literal : String → Option Cell) (c : Columns) (arrange : List String → List String) (vocabulary : String → List String)
    (estimated : String → List Req) (rows : List Row) : Option (List (List Req × Bool)) :=
  (rows.mapM (preprocess literal c)).bind fun rs =>
    rs.mapM fun r => workReqs c (arrange (rows.flatMap fun r => vocabulary r.id).dedup) (estimated r.id) r

/-- The kinds that `DefaultWorkEstimator.find_work_resources` names (time_estimator.py:73-80), whatever the work is. -/
def defaultKinds : List String := ["driver", "fitter", "manager", "handyman", "electrician", "engineer"]

/-- The dictionaries that `WorkGraph.to_frame(save_req=True)` writes for a work (graph.py:393-405): the last requirement of a kind counts. -/
def saved (id : String) (reqs : List Req) : Row where
  id := id
  minReq := .dict fun k => (reqs.reverse.find? (·.kind = k)).map (·.minCount)
  maxReq := .dict fun k => (reqs.reverse.find? (·.kind = k)).map (·.maxCount)
  reqVolume := .dict fun k => (reqs.reverse.find? (·.kind = k)).map fun r => (r.volume : ℚ)

end Sampo.TableReqs
