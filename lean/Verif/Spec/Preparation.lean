import Verif.Model.Preparation
import Verif.Spec.Table

/-!
# Specification vocabulary: calls of the preparation pipeline
-/

namespace Sampo.Preparation

open Table

/-- `p` is the pipeline made by the constructor and the calls, in this order. -/
def After (wg : Project) (history : Option History) (contractors : Info) (calls : List Call) (p : Prep) : Prop :=
  p = calls.foldl apply (new wg history contractors)

/-- `x` is the last of the values given by calls of one method, or the first value if there is no such call. -/
def Last {α : Type} (value : Call → Option α) (first : α) (calls : List Call) (x : α) : Prop :=
  (x = first ∧ ∀ c ∈ calls, value c = none) ∨
    ∃ before c after, calls = before ++ c :: after ∧ value c = some x ∧ ∀ c ∈ after, value c = none

/-- The project that a call gives. -/
def Call.project : Call → Option Project
  | .wg w => some w
  | _ => none

/-- The history that a call gives. -/
def Call.past : Call → Option History
  | .history h => some h
  | _ => none

/-- The contractors that a call gives. -/
def Call.info : Call → Option Info
  | .contractors c => some c
  | _ => none

/-- The structure estimator that a call gives. -/
def Call.restruct : Call → Option (Option (Graph → Option Graph))
  | .estimator f => some (some f)
  | _ => none

/-- The table of works is read with the pipeline's settings; a history has to have rows if the table has no links. -/
structure Reads (E : Env) (p : Prep) (works : List Work) : Prop where
  table : ∃ linked table, p.wg = .frame linked table ∧ (linked = true ∨ p.history.rows = true) ∧
    Setting E.code E.readLag E.readModel table works E.sort E.arrange E.start E.finish

/-- The steps that reading may take. -/
def Enough (E : Env) (p : Prep) (works : List Work) : Prop :=
  5 * ((works.map fun w => w.links.length + (p.history.past (E.code w.id)).length + 1).sum) + 1 ≤ E.fuel

/-- The row of the table of contractors describes the contractor: id, name and, for every further column, the number of workers. -/
structure Describes (E : Env) (kinds : List String) (row : List String) (c : Party) : Prop where
  length : row.length = kinds.length + 2
  id : row[0]? = some c.id
  name : row[1]? = some c.name
  kinds : c.workers.map (·.1) = kinds
  counts : ∀ (i : Nat) (w : String × Int), c.workers[i]? = some w → ∃ text, row[i + 2]? = some text ∧ E.int text = some w.2

/-- The same for a table without a column for the id. -/
structure DescribesWithoutId (E : Env) (kinds : List String) (row : List String) (c : Party) : Prop where
  length : row.length = kinds.length + 1
  name : row[0]? = some c.name
  kinds : c.workers.map (·.1) = kinds
  counts : ∀ (i : Nat) (w : String × Int), c.workers[i]? = some w → ∃ text, row[i + 1]? = some text ∧ E.int text = some w.2

end Sampo.Preparation
