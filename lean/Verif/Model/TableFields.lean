import Mathlib.Data.Rat.Defs

/-!
# Volumes, zone statuses, descriptions, groups and priorities in tables of works (`sampo/userinput/parser/general_build.py`)
-/

namespace Sampo.TableFields

/-- A cell of a data frame: a text, a dictionary of statuses in its order, a number or `nan` (an empty cell of a file). -/
inductive Cell
  | text (s : String)
  | statuses (d : List (String × Int))
  | number (q : ℚ)
  | nan
deriving DecidableEq

/-- A float; rationals in place of floats. -/
inductive Number
  | value (q : ℚ)
  | nan
deriving DecidableEq

/-- Which of the optional columns the table has. -/
structure Columns where
  statuses : Bool
  description : Bool
  group : Bool
  priority : Bool

/-- A row of the table; a cell of a column that the table does not have is never looked at. -/
structure Row where
  id : String
  volume : Cell
  statuses : Cell
  description : Cell
  group : Cell
  priority : Cell

/-- The fields of the `WorkUnit` that is built for a row (general_build.py:267-270) as far as they come from these columns; a zone
requirement is the name of a zone and a status. -/
structure Fields where
  volume : Number
  zoneReqs : List (String × Int)
  description : Cell
  group : Cell
  priority : Cell
deriving DecidableEq

/-- The volume (general_build.py:182): `float(x.replace(',', '.'))` for texts, `float(x)` for anything else.  `float` is `float` on texts,
`none` an exception. -/
def readVolume (float : String → Option Number) : Cell → Option Number
  | .text s => float (String.ofList (s.toList.map fun c => if c = ',' then '.' else c))
  | .number q => some (.value q)
  | .nan => some .nan
  | .statuses _ => none

/-- The zone requirements (general_build.py:260-261): `eval` of anything but a text raises a `TypeError`, and only a dictionary has
`items`.  `eval` is `eval` on texts. -/
def readStatuses (eval : String → Option Cell) (c : Columns) (x : Cell) : Option (List (String × Int)) :=
  if c.statuses then
    match x with
    | .text s =>
      match eval s with
      | some (.statuses d) => some d
      | _ => none
    | _ => none
  else some []

/-- The fields of the work of a row (general_build.py:182, 260-270). -/
def fields (float : String → Option Number) (eval : String → Option Cell) (c : Columns) (r : Row) : Option Fields :=
  match readVolume float r.volume, readStatuses eval c r.statuses with
  | some v, some z => some ⟨v, z, if c.description then r.description else .text "", if c.group then r.group else .text "main project",
      if c.priority then r.priority else .number 1⟩
  | _, _ => none

/-- The works of a table (general_build.py:157-201, 243-276).  Simplified: ids of rows are distinct, and the rows stay in their order. -/
def works (float : String → Option Number) (eval : String → Option Cell) (c : Columns) (rows : List Row) : Option (List (String × Fields)) :=
  rows.mapM fun r => (fields float eval c r).map fun f => (r.id, f)

/-- The row that `WorkGraph.to_frame` puts together for a work (graph.py:361-421).  (That it raises before the table is done, for want of an
entry `volume_type`, is in C67.) -/
def saved (id : String) (volume : ℚ) (priority : ℚ) : Row := ⟨id, .number volume, .nan, .nan, .nan, .number priority⟩

/-- The columns `WorkGraph.to_frame` writes (graph.py:363-371): of the optional ones above only the priority. -/
def savedColumns : Columns := ⟨false, false, false, true⟩

end Sampo.TableFields
