import Verif.Model.Collections

/-!
# Name mappers (sampo/utilities/name_mapper.py)

Reading of files is not modelled: a table is the list of its rows with the columns `task_name` and `unique_task_name`.
-/

namespace Sampo.NameMapper
open Collections

/-- The mappers: `DummyNameMapper` (name_mapper.py:58-67) and `DictNameMapper` (70-78) with its dictionary. -/
inductive Mapper
  | dummy
  | dict (source : List (String × String))

/-- `get_task_name_unique_mapping` (name_mapper.py:7-14) and `read_json` (36-44). -/
def ofRows (rows : List (String × String)) : Mapper := .dict (buildIndex (·.1) (·.2) rows)

/-- `get_inverse_task_name_mapping` (name_mapper.py:17-24). -/
def inverse (rows : List (String × String)) : Mapper := .dict (buildIndex (·.2) (·.1) rows)

/-- `mapper[name]` (name_mapper.py:59-60, 77-78). -/
def item : Mapper → String → String
  | .dummy, name => name
  | .dict source, name =>
    match source.lookup name with
    | some unique => unique
    | none => name

/-- `mapper.get(name)` (name_mapper.py:62-63, 74-75): the result of `__getitem__` is not returned.  `none` is Python's `None`. -/
def get (m : Mapper) (name : String) : Option String :=
  let _ := item m name
  none

/-- The column with names of works in `CSVParser.work_graph` (csv_parser.py:122-124): without a mapper names stay as they are. -/
def apply (m : Option Mapper) (names : List String) : List String :=
  match m with
  | none => names
  | some m => names.map (item m)

end Sampo.NameMapper
