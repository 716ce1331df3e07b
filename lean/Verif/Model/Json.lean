import Mathlib.Data.Rat.Defs
import Mathlib.Data.List.Basic

/-!
# Saving and loading of objects (`AutoJSONSerializable` in `sampo/schemas/serializable.py`)

Objects are their class and their `__dict__`.  Simplified: dictionaries have strings as keys; arrays and tables (`numpy.ndarray`,
`pandas.DataFrame`) are left out; custom serializers by type, which no class has, are left out; classes named in hints exist.
-/

namespace Sampo.Json

/-- Python values; `np` are `numpy.int64` (wide) and `numpy.int32`, `npFloat` is `numpy.float64`. -/
inductive Val
  | null
  | bool (b : Bool)
  | int (i : Int)
  | float (q : ℚ)
  | str (s : String)
  | np (wide : Bool) (i : Int)
  | npFloat (q : ℚ)
  | list (l : List Val)
  | tuple (l : List Val)
  | dict (d : List (String × Val))
  | obj (cls : String) (fields : List (String × Val))

/-- How a class writes and reads one of its fields (`custom_serializer`, utilities/serializers.py:14-48): a list of objects of a class; a
pair of them; a dictionary as a list of entries; a dictionary. -/
inductive Custom
  | each (cls : String)
  | pair (cls : String)
  | keyed (cls : String)
  | named (cls : String)
deriving DecidableEq

/-- `ignored_fields` (serializable.py:316-324) and the custom serializers of a class. -/
structure Class where
  ignored : List String
  custom : List (String × Custom)

/-- `TYPE_HINTS` (serializable.py:32). -/
def hintsKey : String := "_serializable_type_hints"

/-- `str(numpy.int64)`, `str(numpy.int32)`. -/
def npName (wide : Bool) : String := if wide then "<class 'numpy.int64'>" else "<class 'numpy.int32'>"

/-- The dictionary of hints and fields (serializable.py:388-389). -/
def pack (p : List (String × Val) × List (String × Val)) : Val := .dict ((hintsKey, .dict p.1) :: p.2)

mutual

/-- `_serialize` over `self.__dict__` (serializable.py:326-389), with `serialize_field` (serializable.py:354-386): hints and fields.
`none`: an exception. -/
def serFields (T : String → Class) (c : Class) : List (String × Val) → Option (List (String × Val) × List (String × Val))
  | [] => some ([], [])
  | (k, v) :: rest =>
    if k ∈ c.ignored then serFields T c rest
    else
      match c.custom.lookup k with
      | some how => (serCustom T how v).bind fun j => (serFields T c rest).map fun p => (p.1, (k, j) :: p.2)
      | none => (serField T v).bind fun j => (serFields T c rest).map fun p => ((j.1.map fun h => (k, Val.str h)).toList ++ p.1, (k, j.2) :: p.2)

/-- `serialize_field` for a field without a custom serializer (serializable.py:363-386): the hint, if there is one, and the value.
`none`: `ValueError`, as the type of `numpy.float64` is not one of the simple types. -/
def serField (T : String → Class) : Val → Option (Option String × Val)
  | .obj c fs => (serFields T (T c) fs).map fun p => (some c, pack p)
  | .np w i => some (some (npName w), .int i)
  | .npFloat _ => none
  | v => some (none, v)

/-- Custom serializers: `serialize_serializable_list` (works.py:84-95, scheduled_work.py:70-75), `serialize_workers`, `serialize_equipment`
(contractor.py:37-43). -/
def serCustom (T : String → Class) (how : Custom) : Val → Option Val
  | .list l =>
    match how with
    | .each _ | .pair _ => (serList T l).map .list
    | _ => none
  | .tuple l =>
    match how with
    | .each _ | .pair _ => (serList T l).map .list
    | _ => none
  | .dict d =>
    match how with
    | .keyed _ => (serPairs T d).map fun ps => .list (ps.map fun p => .dict [("key", .str p.1), ("val", p.2)])
    | .named _ => (serPairs T d).map .dict
    | _ => none
  | _ => none

/-- `[t._serialize() for t in value]`. -/
def serList (T : String → Class) : List Val → Option (List Val)
  | [] => some []
  | .obj c fs :: rest => (serFields T (T c) fs).bind fun p => (serList T rest).map (pack p :: ·)
  | _ :: _ => none

/-- `[(k, v._serialize()) for k, v in value.items()]`. -/
def serPairs (T : String → Class) : List (String × Val) → Option (List (String × Val))
  | [] => some []
  | (k, .obj c fs) :: rest => (serFields T (T c) fs).bind fun p => (serPairs T rest).map ((k, pack p) :: ·)
  | (_, _) :: _ => none

end

/-- `dumpd` (serializable.py:242-247). -/
def dumpd (T : String → Class) : Val → Option Val
  | .obj c fs => (serFields T (T c) fs).map pack
  | _ => none

mutual

/-- `json.loads(json.dumps(v))`.  `none`: `TypeError`, the value is not JSON serializable. -/
def text : Val → Option Val
  | .null => some .null
  | .bool b => some (.bool b)
  | .int i => some (.int i)
  | .float q => some (.float q)
  | .str s => some (.str s)
  | .np _ _ => none
  | .npFloat q => some (.float q)
  | .list l => (texts l).map .list
  | .tuple l => (texts l).map .list
  | .dict d => (textPairs d).map .dict
  | .obj _ _ => none

/-- The same for the elements of a list. -/
def texts : List Val → Option (List Val)
  | [] => some []
  | v :: rest => (text v).bind fun j => (texts rest).map (j :: ·)

/-- The same for the entries of a dictionary. -/
def textPairs : List (String × Val) → Option (List (String × Val))
  | [] => some []
  | (k, v) :: rest => (text v).bind fun j => (textPairs rest).map ((k, j) :: ·)

end

/-- The hints of a dictionary (serializable.py:406-409). -/
def hintsOf (d : List (String × Val)) : List (String × Val) :=
  match d.lookup hintsKey with
  | some (.dict h) => h
  | _ => []

/-- The loaded object (serializable.py:429-441). -/
def unpack (c : String) (C : Class) (fs : List (String × Val)) : Val := .obj c (C.ignored.map (·, .null) ++ fs)

mutual

/-- `_deserialize` over the entries of a dictionary (serializable.py:392-441), with `deserialize_field` (serializable.py:411-427).
`none`: an exception. -/
def deFields (T : String → Class) (C : Class) (hints : List (String × Val)) : List (String × Val) → Option (List (String × Val))
  | [] => some []
  | (k, v) :: rest =>
    if k = hintsKey ∨ k ∈ C.ignored then deFields T C hints rest
    else
      match C.custom.lookup k with
      | some how => (deCustom T how v).bind fun x => (deFields T C hints rest).map ((k, x) :: ·)
      | none => (deField T (hints.lookup k) v).bind fun x => (deFields T C hints rest).map ((k, x) :: ·)

/-- `deserialize_field` for a field without a custom deserializer (serializable.py:420-427). -/
def deField (T : String → Class) (hint : Option Val) : Val → Option Val
  | .dict d =>
    match hint with
    | some (.str h) => (deFields T (T h) (hintsOf d) d).map (unpack h (T h))
    | _ => some (.dict d)
  | .int i =>
    match hint with
    | some (.str h) => if h = npName true then some (.np true i) else if h = npName false then some (.np false i) else none
    | _ => some (.int i)
  | v =>
    match hint with
    | some (.str _) => none
    | _ => some v

/-- Custom deserializers (works.py:97-139, scheduled_work.py:77-91, contractor.py:45-53). -/
def deCustom (T : String → Class) (how : Custom) : Val → Option Val
  | .list l =>
    match how with
    | .each c => (deList T c l).map .list
    | .pair c => (deList T c l).bind fun xs => match xs with
      | a :: b :: _ => some (.tuple [a, b])
      | _ => none
    | .keyed c => (deEntries T c l).map .dict
    | .named _ => none
  | .dict d =>
    match how with
    | .named c => (dePairs T c d).map .dict
    | _ => none
  | _ => none

/-- `[c._deserialize(t) for t in value]`. -/
def deList (T : String → Class) (c : String) : List Val → Option (List Val)
  | [] => some []
  | .dict d :: rest => (deFields T (T c) (hintsOf d) d).bind fun fs => (deList T c rest).map (unpack c (T c) fs :: ·)
  | _ :: _ => none

/-- `{i['key']: c._deserialize(i['val']) for i in value}` (contractor.py:45-48); the entries are as written. -/
def deEntries (T : String → Class) (c : String) : List Val → Option (List (String × Val))
  | [] => some []
  | .dict [(_, .str k), (_, .dict d)] :: rest =>
    (deFields T (T c) (hintsOf d) d).bind fun fs => (deEntries T c rest).map ((k, unpack c (T c) fs) :: ·)
  | _ :: _ => none

/-- `{k: c._deserialize(v) for k, v in value.items()}` (contractor.py:50-53). -/
def dePairs (T : String → Class) (c : String) : List (String × Val) → Option (List (String × Val))
  | [] => some []
  | (k, .dict d) :: rest => (deFields T (T c) (hintsOf d) d).bind fun fs => (dePairs T c rest).map ((k, unpack c (T c) fs) :: ·)
  | (_, _) :: _ => none

end

/-- `loadd` (serializable.py:198-205) of class `c`. -/
def loadd (T : String → Class) (c : String) : Val → Option Val
  | .dict d => (deFields T (T c) (hintsOf d) d).map (unpack c (T c))
  | _ => none

/-- `dumps` (serializable.py:249-254), as the value that `json.loads` reads from the text. -/
def dumps (T : String → Class) (v : Val) : Option Val := (dumpd T v).bind text

mutual

/-- A dictionary after it was given to `loadd`: the hints were deleted (serializable.py:409), in inner dictionaries too. -/
def spent : Val → Val
  | .dict d => .dict (spentPairs d)
  | .list l => .list (spentList l)
  | v => v

/-- The same for elements. -/
def spentList : List Val → List Val
  | [] => []
  | v :: rest => spent v :: spentList rest

/-- The same for entries. -/
def spentPairs : List (String × Val) → List (String × Val)
  | [] => []
  | (k, v) :: rest => if k = hintsKey then spentPairs rest else (k, spent v) :: spentPairs rest

end

/-- `getattr(object, name)`; `none`: `AttributeError`. -/
def Val.attr : Val → String → Option Val
  | .obj _ fs, k => fs.lookup k
  | _, _ => none

end Sampo.Json
