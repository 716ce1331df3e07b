import Mathlib.Data.List.Basic

/-!
# More kinds of workers and more names (`sampo/generator/pipeline/extension.py`)

Only names and requirements of works are here.  The graph that is changed is a deep copy of the given one, whose links are lost
(`Model/Lifetime.lean`).
-/

namespace Sampo.Extension

/-- A Python `str`. -/
abbrev Str := List Char

/-- `WorkerReq` (requirements.py:31-47). -/
structure Req where
  kind : Str
  volume : Int
  minCount : Int
  maxCount : Int
  name : Str
deriving DecidableEq

/-- The part of `WorkUnit` that is read or changed (works.py). -/
structure Work where
  name : Str
  reqs : List Req
deriving DecidableEq

/-- What `_extend_str_fields` can do: return the given graph, return a changed copy, or raise `ZeroDivisionError`. -/
inductive Result
  | same
  | changed (works : List Work)
  | divisionByZero
deriving DecidableEq

/-- `' #' + str(i + 1)` (extension.py:18). -/
def numbered (i : Nat) : Str := ' ' :: '#' :: Nat.toDigits 10 (i + 1)

/-- `'_0'` (extension.py:19). -/
def extra : Str := ['_', '0']

/-- `name_to_suffixes[name]` (extension.py:17-19) for the shuffled list of different strings and the wanted number of them. -/
def suffixes (uniq : List Str) (n : Nat) (name : Str) : List Str :=
  (List.range (n / uniq.length)).map numbered ++ if name ∈ uniq.take (n % uniq.length) then [extra] else []

/-- `_update_resource_names` (extension.py:30-37) for the work number `i`; `choose i j` is the random choice for its requirement `j`.
The copied works are new objects. -/
def updateKinds (options : Str → List Str) (choose : Nat → Nat → List Str → Str) (i : Nat) (w : Work) : Work :=
  { w with reqs := w.reqs.mapIdx fun j r => { r with kind := r.kind ++ choose i j (options r.kind) } }

/-- `_update_work_name` (extension.py:46-50). -/
def updateName (uniq : List Str) (options : Str → List Str) (choose : Nat → List Str → Str) (i : Nat) (w : Work) : Work :=
  if w.name ∈ uniq then { w with name := w.name ++ choose i (options w.name) } else w

/-- `_extend_str_fields` (extension.py:10-22).  `uniq` is the list of different strings after shuffling: any order of the set.  For a
shorter list than wanted the remainder is taken first, so an empty list raises. -/
def extendFields (n : Int) (uniq : List Str) (works : List Work) (update : (Str → List Str) → Nat → Work → Work) : Result :=
  if n ≤ uniq.length then .same
  else if uniq.isEmpty then .divisionByZero
  else .changed (works.mapIdx (update (suffixes uniq n.toNat)))

/-- `extend_resources` (extension.py:53-62). -/
def extendResources (n : Int) (uniq : List Str) (works : List Work) (choose : Nat → Nat → List Str → Str) : Result :=
  extendFields n uniq works fun options => updateKinds options choose

/-- `extend_names` (extension.py:65-74). -/
def extendNames (n : Int) (uniq : List Str) (works : List Work) (choose : Nat → List Str → Str) : Result :=
  extendFields n uniq works fun options => updateName uniq options choose

/-- `SimpleSynthetic.advanced_work_graph` (generator/base.py:64-78) for the works of the generated graph; the different kinds are those
after the change of names.  `none`: an exception. -/
def advanced (names resources : Int) (works : List Work) (uniqNames : List Str) (uniqKinds : List Work → List Str)
    (chooseName : Nat → List Str → Str) (choose : Nat → Nat → List Str → Str) : Option (List Work) :=
  match extendNames names uniqNames works chooseName with
  | .divisionByZero => none
  | .same =>
    match extendResources resources (uniqKinds works) works choose with
    | .divisionByZero => none
    | .same => some works
    | .changed works => some works
  | .changed works =>
    match extendResources resources (uniqKinds works) works choose with
    | .divisionByZero => none
    | .same => some works
    | .changed works => some works

end Sampo.Extension
