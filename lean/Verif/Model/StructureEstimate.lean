import Verif.Model.Edit
import Mathlib.Data.Rat.Defs

/-!
# Generation of additional works (`sampo/schemas/structure_estimator.py`)

Works are numbers, the copied works keep their ids (`change_id=False`).  The states of all random number generators together are one state of a
type `σ`.  Names of works are strings.  Attributes of the generated works besides the name, the volume, the zones and the workers are the
defaults of `WorkUnit` and left out.
-/

namespace Sampo.Structure

/-- What the estimator is given: the next random number (`Random.random`), the probabilities of the generator for a work
(`generate_probabilities`, structure_estimator.py:14-15; `none`: an exception), the volume it gives (structure_estimator.py:18-19), the
requirements for workers of the estimator of works (`find_work_resources`), the requirements for zones of a work, the works that are
service units, and the ids `uuid4` gives one after the other. -/
structure Env (σ Zones Workers : Type) where
  roll : σ → Rat × σ
  probabilities : Nat → Option (List (String × Rat))
  volume : Nat → String → σ → Rat × σ
  workers : String → Rat → σ → Workers × σ
  zones : Nat → Zones
  service : Nat → Bool
  id : Nat → Nat

/-- A generated work: its id, the work it is generated for, name, volume and requirements. -/
structure Sub (Zones Workers : Type) where
  id : Nat
  parent : Nat
  name : String
  volume : Rat
  zones : Zones
  workers : Workers
deriving DecidableEq

variable {σ Zones Workers : Type} (E : Env σ Zones Workers)

/-- `_construct_sub_work` (structure_estimator.py:64-70); `n` ids have been given before. -/
def constructSubWork (work : Nat) (name : String) (n : Nat) (s : σ) : Sub Zones Workers × σ :=
  let v := E.volume work name s
  let w := E.workers name v.1 v.2
  (⟨E.id n, work, name, v.1, E.zones work, w.1⟩, w.2)

/-- The loop of `_gen_sub_works` (structure_estimator.py:72-76) over the entries of the probabilities.  The state: the number of ids that have
been given, and the random numbers. -/
def genSubWorks (work : Nat) : List (String × Rat) → Nat × σ → List (Sub Zones Workers) × (Nat × σ)
  | [], s => ([], s)
  | (name, p) :: rest, s =>
    let r := E.roll s.2
    if r.1 < p then
      let c := constructSubWork E work name s.1 r.2
      let next := genSubWorks work rest (s.1 + 1, c.2)
      (c.1 :: next.1, next.2)
    else genSubWorks work rest (s.1, r.2)

/-- The links of a generated work (structure_estimator.py:86-89): `GraphNode(sub_work, [node])` and `finish.add_parents([sub_node])`. -/
def linkSub (finish : Nat) (g : Graph) (c : Sub Zones Workers) : Graph :=
  (g.addParents c.id [(c.parent, 0, .finishStart)]).addParents finish [(c.id, 0, .finishStart)]

/-- The loop of `restruct` over the copied works (structure_estimator.py:82-89): the links, the generated works and the state.  `none`: an
exception. -/
def addSubs (finish : Nat) : List Nat → Graph × List (Sub Zones Workers) × (Nat × σ) → Option (Graph × List (Sub Zones Workers) × (Nat × σ))
  | [], a => some a
  | v :: rest, a =>
    if E.service v then addSubs finish rest a
    else
      match E.probabilities v with
      | none => none
      | some ps =>
        let c := genSubWorks E v ps a.2.2
        addSubs finish rest (c.1.foldl (linkSub finish) a.1, a.2.1 ++ c.1, c.2)

/-- `DefaultStructureEstimator.restruct` (structure_estimator.py:78-91) without the traversal in `WorkGraph(start, finish)`: the copied graph
with the new links, and the generated works. -/
def restruct (g : Graph) (nodes : List Nat) (finish : Nat) (s : σ) : Option (Graph × List (Sub Zones Workers)) :=
  (addSubs E finish nodes (g.copy nodes [] id, [], (0, s))).map fun a => (a.1, a.2.1)

/-- The table of `DefaultStructureGenerationEstimator` (structure_estimator.py:22-38): entries by name, and whether a missing name gives an
empty dictionary (`defaultdict`) or an exception (the dictionary given to `set_probabilities`). -/
structure Given where
  entries : List (String × List (String × Rat))
  default : Bool

/-- The constructor (structure_estimator.py:24-27). -/
def Given.new : Given := ⟨[], true⟩

/-- `dict.__setitem__`. -/
def put {V : Type} (k : String) (v : V) : List (String × V) → List (String × V)
  | [] => [(k, v)]
  | e :: rest => if e.1 = k then (k, v) :: rest else e :: put k v rest

/-- `set_probability` (structure_estimator.py:33-35).  `none`: `KeyError`. -/
def Given.set (t : Given) (parent child : String) (p : Rat) : Option Given :=
  match t.entries.lookup parent with
  | some ps => some { t with entries := put parent (put child p ps) t.entries }
  | none => if t.default then some { t with entries := put parent [(child, p)] t.entries } else none

/-- `set_probabilities` (structure_estimator.py:29-31) with a plain dictionary. -/
def Given.setAll (entries : List (String × List (String × Rat))) : Given := ⟨entries, false⟩

/-- `generate_probabilities` (structure_estimator.py:40-41) for a work with the attribute `name`. -/
def Given.generate (t : Given) (name : String) : Option (List (String × Rat)) :=
  match t.entries.lookup name with
  | some ps => some ps
  | none => if t.default then some [] else none

/-- `WorkUnit.name`: the constructor stores the name of the work in `model_name` and sets this attribute to `'dummy'` (works.py:46-54). -/
def nameAttribute (_workName : String) : String := "dummy"

/-- The estimator with the default generator for works with the names `workName`. -/
def withDefault (E : Env σ Zones Workers) (t : Given) (workName : Nat → String) : Env σ Zones Workers :=
  { E with probabilities := fun v => t.generate (nameAttribute (workName v)) }

end Sampo.Structure
