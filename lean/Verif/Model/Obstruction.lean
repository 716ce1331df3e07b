import Verif.Model.Lifetime

/-!
# Insertion of a graph into a work graph (`sampo/scheduler/utils/obstruction.py`)

All node objects are in one store: those of the given graph and those of the graph to insert, with different ids.
-/

namespace Sampo.Lifetime

/-- `v.add_parents([p])` (graph.py:105-125) where links may be missing: the nodes afterwards, and whether it ended without exception.
`None.append` raises before anything is changed, `None += edges` after the other node has got its edge. -/
def Store.addParent (s : Store) (v p : Nat) : Store × Bool :=
  let e : Edge := ⟨p, v, 0, .finishStart⟩
  match s.edgesFrom p with
  | none => (s, false)
  | some out =>
    let s := { s with edgesFrom := fun w => if w = p then some (out ++ [e]) else s.edgesFrom w }
    match s.edgesTo v with
    | none => (s, false)
    | some into => ({ s with edgesTo := fun w => if w = v then some (into ++ [e]) else s.edgesTo w }, true)

/-- `GraphNode.children` (graph.py:200-206); `none`: an exception.  Its cache is emptied by `add_parents` of a new child. -/
def Store.children (s : Store) (v : Nat) : Option (List Nat) :=
  (s.edgesFrom v).map fun es => (es.filter (·.type.isDependency)).map (·.finish)

/-- The nodes as a graph; used when no links are missing. -/
def Store.toGraph (s : Store) : Graph := ⟨fun v => (s.edgesTo v).getD [], fun v => (s.edgesFrom v).getD []⟩

/-- How a call ends: normally, with an exception, or never. -/
inductive Outcome
  | ended (wg : Obj) (nodes : Store)
  | raised (nodes : Store)
  | endless

/-- `OneInsertObstruction.apply` (obstruction.py:51-65).  `v` is the random work of the graph, `choose` the random choice among its
successors.  `kept`: somebody else refers to the inserted graph; otherwise it is destroyed on return. -/
def insertGraph (s : Store) (fuel : Nat) (wg insert : Obj) (v : Nat) (choose : List Nat → Nat) (kept : Bool) : Outcome :=
  match s.addParent insert.start v with
  | (s, false) => .raised s
  | (s, true) =>
    match s.children v with
    | none => .raised s
    | some children =>
      match if children.isEmpty then (s, true) else s.addParent (choose children) insert.start with
      | (s, false) => .raised s
      | (s, true) =>
        match construct s.toGraph fuel wg.start wg.finish with
        | none => .endless
        | some wg => .ended wg (if kept then s else discard insert s)

/-- `Obstruction.generate` (obstruction.py:17-24) for the random number `u`. -/
def generate (s : Store) (fuel : Nat) (wg insert : Obj) (v : Nat) (choose : List Nat → Nat) (kept : Bool) (probability u : Rat) :
    Outcome :=
  if u < probability then insertGraph s fuel wg insert v choose kept else .ended wg s

end Sampo.Lifetime
