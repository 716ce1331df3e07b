import Verif.Model.Time
import Verif.Model.Worker

/-!
# Just-in-time timeline: worker part (`sampo/scheduler/timeline/just_in_time_timeline.py`)

For each contractor and worker type the Python object keeps a list of pairs (release time, count), descending by time
and used as a stack from its end.  The model stores the *reversed* list, so the head of the Lean list is the last
element of the Python list (the earliest release).
-/

namespace Sampo.JIT

/-- One pair `(time, count)` of the stack. -/
structure Rel where
  time : Int
  count : Int
deriving DecidableEq, Repr

/-- The stack of one agent, earliest release first. -/
abbrev Queue := List Rel

/-- `self._timeline`: `none` for an agent that is not in the dictionary (`KeyError` on access). -/
abbrev Timeline := AgentId → Option Queue

/-- `__init__` (just_in_time_timeline.py:25-33); `pool a` is the contractor's number of workers of a type. -/
def init (pool : AgentId → Option Int) : Timeline :=
  fun a => (pool a).map fun c => [⟨0, c⟩]

/-- The inner loop of `_find_min_start_time` (just_in_time_timeline.py:126-134): walk the offers, taking workers until
`needed` is zero; `none` is `IndexError`. -/
def grab : List Rel → Int → Int → Option Int
  | q, needed, acc =>
    if needed > 0 then
      match q with
      | [] => none
      | e :: rest =>
        let taken := if needed < e.count then needed else e.count
        grab rest (needed - taken) (max acc e.time)
    else some acc

/-- The walk with Python's index arithmetic: the index starts at `len - 1` and is decremented; negative indices
`-1 .. -len` address the list from its end once more, `-len - 1` raises `IndexError`
(just_in_time_timeline.py:126-134). -/
def grabWrap (q : Queue) (needed acc : Int) : Option Int := grab (q ++ q) needed acc

/-- `offer_stack[0][0]`: the time of the first element of the Python list, i.e. the last of the reversed one
(just_in_time_timeline.py:117-118). -/
def latest (q : Queue) : Option Int := q.getLast?.map (·.time)

/-- One worker's step of `_find_min_start_time`: lines 117-118 for independent works, 123-134 otherwise. -/
def ask (independent : Bool) (q : Queue) (count acc : Int) : Option Int :=
  if independent then (latest q).map (max acc ·) else grabWrap q count acc

/-- `_find_min_start_time` (just_in_time_timeline.py:112-136). -/
def findMinStart (tl : Timeline) (independent : Bool) : List Worker → Int → Option Int
  | [], acc => some acc
  | w :: ws, acc => do
    let q ← tl w.agent
    let acc' ← ask independent q w.count acc
    findMinStart tl independent ws acc'

/-- Consuming loop of `update_timeline` (just_in_time_timeline.py:219-224); `none` is `IndexError` (pop from an
empty list). -/
def consume : Int → Queue → Option Queue
  | needed, q =>
    if needed > 0 then
      match q with
      | [] => none
      | e :: rest =>
        if e.count > needed ∨ rest = [] then some (⟨e.time, e.count - needed⟩ :: rest)
        else consume (needed - e.count) rest
    else some q

/-- Re-adding of the team with bubble steps (just_in_time_timeline.py:227-231). -/
def bubble (x : Rel) : Queue → Queue
  | [] => [x]
  | y :: ys => if x.time > y.time then y :: bubble x ys else x :: y :: ys

/-- Body of `update_timeline` for one worker of an ordinary work (just_in_time_timeline.py:216-231). -/
def updateQueue (q : Queue) (count finish : Int) : Option Queue :=
  (consume count q).map (bubble ⟨finish, count⟩)

/-- Body of `update_timeline` for one worker of an independent work (just_in_time_timeline.py:207-210). -/
def squashQueue (q : Queue) (finish : Int) : Queue := [⟨finish, (q.map (·.count)).sum⟩]

/-- Body of the loops of `update_timeline` (just_in_time_timeline.py:204-231) for one worker. -/
def stepQueue (independent : Bool) (q : Queue) (count finish : Int) : Option Queue :=
  if independent then some (squashQueue q finish) else updateQueue q count finish

/-- Assignment `self._timeline[a] = q`. -/
def set (tl : Timeline) (a : AgentId) (q : Queue) : Timeline := fun b => if b = a then some q else tl b

/-- `update_timeline` (just_in_time_timeline.py:188-231).  Node and execution time are not used by the code. -/
def update (tl : Timeline) (finish : Int) (independent : Bool) : List Worker → Option Timeline
  | [] => some tl
  | w :: ws => do
    let q ← tl w.agent
    let q' ← stepQueue independent q w.count finish
    update (set tl w.agent q') finish independent ws

end Sampo.JIT
