import Verif.Model.Worker

/-!
# Momentum timeline: worker part (`sampo/scheduler/timeline/momentum_timeline.py`)

For each contractor and worker type the Python object keeps a `SortedList` of events; the model keeps the same list.
`SortedList` itself (package `sortedcontainers`) is trusted to be a list sorted by its key: `bisect_right(t)` is the
number of leading events whose key is at most the query, `add` inserts after all events with a smaller or equal key.

Simplifications: `Time` values are plain integers here (no saturation at ±2·10⁹); queries at negative times, for which
Python's index `-1` would address the last event, are outside the theorems (they assume times ≥ 0).
-/

namespace Sampo.Momentum

/-- `EventType` (sampo/schemas/types.py:13-27). -/
inductive EventType
  | initial
  | start
  | finish
deriving DecidableEq, Repr

/-- `EventType.priority` (sampo/schemas/types.py:19-27). -/
def EventType.priority : EventType → Int
  | .initial => -1
  | .start => 0
  | .finish => 1

/-- `ScheduleEvent` (sampo/schemas/types.py:31-36); the field `swork` is always `None` in the timeline. -/
structure Event where
  seq : Int
  type : EventType
  time : Int
  count : Int
deriving DecidableEq, Repr

/-- First component of `event_cmp` (momentum_timeline.py:40-45): the initial event is put at time `-1`. -/
def Event.key (e : Event) : Int := if e.type = .initial then -1 else e.time

/-- `event_cmp(a) <= event_cmp(b)` for two events: lexicographic order on (time, seq_id, priority)
(momentum_timeline.py:40-45). -/
def keyLe (a b : Event) : Bool :=
  a.key < b.key || (a.key == b.key && (a.seq < b.seq || (a.seq == b.seq && a.type.priority ≤ b.type.priority)))

/-- `SortedList.add`. -/
def add (e : Event) : List Event → List Event
  | [] => [e]
  | x :: xs => if keyLe x e then x :: add e xs else e :: x :: xs

/-- `state[state.bisect_right(t) - 1]`: the last event whose key time is at most `t`.  A `Time` query has the key
`(t, inf, 2)` (momentum_timeline.py:47-49); `seq_id < inf` is assumed. -/
def lastAt : List Event → Int → Option Event
  | [], _ => none
  | e :: es, t => if e.key ≤ t then (lastAt es t).or (some e) else none

/-- The number of workers which the timeline regards as available at moment `t`:
`state[state.bisect_right(t) - 1].available_workers_count` (momentum_timeline.py:320, 369, 467). -/
def available (s : List Event) (t : Int) : Option Int := (lastAt s t).map (·.count)

/-- `state[state.bisect_right(start): state.bisect_left((end, -1, INITIAL))]` consists of the events with key time
strictly between `start` and `end` (momentum_timeline.py:367-371; the list is sorted). -/
def inside (start end_ : Int) (e : Event) : Bool := start < e.key && e.key < end_

/-- Lines 371-373: check and decrement the events inside the interval; `none` is `AssertionError`. -/
def decrement (start end_ n : Int) : List Event → Option (List Event)
  | [] => some []
  | e :: es =>
    if inside start end_ e then
      if n ≤ e.count then (decrement start end_ n es).map ({e with count := e.count - n} :: ·) else none
    else (decrement start end_ n es).map (e :: ·)

/-- Lines 377-389: insert the start and the end event; `a` is the number available at `start`. -/
def insertPair (idx start end_ n a : Int) (s1 : List Event) : Option (List Event) :=
  let s2 := add ⟨idx, .start, start, a - n⟩ s1
  (lastAt s2 end_).map fun l =>
    add ⟨idx, .finish, end_, if l.time = end_ then l.count else l.count + n⟩ s2

/-- One worker type's step of `update_timeline` (momentum_timeline.py:366-389). -/
def updateState (idx start end_ n : Int) (s : List Event) : Option (List Event) :=
  (available s start).bind fun a =>
    if n ≤ a then (decrement start end_ n s).bind (insertPair idx start end_ n a) else none

/-- The timeline object: event lists and the task counter (momentum_timeline.py:59-71). -/
structure Timeline where
  states : AgentId → Option (List Event)
  taskIndex : Nat

/-- `__init__` (momentum_timeline.py:59-71). -/
def init (pool : AgentId → Option Int) : Timeline :=
  ⟨fun a => (pool a).map fun c => [⟨-1, .initial, 0, c⟩], 0⟩

/-- Replace one agent's list. -/
def set (f : AgentId → Option (List Event)) (a : AgentId) (s : List Event) : AgentId → Option (List Event) :=
  fun b => if b = a then some s else f b

/-- The loop over the team in `update_timeline` (momentum_timeline.py:365-389). -/
def updateTeam (idx start end_ : Int) (f : AgentId → Option (List Event)) :
    List Worker → Option (AgentId → Option (List Event))
  | [] => some f
  | w :: ws => do
    let s ← f w.agent
    let s' ← updateState idx start end_ w.count s
    updateTeam idx start end_ (set f w.agent s') ws

/-- `update_timeline` (momentum_timeline.py:340-389). -/
def update (tl : Timeline) (finish exec : Int) (team : List Worker) : Option Timeline :=
  if exec = 0 then some tl
  else (updateTeam tl.taskIndex (finish - exec) finish tl.states team).map fun f => ⟨f, tl.taskIndex + 1⟩

/-- One worker type's check in `_validate` (momentum_timeline.py:464-474). -/
def validateState (start end_ n : Int) (s : List Event) : Option Unit :=
  (available s start).bind fun a =>
    if n ≤ a ∧ ∀ e ∈ s, inside start end_ e → n ≤ e.count then some () else none

/-- `_validate` (momentum_timeline.py:456-474). -/
def validate (tl : Timeline) (finish exec : Int) (team : List Worker) : Option Unit :=
  if exec = 0 then some ()
  else team.foldlM (fun _ w => (tl.states w.agent).bind (validateState (finish - exec) finish w.count)) ()

/-- The suffix of the list that starts with the last event whose key time is at most `t`, i.e. the list from
`current_start_idx = state.bisect_right(t) - 1` on (momentum_timeline.py:263). -/
def fromLast : List Event → Int → List Event
  | [], _ => []
  | [e], _ => [e]
  | e :: e' :: es, t => if e'.key ≤ t then fromLast (e' :: es) t else e :: e' :: es

/-- The inner loop (momentum_timeline.py:275-287) on the list from `current_start_idx` on: looking backwards from the
last event before `end_`, the first event with less than `n` workers; the result is the list from `idx + 1` on, `none`
if there is no such event. -/
def lastShort (n end_ : Int) : List Event → Option (List Event)
  | [] => none
  | e :: es =>
    if e.key < end_ then
      (lastShort n end_ es).or (if e.count < n then some es else none)
    else none

/-- The outer loop (momentum_timeline.py:273-292); `rest` is the list from `current_start_idx` on.  Outer `none`: out of
fuel; inner `none`: `IndexError` in line 292. -/
def slotLoop (n exec last : Int) : Nat → Int → List Event → Option (Option Int)
  | 0, _, _ => none
  | fuel + 1, cur, rest =>
    if cur < last then
      match lastShort n (cur + exec) rest with
      | none => some (some cur)
      | some [] => some none
      | some (e :: es) => slotLoop n exec last fuel e.time (e :: es)
    else some (some cur)

/-- `_find_earliest_time_slot` (momentum_timeline.py:242-294).  Outer `none`: the loop did not end within the fuel (the
length of the list); inner `none`: `IndexError`. -/
def findSlot (s : List Event) (parent exec n : Int) (independent : Bool) : Option (Option Int) :=
  if exec = 0 then some (some parent)
  else
    match s.getLast? with
    | none => some none
    | some l =>
      if independent then some (some (max parent l.time))
      else slotLoop n exec l.time (s.length + 1) parent (fromLast s parent)

end Sampo.Momentum

namespace Sampo.Momentum

/-- `resource_timeline`: the event lists of one contractor (momentum_timeline.py:142). -/
abbrev Resources := Nat → Option (List Event)

/-- `self._timeline[contractor_id]`. -/
def Timeline.resources (tl : Timeline) (contractor : Nat) : Resources := fun k => tl.states (contractor, k)

/-- The queue loop of `_find_min_start_time` (momentum_timeline.py:207-238) with `type2count` as a function (`none` is
`KeyError`).  Outer `none`: out of fuel; inner `none`: an exception. -/
def queueLoop (rt : Resources) (cnt : Nat → Option Int) (exec : Int) (independent : Bool) :
    Nat → List Nat → List Nat → Int → Option (Option Int)
  | 0, _, _, _ => none
  | _ + 1, [], _, start => some (some start)
  | fuel + 1, k :: queue, scheduled, start =>
    match rt k, cnt k with
    | some s, some n =>
      match findSlot s start exec n independent with
      | none => none
      | some none => some none
      | some (some found) =>
        if found < start then some none
        else if scheduled ≠ [] ∧ start ≠ found then queueLoop rt cnt exec independent fuel (queue ++ scheduled) [k] found
        else queueLoop rt cnt exec independent fuel queue (scheduled ++ [k]) found
    | _, _ => some none

/-- What `_find_min_start_time` reads of a work of the chain: is it a service unit, and the kinds of its worker
requirements. -/
structure ChainWork where
  service : Bool
  kinds : List Nat

/-- `build_index(passed_workers, name, count)` (momentum_timeline.py:212): later entries win. -/
def typeToCount (workers : List Worker) (k : Nat) : Option Int :=
  (workers.reverse.find? fun w => w.name = k).map (·.count)

/-- The capacity check for one work of the chain (momentum_timeline.py:194-200): `some false` means "return inf",
`none` is an exception (`KeyError`, `IndexError`, `AssertionError`). -/
def enoughFor (rt : Resources) : List Nat → List Worker → Option Bool
  | [], _ => some true
  | k :: ks, workers =>
    (rt k).bind fun s =>
      match s, workers with
      | e :: _, w :: ws => if e.type ≠ .initial then none else if e.count < w.count then some false else enoughFor rt ks ws
      | _, _ => none

/-- The capacity check for the chain (momentum_timeline.py:194-200). -/
def enoughForChain (rt : Resources) (workers : List Worker) : List ChainWork → Option Bool
  | [] => some true
  | c :: cs => (enoughFor rt c.kinds workers).bind fun ok => if ok then enoughForChain rt workers cs else some false

/-- `_find_min_start_time` (momentum_timeline.py:164-240); `inf` is `Time.inf()`. -/
def findMinStart (rt : Resources) (chain : List ChainWork) (independent : Bool) (parent exec : Int)
    (workers : List Worker) (inf : Int) (fuel : Nat) : Option (Option Int) :=
  if chain.all (·.service) then some (some parent)
  else
    match enoughForChain rt workers chain with
    | none => some none
    | some false => some (some inf)
    | some true =>
      match chain with
      | [] => some none
      | c :: _ => queueLoop rt (typeToCount workers) exec independent fuel c.kinds [] parent

end Sampo.Momentum
