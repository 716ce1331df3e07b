import Verif.Model.Momentum

/-!
# Zone timeline (`sampo/scheduler/timeline/zone_timeline.py`)

The events of a zone are those of the momentum timeline (`ScheduleEvent`, `SortedList` with the same key, lines 16-33); the
field `count` (`available_workers_count`) holds the status.  Zones and statuses are numbers.  Times are plain integers.
-/

namespace Sampo.Zone

open Momentum (Event add lastAt fromLast)

/-- `ZoneConfiguration` (schemas/zones.py:47-54).  `costs` is the matrix `time_costs`; a missing entry (`IndexError`) is not
modelled. -/
structure Config where
  startStatuses : Nat → Option Int
  endStatuses : List (Nat × Int)
  costs : Int → Int → Int

/-- `DefaultZoneStatuses.match_status` (schemas/zones.py:42-43). -/
def matchStatus (status required : Int) : Bool := required = 0 || status = required

/-- `self._timeline`. -/
abbrev Timeline := Nat → Option (List Event)

/-- `__init__` (zone_timeline.py:14-34). -/
def init (cfg : Config) : Timeline := fun z => (cfg.startStatuses z).map fun s => [⟨-1, .initial, 0, s⟩]

/-- `ZoneReq` (schemas/requirements.py:117-123) and `Zone` (schemas/zones.py:10-13). -/
structure Req where
  zone : Nat
  status : Int
deriving DecidableEq, Repr

/-- The condition on the event before the start in `_validate` (zone_timeline.py:101-105). -/
def startsWell (required : Int) (e : Event) : Bool :=
  match e.type with
  | .finish => true
  | .start => matchStatus e.count required
  | .initial => true

/-- `_validate` (zone_timeline.py:89-104): the assertions hold.  An empty list before the start cannot occur for times ≥ 0. -/
def valid (start exec required : Int) (s : List Event) : Bool :=
  (s.all fun e => !(start < e.key && e.key ≤ start + exec) || matchStatus e.count required) &&
    match lastAt s start with
    | some e => startsWell required e
    | none => false

/-- `_is_inside_interval` (zone_timeline.py:201-213) on the events from the index on. -/
def balanced (s : List Event) : Bool :=
  s.countP (fun e => e.type = .start) = s.countP fun e => !(e.type = .start)

/-- The inner loop of `_find_earliest_time_slot` (zone_timeline.py:171-182) on the list from `current_start_idx` on: looking
backwards from the last event at or before `end_`, the first event with a wrong status; the result is the list from the next
event on, `none` if there is no such event. -/
def lastWrong (required end_ : Int) : List Event → Option (List Event)
  | [] => none
  | e :: es =>
    if e.key ≤ end_ then
      (lastWrong required end_ es).or (if matchStatus e.count required then none else some es)
    else none

/-- The outer loop of `_find_earliest_time_slot` (zone_timeline.py:128-197): `rest` is the list from `current_start_idx` on,
`last` the time of the last event of the zone. -/
def slotLoop (costs : Int → Int → Int) (parent exec required last : Int) : Nat → Int → List Event → Option Int
  | 0, _, _ => none
  | _ + 1, cur, [] => some cur
  | fuel + 1, cur, e :: es =>
    let scan (cur : Int) : Option Int :=
      match lastWrong required (cur + exec) (e :: es) with
      | none => some cur
      | some [] => some (max parent (last + 1))
      | some (x :: xs) => slotLoop costs parent exec required last fuel x.time (x :: xs)
    if matchStatus e.count required then scan cur
    else
      match es with
      | [] => some (cur + max 0 (costs e.count required - (cur - e.time)))
      | x :: xs =>
        if e.type = .start || balanced (e :: x :: xs) then
          slotLoop costs parent exec required last fuel x.time (x :: xs)
        else scan (cur + costs e.count required)

/-- `_find_earliest_time_slot` (zone_timeline.py:108-204).  `none`: `AssertionError`. -/
def findSlot (costs : Int → Int → Int) (s : List Event) (parent exec required : Int) : Option Int :=
  (s.getLast?).bind fun l =>
    (slotLoop costs parent exec required l.time (s.length + 1) parent (fromLast s parent)).bind fun t =>
      if valid t exec required s then some t else none

/-- `type2status[kind]` (zone_timeline.py:42): the last requirement of a kind counts. -/
def statusOf (reqs : List Req) (z : Nat) : Option Int := (reqs.reverse.find? fun q => q.zone = z).map (·.status)

/-- The loop of `find_min_start_time` (zone_timeline.py:46-78): queue, scheduled requirements, start.  Outer `none`: out of
fuel; inner `none`: an exception (unknown zone, failed assertion). -/
def queueLoop (costs : Int → Int → Int) (tl : Timeline) (reqs : List Req) (exec : Int) :
    Nat → List Req → List Req → Int → Option (Option Int)
  | _, [], _, start => some (some start)
  | 0, _ :: _, _, _ => none
  | fuel + 1, q :: queue, done, start =>
    match (tl q.zone).bind fun s => (statusOf reqs q.zone).bind (findSlot costs s start exec) with
    | none => some none
    | some found =>
      if found < start then some none
      else if done.isEmpty || start = found then queueLoop costs tl reqs exec fuel queue (done ++ [q]) (max start found)
      else queueLoop costs tl reqs exec fuel (queue ++ done) [q] (max start found)

/-- `find_min_start_time` (zone_timeline.py:36-84). -/
def findMinStart (fuel : Nat) (costs : Int → Int → Int) (tl : Timeline) (reqs : List Req) (parent exec : Int) :
    Option (Option Int) :=
  queueLoop costs tl reqs exec fuel reqs [] parent

/-- One zone in `can_schedule_at_the_moment` (zone_timeline.py:220-240).  `new_start_idx != start_idx`: there is an event
after `start - change_cost` and not after `start` (or the other way round for a negative cost). -/
def canStart (costs : Int → Int → Int) (s : List Event) (start exec required : Int) : Bool :=
  (match lastAt s start with
    | none => false
    | some l =>
      matchStatus l.count required ||
        (s.countP (fun e => e.key ≤ start - costs l.count required) = s.countP (fun e => e.key ≤ start) &&
          balanced (s.filter fun e => start < e.key))) &&
    s.all fun e => !(start < e.key && e.key ≤ start + exec) || matchStatus e.count required

/-- `can_schedule_at_the_moment` (zone_timeline.py:216-242); unknown zones (`KeyError`) count as refused. -/
def canSchedule (costs : Int → Int → Int) (tl : Timeline) (reqs : List Req) (start exec : Int) : Bool :=
  reqs.all fun q => match tl q.zone with
    | none => false
    | some s => canStart costs s start exec q.status

/-- `ZoneTransition` (schemas/zones.py:58-66). -/
structure Transition where
  zone : Nat
  fromStatus : Int
  toStatus : Int
  start : Int
  finish : Int
deriving DecidableEq, Repr

/-- The cost of a change in `update_timeline` (zone_timeline.py:256-258). -/
def changeCost (costs : Int → Int → Int) (status required : Int) : Int :=
  if matchStatus status required then 0 else costs status required

/-- `update_timeline` (zone_timeline.py:246-271).  `none`: `KeyError` or `AssertionError`. -/
def update (costs : Int → Int → Int) (tl : Timeline) (idx : Int) : List Req → Int → Int → Option (Timeline × List Transition)
  | [], _, _ => some (tl, [])
  | q :: qs, start, exec =>
    (tl q.zone).bind fun s => (lastAt s start).bind fun l =>
      if valid start exec q.status s then
        let c := changeCost costs l.count q.status
        let s' := add ⟨idx, .finish, start - c + exec, q.status⟩ (add ⟨idx, .start, start - c, q.status⟩ s)
        (update costs (fun z => if z = q.zone then some s' else tl z) idx qs start exec).map fun r =>
          (r.1, (if l.count ≠ q.status ∧ q.status ≠ 0 then [⟨q.zone, l.count, q.status, start - c, start⟩] else []) ++ r.2)
      else none

/-- `finish_statuses` (zone_timeline.py:301-302): `Zone(*v)` is applied to the keys of the dictionary, which are names, and
`append_statuses` (zone_timeline.py:273-299) reads the nonexistent attribute `available_workers_time`; with any final status
it raises. -/
def finishStatuses (cfg : Config) : Option (Int × List Transition) :=
  if cfg.endStatuses.isEmpty then some (0, []) else none

end Sampo.Zone
