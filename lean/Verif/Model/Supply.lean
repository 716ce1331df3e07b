import Verif.Model.Momentum
import Verif.Model.Time
import Mathlib.Logic.Function.Basic

/-!
# Supply of materials (`sampo/scheduler/timeline/hybrid_supply_timeline.py`, `platform_timeline.py`)

The event lists of depots, roads and platforms are `SortedList`s of `ScheduleEvent` with the same key as in the momentum
timeline (hybrid_supply_timeline.py:24-38, platform_timeline.py:16-29), and lines 407-429 of the hybrid timeline are the lines
366-389 of the momentum timeline word for word, so the definitions `Event`, `add`, `lastAt`, `available`, `updateState` of
`Verif.Model.Momentum` are used.

Simplifications: times are plain integers, except that the end of a reservation of materials (`min_depot_time + Time.inf()`)
saturates as in the code.  Materials, depots, roads, nodes and works are numbers; the resource `'vehicles'` is the number 0.
Quotients of counts are exact (`math.ceil` of a floating point quotient in the code).  For `ToStartSupplyTimeline` see
`Verif.Model.ToStart`.
-/

namespace Sampo.Supply

open Momentum (Event lastAt available updateState fromLast)

/-- Whose resource: the keys of `self._timeline` (holder ids and road ids, landscape.py:216-233). -/
inductive Place
  | depot (id : Nat)
  | road (id : Nat)
deriving DecidableEq, Repr

/-- The key `'vehicles'` (landscape.py:224-228). -/
def vehicles : Nat := 0

/-- `Material`: name and count. -/
structure Mat where
  name : Nat
  count : Int
deriving DecidableEq, Repr

/-- `ResourceHolder` (landscape.py:64-82): the load of one vehicle, the number of vehicles, the node. -/
structure Depot where
  id : Nat
  node : Nat
  fleet : Nat
  load : List Mat
  stock : List Mat
deriving DecidableEq, Repr

/-- What the timeline reads of a `LandscapeConfiguration`.  `depotsFrom`: the holders sorted by distance
(`get_sorted_holders`, modelled in `Verif.Model.Landscape`).  `route batch a b`: `construct_route` on the roads with
`road.vehicles >= batch_size` (hybrid_supply_timeline.py:354-355; modelled in `Verif.Model.Landscape`); `[]`: no route.
`overcome`: `Road.overcome_time`.  `platform`: `works2platform`.  `capacity`: `resource_storage_unit.capacity` of a platform;
`none`: `KeyError`. -/
structure Land where
  depots : List Depot
  depotsFrom : Nat → List Depot
  roads : List Nat
  bandwidth : Nat → Int
  overcome : Nat → Int
  route : Nat → Nat → Nat → List Nat
  platforms : List Nat
  platform : Nat → Nat
  capacity : Nat → Nat → Option Int

/-- `self._timeline` and `self._task_index`. -/
structure Timeline where
  states : Place × Nat → Option (List Event)
  taskIndex : Nat

/-- The first list of a resource (hybrid_supply_timeline.py:48-50). -/
def fresh (n : Int) : List Event := [⟨-1, .initial, 0, n⟩]

/-- The count a depot starts with (landscape.py:78-79, 223-225: `'vehicles'` wins over a material of that name; the stock is a
dictionary). -/
def Depot.initial (d : Depot) (r : Nat) : Option Int :=
  if r = vehicles then some d.fleet else (d.stock.find? fun m => m.name = r).map (·.count)

/-- `get_all_resources` (landscape.py:216-233); `none`: no such key. -/
def Land.initial (l : Land) : Place × Nat → Option Int
  | (.depot i, r) => (l.depots.find? fun d => d.id = i).bind fun d => d.initial r
  | (.road i, r) => if i ∈ l.roads ∧ r = vehicles then some (l.bandwidth i) else none

/-- `__init__` (hybrid_supply_timeline.py:22-52). -/
def Timeline.init (l : Land) : Timeline := ⟨fun k => (l.initial k).map fresh, 0⟩

/-- One entry of `update_timeline_info`. -/
structure Booking where
  key : Place × Nat
  count : Int
  start : Int
  finish : Int
deriving DecidableEq, Repr

/-- The body of the loops of `_update_timeline` (hybrid_supply_timeline.py:402-429).  `none`: `KeyError` or
`AssertionError`. -/
def Timeline.book (tl : Timeline) (b : Booking) : Option Timeline :=
  (tl.states b.key).bind fun s => (updateState tl.taskIndex b.start b.finish b.count s).map fun s' =>
    ⟨Function.update tl.states b.key (some s'), tl.taskIndex + 1⟩

/-- `_update_timeline` (hybrid_supply_timeline.py:397-429). -/
def Timeline.bookAll (tl : Timeline) : List Booking → Option Timeline
  | [] => some tl
  | b :: bs => (tl.book b).bind fun tl => tl.bookAll bs

/-! ## Searching -/

/-- The inner loop of `_find_earliest_start_time` (hybrid_supply_timeline.py:330-334) on the list from `base_ind` on: looking
backwards from the last event at or before `end_`, the first event with too little; the result is the list from the next event
on, `none` if there is no such event. -/
def lastShort (n end_ : Int) : List Event → Option (List Event)
  | [] => none
  | e :: es =>
    if e.key ≤ end_ then
      (lastShort n end_ es).or (if e.count < n then some es else none)
    else none

/-- The outer loop of `_find_earliest_start_time` (hybrid_supply_timeline.py:326-339); `rest` is the list from `base_ind` on,
`top` the last event of the list.  `none`: out of fuel. -/
def slotLoop (n exec last : Int) (top : Event) : Nat → Int → List Event → Option Int
  | 0, _, _ => none
  | fuel + 1, cur, rest =>
    if cur < last then
      match lastShort n (cur + exec) rest with
      | none => some cur
      | some [] => slotLoop n exec last top fuel top.time [top]
      | some (e :: es) => slotLoop n exec last top fuel e.time (e :: es)
    else some cur

/-- `_find_earliest_start_time` (hybrid_supply_timeline.py:308-343).  The last event before infinity is
`state[state.bisect_left((Time.inf(), -1, EventType)) - 1]`.  `none`: `AssertionError` (or out of fuel). -/
def findEarliest (s : List Event) (n parent exec : Int) : Option Int :=
  (lastAt s (TIME_INF - 1)).bind fun l => (s.getLast?).bind fun top =>
    (slotLoop n exec l.time top (s.length + 2) parent (fromLast s parent)).bind fun r =>
      if r < parent then none else some r

/-- `dict[key] = value` for `road_delivery`: road, start, end. -/
def setRoad (d : List (Nat × Int × Int)) (i : Nat) (v : Int × Int) : List (Nat × Int × Int) :=
  if d.any (fun e => e.1 = i) then d.map fun e => if e.1 = i then (i, v) else e else d ++ [(i, v)]

/-- The loop over the route in `move_vehicles` (hybrid_supply_timeline.py:362-371; the batch is the whole set of vehicles, so
the inner loop runs once). -/
def moveLoop (l : Land) (tl : Timeline) (batch : Nat) :
    List Nat → Int → List (Nat × Int × Int) → Option (Int × List (Nat × Int × Int))
  | [], finish, d => some (finish, d)
  | i :: is, finish, d =>
    (tl.states (.road i, vehicles)).bind fun s =>
      (findEarliest s batch finish (l.overcome i)).bind fun start =>
        moveLoop l tl batch is (start + l.overcome i) (setRoad d i (start, start + l.overcome i))

/-- `move_vehicles` (hybrid_supply_timeline.py:347-378).  `none`: `NoAvailableResources`. -/
def move (l : Land) (tl : Timeline) (a b : Nat) (parent : Int) (batch : Nat) :
    Option (Int × List (Nat × Int × Int)) :=
  if l.route batch a b = [] then none else moveLoop l tl batch (l.route batch a b) parent []

/-- `_get_necessary_vehicles_amount` (hybrid_supply_timeline.py:55-60).  `none`: `IndexError` (no vehicle), `ValueError` (the
vehicle carries none of the materials) or `ZeroDivisionError`. -/
def needVehicles (d : Depot) (mats : List Mat) : Option Int :=
  if d.fleet = 0 then none
  else
    let loads := d.load.filter fun m => mats.any fun q => q.name = m.name
    if loads.any fun m => m.count = 0 then none
    else (loads.map fun m =>
      -Int.fdiv (-((mats.reverse.find? fun q => q.name = m.name).map (·.count)).getD 0) m.count).max?

/-- What `get_finish_time` yields (hybrid_supply_timeline.py:211-233), and the number of selected vehicles. -/
structure Offer where
  start : Int
  ahead : Int
  back : Int
  depot : Depot
  batch : Nat
  thither : List (Nat × Int × Int)
  hither : List (Nat × Int × Int)
deriving DecidableEq, Repr

/-- The slice `depot.vehicles[:vehicle_count_need]`: its length. -/
def sliceLen (fleet : Nat) (need : Int) : Nat :=
  if 0 ≤ need then min fleet need.toNat else (fleet + need).toNat

/-- One turn of `get_finish_time` (hybrid_supply_timeline.py:211-233) with `_get_route_with_additional`
(hybrid_supply_timeline.py:345-395; no vehicles: `raise` without an exception). -/
def offer (l : Land) (tl : Timeline) (platform : Nat) (mats : List Mat) (start : Int) (d : Depot) : Option Offer :=
  (needVehicles d mats).bind fun need =>
    let batch := sliceLen d.fleet need
    if batch = 0 then none
    else
      (move l tl d.node platform start batch).bind fun go =>
        (move l tl platform d.node go.1 batch).bind fun ret =>
          (tl.states (.depot d.id, vehicles)).bind fun s =>
            (findEarliest s need (go.1 - (go.1 - start)) ((ret.1 - go.1) + (go.1 - start))).map fun t =>
              ⟨t, go.1 - start, ret.1 - go.1, d, batch, go.2, ret.2⟩

/-- All turns of `get_finish_time`. -/
def offers (l : Land) (tl : Timeline) (platform : Nat) (mats : List Mat) (start : Int) : List Depot → Option (List Offer)
  | [] => some []
  | d :: ds => (offer l tl platform mats start d).bind fun o => (offers l tl platform mats start ds).map (o :: ·)

/-- `finish_delivery_time` of the chosen offer (hybrid_supply_timeline.py:254, 273). -/
def finishOf : Option Offer → Int
  | none => -1
  | some b => b.start + b.ahead

/-- The body of the inner loop of `_supply_resources` (hybrid_supply_timeline.py:267-276): the chosen offer so far
(`none`: `finish_delivery_time = -1`). -/
def choose (deadline : Int) (best : Option Offer) (o : Offer) : Option Offer :=
  if (finishOf best > deadline ∧ o.start + o.ahead < finishOf best) ∨ finishOf best < deadline then some o else best

/-- `while finish_delivery_time < deadline` (hybrid_supply_timeline.py:263-276).  Outer `none`: out of fuel; inner `none`: an
exception. -/
def searchLoop (l : Land) (tl : Timeline) (platform : Nat) (mats : List Mat) (depots : List Depot) (deadline : Int) :
    Nat → Int → Option Offer → Option (Option (Option Offer))
  | 0, _, _ => none
  | fuel + 1, start, best =>
    if finishOf best < deadline then
      match offers l tl platform mats (start + 1) depots with
      | none => some none
      | some os => searchLoop l tl platform mats depots deadline fuel (start + 1) (os.foldl (choose deadline) best)
    else some (some best)

/-- `_find_best_holders_by_dist` (hybrid_supply_timeline.py:143-178): the depots whose last event before infinity has enough of
every material. -/
def canSupply (tl : Timeline) (mats : List Mat) (d : Depot) : Bool :=
  mats.all fun m => match (tl.states (.depot d.id, m.name)).bind fun s => lastAt s (TIME_INF - 1) with
    | some e => m.count ≤ e.count
    | none => false

/-- The depots that can supply (hybrid_supply_timeline.py:143-178).  `none`: `NoDepots` or `NotEnoughMaterialsInDepots`. -/
def holders (l : Land) (tl : Timeline) (platform : Nat) (mats : List Mat) : Option (List Depot) :=
  let ds := (l.depotsFrom platform).filter (canSupply tl mats)
  if ds = [] then none else some ds

/-- The first half of `_supply_resources` (hybrid_supply_timeline.py:235-276): the chosen offer.  `none`: an exception (also
`selected_depot.name` of `None` when the deadline is -1 or earlier). -/
def plan (l : Land) (tl : Timeline) (platform : Nat) (deadline : Int) (mats : List Mat) : Option Offer :=
  (holders l tl platform mats).bind fun ds =>
    ((searchLoop l tl platform mats ds deadline ((deadline + 2).toNat) (-1) none).bind id).bind id

/-- `update_timeline_info` (hybrid_supply_timeline.py:284-295): materials, vehicles (the variable `selected_vehicles` of line
248 is still empty), roads.  The order of the keys is that of the first use of a road. -/
def bookings (mats : List Mat) (o : Offer) : List Booking :=
  (mats.map fun m => ⟨(.depot o.depot.id, m.name), m.count, o.start, tAdd o.start TIME_INF⟩) ++
    [⟨(.depot o.depot.id, vehicles), 0, o.start, o.start + o.back + o.ahead⟩] ++
    o.thither.flatMap (fun e => ⟨(.road e.1, vehicles), o.batch, e.2.1, e.2.2⟩ ::
      (o.hither.filter fun f => f.1 = e.1).map fun f => ⟨(.road f.1, vehicles), o.batch, f.2.1, f.2.2⟩) ++
    (o.hither.filter fun f => !o.thither.any fun e => e.1 = f.1).map
      fun f => ⟨(.road f.1, vehicles), o.batch, f.2.1, f.2.2⟩

/-! ## Platforms -/

/-- `PlatformTimeline`: platform and material. -/
structure Platforms where
  states : Nat × Nat → Option (List Event)
  taskIndex : Nat

/-- `PlatformTimeline.__init__` (platform_timeline.py:14-40; landscape.py:233-235). -/
def Platforms.init (l : Land) : Platforms :=
  ⟨fun k => if k.1 ∈ l.platforms then (l.capacity k.1 k.2).map fresh else none, 0⟩

/-- One entry of `PlatformTimeline.update_timeline` (platform_timeline.py:121-131). -/
def Platforms.take (p : Platforms) (platform name : Nat) (count start : Int) : Option Platforms :=
  (p.states (platform, name)).bind fun s => (lastAt s start).map fun e =>
    ⟨Function.update p.states (platform, name) (some (Momentum.add ⟨p.taskIndex, .start, start, e.count - count⟩ s)),
      p.taskIndex + 1⟩

/-- `PlatformTimeline.update_timeline` (platform_timeline.py:115-131). -/
def Platforms.takeAll (p : Platforms) (platform : Nat) (start : Int) : List Mat → Option Platforms
  | [] => some p
  | m :: ms => (p.take platform m.name m.count start).bind fun p => p.takeAll platform start ms

/-- `get_material_for_delivery` (platform_timeline.py:63-83). -/
def request (l : Land) (p : Platforms) (platform : Nat) (time : Int) : List Mat → Option (List Mat)
  | [] => some []
  | m :: ms =>
    ((p.states (platform, m.name)).bind fun s => lastAt s time).bind fun e =>
      (request l p platform time ms).bind fun rest =>
        if e.count < m.count then (l.capacity platform m.name).map fun c => ⟨m.name, c - e.count⟩ :: rest
        else some rest

/-- `_check_material_availability_on_platform` (platform_timeline.py:44-61): at most one event after the moment. -/
def calm (p : Platforms) (platform : Nat) (time : Int) (mats : List Mat) : Option Bool :=
  mats.foldl (fun r m => r.bind fun b => (p.states (platform, m.name)).map fun s =>
    b && decide ((s.filter fun e => time < e.key).length ≤ 1)) (some true)

/-! ## Deliveries -/

/-- The part of the state that a delivery changes. -/
structure State where
  supply : Timeline
  platforms : Platforms

/-- `__init__`. -/
def State.init (l : Land) : State := ⟨Timeline.init l, Platforms.init l⟩

/-- A work: its number, whether it is a service unit, and `need_materials()`. -/
structure Work where
  id : Nat
  service : Bool
  needs : List Mat
deriving DecidableEq, Repr

/-- One entry of a `MaterialDelivery` (landscape.py:271-281): material, count, start, finish, holder. -/
structure Record where
  name : Nat
  count : Int
  start : Int
  finish : Int
  depot : Nat
deriving DecidableEq, Repr

/-- What a call returns and leaves behind; `booked` is `update_timeline_info` (kept for the statements). -/
structure Outcome where
  state : State
  records : List Record
  time : Int
  booked : List Booking

/-- `delivery.add_delivery` (hybrid_supply_timeline.py:278-279). -/
def recordsOf (mats : List Mat) (o : Offer) : List Record :=
  mats.map fun m => ⟨m.name, m.count, o.start, o.start + o.ahead, o.depot.id⟩

/-- `update_mat_req_info` (hybrid_supply_timeline.py:298-299): what the work needs minus what is delivered. -/
def platformUse (needs mats : List Mat) : Option (List Mat) :=
  mats.mapM fun m => (needs.reverse.find? fun q => q.name = m.name).map fun q => ⟨m.name, q.count - m.count⟩

/-- `_supply_resources` with `update=True` (hybrid_supply_timeline.py:198-305). -/
def supply (l : Land) (st : State) (w : Work) (deadline : Int) (mats : List Mat) : Option Outcome :=
  if mats = [] then some ⟨st, [], deadline, []⟩
  else
    (plan l st.supply (l.platform w.id) deadline mats).bind fun o =>
      (platformUse w.needs mats).bind fun use =>
        (st.platforms.takeAll (l.platform w.id) (o.start + o.ahead) use).bind fun p =>
          (st.supply.bookAll (bookings mats o)).map fun tl =>
            ⟨⟨tl, p⟩, recordsOf mats o, o.start + o.ahead, bookings mats o⟩

/-- `deliver_resources` (hybrid_supply_timeline.py:180-196) with `can_provide_resources` (platform_timeline.py:98-113); the
schedulers pass `work_unit.need_materials()` (momentum_timeline.py:436-438). -/
def deliver (l : Land) (st : State) (w : Work) (deadline : Int) : Option Outcome :=
  if w.needs = [] ∨ w.service = true then some ⟨st, [], deadline, []⟩
  else
    (request l st.platforms (l.platform w.id) deadline w.needs).bind fun req =>
      if req = [] then
        (calm st.platforms (l.platform w.id) deadline w.needs).bind fun ok =>
          if ok then (st.platforms.takeAll (l.platform w.id) deadline w.needs).map fun p => ⟨⟨st.supply, p⟩, [], deadline, []⟩
          else supply l st w deadline req
      else supply l st w deadline req

end Sampo.Supply
