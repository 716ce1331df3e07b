import Verif.Model.SupplyQuery

/-!
# The other supply timeline (`sampo/scheduler/timeline/to_start_supply_timeline.py`)

`ToStartSupplyTimeline` has the event lists, routes, trips and bookings of `HybridSupplyTimeline` (`__init__`,
`_get_vehicles_need`, `_find_best_holders_by_dist`, `_find_earliest_start_time`, `_get_route_info`, `_update_timeline`:
to_start_supply_timeline.py:18-56, 117-150, 267-330, 332-386), so that the definitions `offers`, `holders`, `bookings` and those of the platforms of
`Verif.Model.Supply` are used.  Without vehicles `_get_route_info` finds no road delivery and raises `NoAvailableResources`
(to_start_supply_timeline.py:316, 326-329), as the other timeline raises.  It differs in the choice of the depot and in the first lines of the
public methods.  The same simplifications as in `Verif.Model.Supply`.
-/

namespace Sampo.ToStart
open Supply

/-- The body of the inner loop of `_supply_resources` (to_start_supply_timeline.py:227-238): `local_min_start_time` and the chosen
offer. -/
def pick (deadline : Int) (s : Int × Option Offer) (o : Offer) : Int × Option Offer :=
  if o.start < s.1 ∧ ((finishOf s.2 > deadline ∧ o.start + o.ahead < finishOf s.2) ∨ finishOf s.2 < deadline) then (o.start, some o)
  else s

/-- One round of the outer loop: `local_min_start_time` starts with `Time.inf()` (to_start_supply_timeline.py:226). -/
def round (deadline : Int) (best : Option Offer) (os : List Offer) : Option Offer := (os.foldl (pick deadline) (TIME_INF, best)).2

/-- `while finish_delivery_time < deadline` (to_start_supply_timeline.py:223-238).  Outer `none`: out of fuel; inner `none`: an
exception. -/
def searchLoop (l : Land) (tl : Timeline) (platform : Nat) (mats : List Mat) (depots : List Depot) (deadline : Int) :
    Nat → Int → Option Offer → Option (Option (Option Offer))
  | 0, _, _ => none
  | fuel + 1, start, best =>
    if finishOf best < deadline then
      match offers l tl platform mats (start + 1) depots with
      | none => some none
      | some os => searchLoop l tl platform mats depots deadline fuel (start + 1) (round deadline best os)
    else some (some best)

/-- The first half of `_supply_resources` (to_start_supply_timeline.py:206-238): the chosen offer. `none`: an exception, or (only for
trips that start at infinity) no end. -/
def plan (l : Land) (tl : Timeline) (platform : Nat) (deadline : Int) (mats : List Mat) : Option Offer :=
  (holders l tl platform mats).bind fun ds =>
    ((searchLoop l tl platform mats ds deadline ((deadline + 2).toNat) (-1) none).bind id).bind id

/-- `_supply_resources` with `update=True` (to_start_supply_timeline.py:167-265). -/
def supply (l : Land) (st : State) (w : Work) (deadline : Int) (mats : List Mat) : Option Outcome :=
  if mats = [] then some ⟨st, [], deadline, []⟩
  else
    (plan l st.supply (l.platform w.id) deadline mats).bind fun o =>
      (platformUse w.needs mats).bind fun use =>
        (st.platforms.takeAll (l.platform w.id) (o.start + o.ahead) use).bind fun p =>
          (st.supply.bookAll (bookings mats o)).map fun tl =>
            ⟨⟨tl, p⟩, recordsOf mats o, o.start + o.ahead, bookings mats o⟩

/-- `deliver_resources` (to_start_supply_timeline.py:152-165) with `can_provide_resources` (platform_timeline.py:98-113), for
`materials` the `need_materials()` of the work; service units are treated like other works. -/
def deliver (l : Land) (st : State) (w : Work) (deadline : Int) : Option Outcome :=
  if w.needs = [] then some ⟨st, [], deadline, []⟩
  else
    (request l st.platforms (l.platform w.id) deadline w.needs).bind fun req =>
      if req = [] then
        (calm st.platforms (l.platform w.id) deadline w.needs).bind fun ok =>
          if ok then (st.platforms.takeAll (l.platform w.id) deadline w.needs).map fun p => ⟨⟨st.supply, p⟩, [], deadline, []⟩
          else supply l st w deadline req
      else supply l st w deadline req

/-- `_supply_resources` with `update=False` (to_start_supply_timeline.py:201-243): the moment at which the materials are there. -/
def supplyTime (l : Land) (tl : Timeline) (platform : Nat) (deadline : Int) (mats : List Mat) : Option Int :=
  if mats = [] then some deadline else (plan l tl platform deadline mats).map fun o => o.start + o.ahead

/-- `_can_deliver_to_time` (to_start_supply_timeline.py:68-71).  `none`: an exception. -/
def canDeliver (l : Land) (tl : Timeline) (platform : Nat) (time : Int) (mats : List Mat) : Option Bool :=
  (supplyTime l tl platform time mats).bind fun t => if time ≤ t then some (decide (t = time)) else none

/-- The total count of some materials: `sum(mat.count for mat in ...)` (to_start_supply_timeline.py:82, 112). -/
def total (mats : List Mat) : Int := (mats.map (·.count)).sum

/-- `can_schedule_at_the_moment` (to_start_supply_timeline.py:73-87) with that of the platform (platform_timeline.py:42-52). -/
def canSchedule (l : Land) (st : State) (w : Work) (time : Int) : Option Bool :=
  if w.needs = [] then some true
  else
    (calm st.platforms (l.platform w.id) time w.needs).bind fun ok =>
      if ok then
        (request l st.platforms (l.platform w.id) time w.needs).bind fun req =>
          if total req = 0 then some true else canDeliver l st.supply (l.platform w.id) time req
      else some false

/-- `find_min_material_time` (to_start_supply_timeline.py:106-116). -/
def findMin (l : Land) (st : State) (w : Work) (time : Int) : Option Int :=
  if w.service = true ∨ w.needs = [] then some time
  else
    (findReady l st.platforms (l.platform w.id) time w.needs).bind fun r =>
      if total r.2 = 0 then some r.1 else supplyTime l st.supply (l.platform w.id) r.1 r.2

end Sampo.ToStart
