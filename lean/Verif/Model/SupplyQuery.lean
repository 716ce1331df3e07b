import Verif.Model.Supply

/-!
# Asking for materials (`sampo/scheduler/timeline/hybrid_supply_timeline.py`, `platform_timeline.py`)

The questions that the worker timelines put to the supply timeline before they book anything.  They change nothing, so the
model returns only the answer.  The same simplifications as in `Verif.Model.Supply`.
-/

namespace Sampo.Supply

/-- `_supply_resources` with `update=False` (hybrid_supply_timeline.py:198-282): the moment at which the materials are there. -/
def supplyTime (l : Land) (tl : Timeline) (platform : Nat) (deadline : Int) (mats : List Mat) : Option Int :=
  if mats = [] then some deadline else (plan l tl platform deadline mats).map fun o => o.start + o.ahead

/-- `_can_deliver_to_time` (hybrid_supply_timeline.py:62-65).  `none`: an exception. -/
def canDeliver (l : Land) (tl : Timeline) (platform : Nat) (time : Int) (mats : List Mat) : Option Bool :=
  (supplyTime l tl platform time mats).bind fun t => if time ≤ t then some (decide (t = time)) else none

/-- `HybridSupplyTimeline.can_schedule_at_the_moment` (hybrid_supply_timeline.py:67-81) with that of the platform
(platform_timeline.py:42-52); the worker timelines pass `work_unit.need_materials()` (momentum_timeline.py:332-333). -/
def canSchedule (l : Land) (st : State) (w : Work) (time : Int) : Option Bool :=
  if w.needs = [] ∨ w.service = true then some true
  else
    (calm st.platforms (l.platform w.id) time w.needs).bind fun ok =>
      if ok then
        (request l st.platforms (l.platform w.id) time w.needs).bind fun req =>
          if req = [] then some true else canDeliver l st.supply (l.platform w.id) time req
      else some false

/-- The loop of `find_min_material_time_with_additional` (platform_timeline.py:96-99): not before the last event of any of the
materials. -/
def lastTimes (p : Platforms) (platform : Nat) : Int → List Mat → Option Int
  | t, [] => some t
  | t, m :: ms => ((p.states (platform, m.name)).bind List.getLast?).bind fun e => lastTimes p platform (max e.time t) ms

/-- `find_min_material_time_with_additional` (platform_timeline.py:91-102). -/
def findReady (l : Land) (p : Platforms) (platform : Nat) (time : Int) (mats : List Mat) : Option (Int × List Mat) :=
  (calm p platform time mats).bind fun ok =>
    (if ok then some time else lastTimes p platform time mats).bind fun t =>
      (request l p platform t mats).map fun req => (t, req)

/-- `find_min_material_time` (hybrid_supply_timeline.py:83-101). -/
def findMin (l : Land) (st : State) (w : Work) (time : Int) : Option Int :=
  if w.service = true ∨ w.needs = [] then some time
  else
    (findReady l st.platforms (l.platform w.id) time w.needs).bind fun r =>
      if r.2 = [] then some r.1 else supplyTime l st.supply (l.platform w.id) r.1 r.2

end Sampo.Supply
