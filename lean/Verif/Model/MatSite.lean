import Verif.Model.Sched
import Verif.Model.SupplyQuery
import Verif.Spec.Supply

/-!
# The site of a scheduler with supplied materials

`Model/Sched.lean` has materials and zones as fields of `Env`.  Here the materials are supplied by the timeline of
`Model/Supply.lean`; the zones stay arbitrary.
-/

namespace Sampo.MatSite

/-- State of the site: zones, `_material_timeline`, and the deliveries so far, the latest first.  The records of a delivery are the
`materials` of its `ScheduledWork` (just_in_time_timeline.py:311-315, momentum_timeline.py:441-447). -/
structure State (τ : Type) where
  other : τ
  supply : Supply.State
  log : List Supply.Served

/-- A work as the supply timeline sees it. -/
def workOf (service : Nat → Bool) (needs : Nat → List Supply.Mat) (v : Nat) : Supply.Work := ⟨v, service v, needs v⟩

/-- The entry of the log for a call of `deliver_resources`. -/
def entry (w : Supply.Work) (t : Int) (out : Supply.Outcome) : Supply.Served := ⟨w, t, out.records, out.time, out.booked⟩

/-- The environment of a scheduler whose landscape has depots, roads and platforms: `needs` are the `need_materials()` of the works;
`base` has all else.  `find_min_material_time` is asked during the search (just_in_time_timeline.py:59-61, 93-95,
momentum_timeline.py:126-127, 145-147), `deliver_resources` for every work of a chain (just_in_time_timeline.py:304-307,
momentum_timeline.py:436-439).  Simplified: where `find_min_material_time` raises, the search goes on, so that there are more runs
than in the code. -/
def site {τ : Type} (base : Env τ) (land : Supply.Land) (needs : Nat → List Supply.Mat) : Env (State τ) where
  edgesTo := base.edgesTo
  insepParent := base.insepParent
  chain := base.chain
  service := base.service
  kinds := base.kinds
  estimate := base.estimate
  matTime s v t := (Supply.findMin land s.supply (workOf base.service needs v) t).getD t
  zoneTime s v t exec := base.zoneTime s.other v t exec
  deliver s v t := (Supply.deliver land s.supply (workOf base.service needs v) t).map fun out =>
    (⟨s.other, out.state, entry (workOf base.service needs v) t out :: s.log⟩, out.time)
  occupy s v t exec := (base.occupy s.other v t exec).map fun o => { s with other := o }
  finishZones s := (base.finishZones s.other).map fun r => ({ s with other := r.1 }, r.2)

/-- A new site. -/
def fresh {τ : Type} (other : τ) (land : Supply.Land) : State τ := ⟨other, Supply.State.init land, []⟩

end Sampo.MatSite
