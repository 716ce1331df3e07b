import Verif.Model.Sched
import Verif.Model.Zone

/-!
# The site of a scheduler with zones

`Model/Sched.lean` has materials and zones as fields of `Env`.  Here the zones are those of `Model/Zone.lean`; the materials stay
arbitrary.
-/

namespace Sampo.ZoneSite

/-- State of the site: materials, `zone_timeline`, and the number of works placed so far (`len(node2swork)`). -/
structure State (τ : Type) where
  mat : τ
  zones : Zone.Timeline
  placed : Nat

/-- After this moment all zones of the requirements are free and can be in the required status. -/
def horizon (costs : Int → Int → Int) (tl : Zone.Timeline) (reqs : List Zone.Req) : Int :=
  (reqs.map fun q => match (tl q.zone).bind (·.getLast?) with
    | none => 0
    | some l => l.time + max 1 (costs l.count q.status)).foldl max 0

/-- A number of rounds that is enough for the queue of `find_min_start_time`. -/
def rounds (costs : Int → Int → Int) (tl : Zone.Timeline) (reqs : List Zone.Req) (parent : Int) : Nat :=
  (max (horizon costs tl reqs) parent - parent).toNat * (reqs.length + 1) + reqs.length

/-- `zone_timeline.find_min_start_time(node.work_unit.zone_reqs, t, exec)` (just_in_time_timeline.py:63, 100-101,
momentum_timeline.py:128, 152-153).  Simplified: where it raises (unknown zones), the exception comes at the end of the round, when
`update_timeline` raises. -/
def zoneTime (costs : Int → Int → Int) (tl : Zone.Timeline) (reqs : List Zone.Req) (t exec : Int) : Int :=
  match Zone.findMinStart (rounds costs tl reqs t) costs tl reqs t exec with
  | some (some z) => z
  | _ => t

/-- The environment of a scheduler whose landscape has zones: `reqs` are the `zone_reqs` of the works; `base` has all else.
`update_timeline(len(node2swork), zones, ...)` is called for the first work of a chain (just_in_time_timeline.py:319-322,
momentum_timeline.py:452-454); `finish_statuses` at the end (generic.py:179-181, lft/base.py:178-180). -/
def site {τ : Type} (base : Env τ) (cfg : Zone.Config) (reqs : Nat → List Zone.Req) : Env (State τ) where
  edgesTo := base.edgesTo
  insepParent := base.insepParent
  chain := base.chain
  service := base.service
  kinds := base.kinds
  estimate := base.estimate
  matTime s v t := base.matTime s.mat v t
  zoneTime s v t exec := zoneTime cfg.costs s.zones (reqs v) t exec
  deliver s v t := (base.deliver s.mat v t).map fun d => (⟨d.1, s.zones, s.placed + 1⟩, d.2)
  occupy s v t exec := (Zone.update cfg.costs s.zones s.placed (reqs v) t exec).map fun r => { s with zones := r.1 }
  finishZones s := (Zone.finishStatuses cfg).map fun r => (s, r.1)

/-- A new site. -/
def fresh {τ : Type} (mat : τ) (cfg : Zone.Config) : State τ := ⟨mat, Zone.init cfg, 0⟩

end Sampo.ZoneSite
