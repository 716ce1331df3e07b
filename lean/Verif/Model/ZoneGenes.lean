import Verif.Model.Decode
import Verif.Model.ZoneSite

/-!
# The zone part of chromosomes (`sampo/scheduler/genetic/operators.py`, `converter.py`)

`chromosome[4]` is a matrix: for every work the status each zone is asked to have after the work.
-/

namespace Sampo.ZoneGenes

/-- `chromosome[4]`: rows are works, columns zones. -/
abbrev Part := List (List Int)

/-- `zones.size` is not 0. -/
def nonEmpty (p : Part) : Bool := p.any fun row => !row.isEmpty

/-- `zone_changes_chromosome` of a converted schedule (converter.py:61): zeros. -/
def zeros (works zones : Nat) : Part := List.replicate works (List.replicate zones 0)

/-- `zones1[positions] = zones2[positions]`; the right side is a copy. -/
def takeRows (positions : List Nat) (a b : Part) : Part :=
  a.mapIdx fun i row => if i ∈ positions then b.getD i [] else row

/-- `mate_for_zones` (operators.py:849-876) on the zone parts.  `positions` is the drawn sample. -/
def mate (positions : List Nat) (a b : Part) : Part × Part :=
  if nonEmpty a then (takeRows positions a b, takeRows positions b a) else (a, b)

/-- `zones[mask] = new_zones` in one row: the new row and the values that are left.  A shortage of values, which numpy refuses, cannot
occur (`mask.sum()` values are drawn); the entry is kept here. -/
def fillRow : List Bool → List Int → List Int → List Int × List Int
  | m :: ms, x :: xs, vals =>
    if m then
      match vals with
      | v :: vs => (v :: (fillRow ms xs vs).1, (fillRow ms xs vs).2)
      | [] => (x :: (fillRow ms xs []).1, (fillRow ms xs []).2)
    else (x :: (fillRow ms xs vals).1, (fillRow ms xs vals).2)
  | _, xs, vals => (xs, vals)

/-- `zones[mask] = new_zones`, row by row. -/
def fill : List (List Bool) → Part → List Int → Part
  | m :: ms, row :: rows, vals => (fillRow m row vals).1 :: fill ms rows (fillRow m row vals).2
  | _, rows, _ => rows

/-- `mutate_for_zones` (operators.py:879-898) on the zone part: `mask` says where `rand.random() < mutpb`, `vals` are the drawn
statuses. -/
def mutate (mask : List (List Bool)) (vals : List Int) (p : Part) : Part := if nonEmpty p then fill mask p vals else p

/-! ### The serial scheme -/

variable {τ : Type}

/-- What `MomentumTimeline.schedule` gives back (momentum_timeline.py:399-419): the method has no `return`, so it is `None`. -/
def scheduleResult : Option Int := none

/-- `zone_timeline.find_min_start_time(zone_reqs, ft, 0)` (zone_timeline.py:36-84) where `ft` may be `None`.  Without requirements `ft`
itself is the result; with any, `state.bisect_right(None)` raises `ValueError` (zone_timeline.py:17-28, 127).  Outer `none`: an
exception. -/
def changeTime (costs : Int → Int → Int) (tl : Zone.Timeline) (reqs : List Zone.Req) : Option Int → Option (Option Int)
  | some t =>
    match Zone.findMinStart (ZoneSite.rounds costs tl reqs t) costs tl reqs t 0 with
    | some (some z) => some (some z)
    | _ => none
  | none => if reqs.isEmpty then some none else none

/-- The requirements made of a row (converter.py:303): column `i` belongs to zone `i` (`index2zone`). -/
def rowReqs (row : List Int) : List Zone.Req := row.zipIdx.map fun p => ⟨p.2, p.1⟩

/-- The processing of zones after work `i` (converter.py:302-311); `ft` is what `schedule` gave back.  `order_index` is the position
of `i`, which occurs once.  `zones_post` of the work is not modelled. -/
def post (cfg : Zone.Config) (order : List Nat) (part : Part) (ft : Option Int) (s : ZoneSite.State τ) (i : Nat) :
    Option (ZoneSite.State τ) :=
  (changeTime cfg.costs s.zones (rowReqs (part.getD i [])) ft).bind fun z =>
    match z with
    | none => some s
    | some t =>
      if z = ft then some s
      else (Zone.update cfg.costs s.zones (order.idxOf i) (rowReqs (part.getD i [])) t 0).map fun r => { s with zones := r.1 }

/-- `serial_schedule_generation_scheme` (converter.py:240-316) on a landscape with zones `cfg`. -/
def serial (D : Decode.Input (ZoneSite.State τ)) (base : Env τ) (cfg : Zone.Config) (reqs : Nat → List Zone.Req) (part : Part) (mat : τ)
    (inf : Int) (fuelIn fuel : Nat) : Option (Option (Momentum.State (ZoneSite.State τ))) :=
  Decode.serial D (ZoneSite.site base cfg reqs) (fun st i => post cfg D.order part scheduleResult st.env i) (ZoneSite.fresh mat cfg)
    inf fuelIn fuel

end Sampo.ZoneGenes
