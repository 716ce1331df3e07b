import Verif.Model.Interval
import Verif.Model.Time

/-!
# Requirements of synthetic works and the synthetic contractor

`sampo/generator/config/worker_req.py`, the requirements in `sampo/generator/pipeline/cluster.py`, and
`sampo/generator/environment/contractor.py`.  Floating point numbers are rationals.
-/

namespace Sampo.SyntheticReqs

open Synthetic (Kind)
open Intervals

/-- `WorkerReq` (requirements.py:31-47) without its name. -/
structure Req where
  kind : String
  volume : Int
  minCount : Int
  maxCount : Int
deriving DecidableEq, Repr

/-- `volume * scalar` for a `Time` (time.py:43-44, 88-94). -/
def scaledTime (volume : Int) (scalar : ℚ) : Int := mkTime (Pipeline.toInt (volume * scalar))

/-- `WorkerReq.scale_all` (requirements.py:48-59). -/
def Req.scaleAll (scalar : ℚ) (r : Req) : Req :=
  { r with volume := scaledTime r.volume scalar, maxCount := max (Pipeline.roundHalfEven (r.maxCount * scalar)) r.minCount }

/-- `WorkerReq.scale_volume` (requirements.py:61-70). -/
def Req.scaleVolume (scalar : ℚ) (r : Req) : Req := { r with volume := scaledTime r.volume scalar }

/-- `scale_reqs` (worker_req.py:5-14). -/
def scaleReqs (l : List Req) (scalar : ℚ) : List Req := l.map (Req.scaleAll scalar)

/-- `mul_volume_reqs` (worker_req.py:17-26). -/
def mulVolume (l : List Req) (scalar : ℚ) : List Req := l.map (Req.scaleVolume scalar)

/-- `mul_borehole_volume` with `get_borehole_volume` (worker_req.py:29-54). -/
def mulBoreholes (l : List Req) (boreholes : Nat) (base perHole : ℚ) : List Req := mulVolume l (base + perHole * boreholes)

/-- `MIN_ROAD` (worker_req.py:63-70). -/
def minRoad : List Req := [⟨"driver", 15, 3, 9⟩, ⟨"manager", 5, 1, 3⟩, ⟨"handyman", 30, 6, 18⟩]

/-- `ENGINEERING_PREPARATION` (worker_req.py:82-91). -/
def engineering : List Req :=
  [⟨"driver", 900, 6, 30⟩, ⟨"manager", 150, 2, 6⟩, ⟨"handyman", 900, 6, 30⟩, ⟨"engineer", 150, 2, 6⟩]

/-- `POWER_LINE` (worker_req.py:98-109). -/
def powerLine : List Req :=
  [⟨"driver", 120, 6, 9⟩, ⟨"fitter", 120, 6, 9⟩, ⟨"manager", 40, 2, 6⟩, ⟨"handyman", 120, 6, 9⟩, ⟨"electrician", 40, 2, 6⟩]

/-- `PIPE_LINE` (worker_req.py:116). -/
def pipeLine : List Req := scaleReqs powerLine 1

/-- `PIPE_NODE` (worker_req.py:122-133). -/
def pipeNode : List Req :=
  [⟨"driver", 400, 2, 6⟩, ⟨"fitter", 800, 4, 8⟩, ⟨"manager", 400, 2, 8⟩, ⟨"handyman", 1200, 6, 12⟩, ⟨"electrician", 300, 2, 6⟩]

/-- `METERING_INSTALL` (worker_req.py:140-151). -/
def metering : List Req :=
  [⟨"driver", 200, 2, 6⟩, ⟨"fitter", 300, 3, 9⟩, ⟨"manager", 50, 1, 2⟩, ⟨"handyman", 300, 4, 12⟩, ⟨"engineer", 100, 2, 4⟩]

/-- `KTP_NEP` (worker_req.py:157-168). -/
def ktpNep : List Req :=
  [⟨"driver", 200, 2, 6⟩, ⟨"fitter", 300, 3, 9⟩, ⟨"manager", 50, 1, 2⟩, ⟨"handyman", 300, 4, 12⟩, ⟨"electrician", 100, 2, 4⟩]

/-- `DRAINAGE_TANK` (worker_req.py:175-182). -/
def drainageTank : List Req := [⟨"driver", 400, 4, 8⟩, ⟨"manager", 50, 1, 2⟩, ⟨"handyman", 300, 3, 9⟩]

/-- `BOREHOLE` (worker_req.py:198-207). -/
def borehole : List Req := [⟨"driver", 200, 4, 12⟩, ⟨"fitter", 150, 3, 9⟩, ⟨"manager", 25, 1, 3⟩, ⟨"handyman", 250, 6, 9⟩]

/-- `PIPE_NETWORK` (worker_req.py:214-225). -/
def pipeNetwork : List Req :=
  [⟨"driver", 60, 3, 6⟩, ⟨"fitter", 60, 3, 6⟩, ⟨"manager", 20, 2, 4⟩, ⟨"handyman", 50, 3, 6⟩, ⟨"electrician", 20, 2, 4⟩]

/-- `POWER_NETWORK` (worker_req.py:226). -/
def powerNetwork : List Req := scaleReqs pipeNetwork 1

/-- `LIGHT_MAST` (worker_req.py:231-242). -/
def lightMast : List Req :=
  [⟨"driver", 20, 2, 4⟩, ⟨"fitter", 40, 4, 8⟩, ⟨"manager", 10, 2, 4⟩, ⟨"handyman", 60, 3, 12⟩, ⟨"electrician", 5, 1, 1⟩]

/-- `HANDING_STAGE` (worker_req.py:248-255). -/
def handing : List Req := [⟨"driver", 5, 1, 3⟩, ⟨"manager", 5, 1, 3⟩, ⟨"engineer", 10, 2, 8⟩]

/-- The requirements of a work of a kind (cluster.py:17-197), for its length in km and the number of boreholes it depends on. -/
def reqsOf (k : Kind) (length : ℚ) (boreholes : Nat) : List Req :=
  match k with
  | .minRoad => scaleReqs minRoad length
  | .tempRoad => scaleReqs (mulVolume minRoad 4) length
  | .finalRoad => scaleReqs (mulVolume minRoad 10) length
  | .engineering => mulBoreholes engineering boreholes (44 / 100) (3 / 100)
  | .powerLine => scaleReqs powerLine length
  | .highPowerLine => scaleReqs powerLine length
  | .pipe => scaleReqs pipeLine length
  | .pipeNode => pipeNode
  | .looping => scaleReqs pipeLine length
  | .metering => metering
  | .ktpNep => mulBoreholes ktpNep boreholes (58 / 100) (3 / 100)
  | .drainageTank => mulBoreholes drainageTank boreholes (3 / 10) (5 / 100)
  | .waterBlock => scaleReqs metering (11 / 10)
  | .automationBlock => scaleReqs metering (9 / 10)
  | .dosageBlock => scaleReqs metering 1
  | .startFilters => scaleReqs metering (105 / 100)
  | .firewallTank => scaleReqs drainageTank (105 / 100)
  | .borehole => borehole
  | .pipeNet => scaleReqs powerNetwork length
  | .powerNet => scaleReqs powerNetwork length
  | .mast => lightMast
  | .handing => mulBoreholes handing boreholes (66 / 100) (2 / 100)

/-- `WORKER_PROPORTIONS` (gen_counts.py:11-18). -/
def proportions : List (String × ℚ) :=
  [("driver", 6), ("fitter", 6), ("handyman", 8), ("electrician", 2), ("manager", 3), ("engineer", 2)]

/-- `_get_stochastic_counts` (contractor.py:10-30): name and count for each proportion whose name is available; an empty list of available
types means all.  `z i` is the normal random number for the type number `i`.  The borders are finite, so no count raises. -/
def counts (pack sigma : ℚ) (props : List (String × ℚ)) (available : Option (List String)) (z : Nat → ℚ) : List (String × Int) :=
  let types := match available with
    | none => props.map Prod.fst
    | some [] => props.map Prod.fst
    | some l => l
  (props.filter fun p => types.contains p.1).mapIdx fun i p =>
    (p.1, (Gaussian.int ⟨p.2 * pack, sigma * (p.2 * pack) / 2, fin p.2, fin (p.2 * pack)⟩ (z i)).getD 0)

/-- `get_contractor(pack)` with the default arguments (contractor.py:67-98): name and count of its workers. -/
def contractor (pack : ℚ) (z : Nat → ℚ) : List (String × Int) := counts pack (1 / 10) proportions none z

end Sampo.SyntheticReqs
