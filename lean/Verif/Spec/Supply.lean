import Verif.Model.Supply

/-!
# Specification: supplying materials

A history is a sequence of calls of `deliver_resources`, the latest first, each with the work, the moment at which the work
should start, and what was returned and booked.
-/

namespace Sampo.Supply

/-- One call and its result. -/
structure Served where
  work : Work
  deadline : Int
  records : List Record
  time : Int
  booked : List Booking
deriving DecidableEq, Repr

/-- All sequences of calls on a new timeline. -/
inductive History (l : Land) : State → List Served → Prop
  | fresh : History l (State.init l) []
  | serve {st : State} {log : List Served} {w : Work} {deadline : Int} {out : Outcome} : History l st log → 0 ≤ deadline →
      deliver l st w deadline = some out →
      History l out.state (⟨w, deadline, out.records, out.time, out.booked⟩ :: log)

/-- The quantity of a material delivered from a depot by some calls, as the returned records say. -/
def taken (log : List Served) (depot name : Nat) : Int :=
  (log.flatMap (·.records)).foldr (fun r t => if r.depot = depot ∧ r.name = name then r.count + t else t) 0

/-- How much of a resource is in use at a moment according to some bookings. -/
def inUse (bs : List Booking) (k : Place × Nat) (t : Int) : Int :=
  bs.foldr (fun b u => if b.key = k ∧ b.start ≤ t ∧ t < b.finish then b.count + u else u) 0

/-- The number of vehicles on a road at a moment, as the roads are booked. -/
def onRoad (log : List Served) (road : Nat) (t : Int) : Int := inUse (log.flatMap (·.booked)) (.road road, vehicles) t

/-- The number of vehicles of a depot that are on some road at a moment. -/
def onTheWay (log : List Served) (depot : Nat) (t : Int) : Int :=
  ((log.filter fun s => s.records.any fun r => r.depot = depot).flatMap (·.booked)).foldr
    (fun b u => match b.key.1 with
      | .road _ => if b.start ≤ t ∧ t < b.finish then b.count + u else u
      | .depot _ => u) 0

/-- The quantity of a material that the works served so far on a platform have needed. -/
def needed (l : Land) (log : List Served) (platform name : Nat) : Int :=
  log.foldr (fun s t => (if l.platform s.work.id = platform ∧ s.work.service = false then
    (s.work.needs.foldr (fun m u => if m.name = name then m.count + u else u) 0) else 0) + t) 0

/-- The quantity of a material delivered to a platform so far. -/
def received (l : Land) (log : List Served) (platform name : Nat) : Int :=
  log.foldr (fun s t => (if l.platform s.work.id = platform then
    (s.records.foldr (fun r u => if r.name = name then r.count + u else u) 0) else 0) + t) 0

/-- A landscape without roads of length zero, whose routes use only roads wide enough for the batch. -/
structure Sensible (l : Land) : Prop where
  long : ∀ i, 0 < l.overcome i
  wide : ∀ batch a b, ∀ i ∈ l.route batch a b, i ∈ l.roads ∧ (batch : Int) ≤ l.bandwidth i

/-- A depot that can send vehicles to a platform and has them carry everything it stores. -/
structure Serves (l : Land) (platform : Nat) (d : Depot) : Prop where
  known : ∃ n, l.initial (.depot d.id, vehicles) = some n
  fleet : 0 < d.fleet
  load : ∀ m ∈ d.load, 0 < m.count
  carries : ∀ r n, l.initial (.depot d.id, r) = some n → r ≠ vehicles → ∃ m ∈ d.load, m.name = r
  thither : ∀ batch, 0 < batch → batch ≤ d.fleet → l.route batch d.node platform ≠ []
  hither : ∀ batch, 0 < batch → batch ≤ d.fleet → l.route batch platform d.node ≠ []

/-- No work needs more of a material than its platform can store, and no need is negative or listed twice. -/
def Modest (l : Land) (w : Work) : Prop :=
  (w.needs.map (·.name)).Nodup ∧ ∀ m ∈ w.needs, m.name ≠ vehicles ∧ 0 ≤ m.count ∧
    ∀ c, l.capacity (l.platform w.id) m.name = some c → m.count ≤ c

/-- The platform of the work has a place for everything the work needs. -/
def Housed (l : Land) (w : Work) : Prop :=
  l.platform w.id ∈ l.platforms ∧ ∀ m ∈ w.needs, ∃ c, l.capacity (l.platform w.id) m.name = some c

/-- On each platform a work is asked for only after the works before it have got their materials. -/
def InOrder (l : Land) (log : List Served) : Prop :=
  log.Pairwise fun later earlier => l.platform earlier.work.id = l.platform later.work.id → earlier.time ≤ later.deadline

/-- Each delivery brings everything its work needs, or nothing. -/
def AllOrNothing (log : List Served) : Prop :=
  ∀ s ∈ log, s.records = [] ∨ s.records.map (·.name) = s.work.needs.map (·.name)

/-- Everything happens before the largest moment the calendar knows. -/
def InCalendar (log : List Served) : Prop :=
  ∀ s ∈ log, ∀ b ∈ s.booked, b.start < TIME_INF ∧ (b.key.2 = vehicles → b.finish < TIME_INF)

end Sampo.Supply
