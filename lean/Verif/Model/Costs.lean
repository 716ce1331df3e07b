import Mathlib.Data.Rat.Defs
import Mathlib.Algebra.Order.Field.Rat

/-!
# Prices of workers and costs of works (`sampo/schemas/resources.py`, `scheduled_work.py`, `scheduler/utils/__init__.py`)

Names and ids are numbers.  Of a productivity there is only its mean.  Rationals in place of floats.
-/

namespace Sampo.Costs

/-- `Worker` (schemas/resources.py:50-70); `price` is `cost_one_unit`. -/
structure Worker where
  id : Nat
  name : Nat
  count : Int
  contractor : Nat
  productivity : ℚ
  price : ℚ
deriving DecidableEq

/-- `Worker.__init__` (schemas/resources.py:61-70): without a productivity it is 1, without a price ten times the mean productivity. -/
def mkWorker (id name : Nat) (count : Int) (contractor : Nat) (productivity : Option ℚ) (price : Option ℚ) : Worker where
  id := id
  name := name
  count := count
  contractor := contractor
  productivity := productivity.getD 1
  price := price.getD (productivity.getD 1 * 10)

/-- `Worker.copy` (schemas/resources.py:74-84). -/
def Worker.copy (w : Worker) : Worker := mkWorker w.id w.name w.count w.contractor (some w.productivity) none

/-- `Worker.with_count` (schemas/resources.py:86-94). -/
def Worker.withCount (w : Worker) (n : Int) : Worker := { w with count := n }

/-- `Worker.get_cost` (schemas/resources.py:96-98). -/
def Worker.cost (w : Worker) : ℚ := w.price * w.count

/-- `Contractor` (schemas/contractor.py:18-28): the entries of its dictionary of workers, in order. -/
structure Contractor where
  id : Nat
  workers : List (Nat × Worker)
deriving DecidableEq

/-- `Contractor.__post_init__` (schemas/contractor.py:30-32): the workers belong to the contractor.  Simplified: contractors do not share
objects. -/
def mkContractor (id : Nat) (workers : List (Nat × Worker)) : Contractor :=
  ⟨id, workers.map fun e => (e.1, { e.2 with contractor := id })⟩

/-- A dictionary of dictionaries: by name, then by contractor. -/
abbrev Pool := Nat → Nat → Option Worker

/-- The body of the loop of `get_worker_contractor_pool` (scheduler/utils/__init__.py:21-23) for one contractor. -/
def addContractor (pool : Pool) (c : Contractor) : Pool :=
  c.workers.foldl (fun pool e name id => if name = e.1 ∧ id = c.id then some e.2.copy else pool name id) pool

/-- `get_worker_contractor_pool` (scheduler/utils/__init__.py:12-24). -/
def poolOf (cs : List Contractor) : Pool := cs.foldl addContractor fun _ _ => none

/-- The team of a work as schedulers make it from the pool, with these counts (scheduler/generic.py:88, lft/base.py:238-239,
genetic/converter.py:173-176, 285-287).  `none`: `KeyError`. -/
def team (pool : Pool) (contractor : Nat) (counts : List (Nat × Int)) : Option (List Worker) :=
  counts.mapM fun e => (pool e.1 contractor).map fun w => w.copy.withCount e.2

/-- The cost of a `ScheduledWork` (schemas/scheduled_work.py:61). -/
def workCost (workers : List Worker) (duration : Int) : ℚ := (workers.map fun w => w.cost * (duration : ℚ)).sum

/-- A work of a schedule as the schedulers decide on it: its contractor, its counts of workers and its duration. -/
structure Decision where
  contractor : Nat
  counts : List (Nat × Int)
  duration : Int

/-- The costs of the works of a schedule. -/
def costs (cs : List Contractor) (l : List Decision) : Option (List ℚ) :=
  l.mapM fun d => (team (poolOf cs) d.contractor d.counts).map fun t => workCost t d.duration

/-- `resources_costs_sum` (utilities/resource_usage.py:56-68) for a schedule of these works; `names` picks workers by their name. -/
def totalCost (cs : List Contractor) (l : List Decision) (names : Option (List Nat)) : Option ℚ :=
  (l.mapM fun d => (team (poolOf cs) d.contractor d.counts).map fun t =>
    workCost (t.filter fun w => match names with | none => true | some ns => ns.contains w.name) d.duration).map List.sum

end Sampo.Costs
