import Verif.Model.Contractor
import Verif.Model.Sched

/-!
# The teams which the LFT scheduler prepares (`sampo/scheduler/lft/base.py`)
-/

namespace Sampo.LFT

/-- The worker pool as a function of (contractor, worker type): `get_worker_contractor_pool` (scheduler/utils/__init__.py:12-24),
indexed the way the timelines index it (just_in_time_timeline.py:25-30, momentum_timeline.py:64-70). -/
def agents (contractors : List Contractor) : AgentId → Option Int := fun a => getPool contractors a.2 a.1

/-- `self._node_id2workers[node.id]` (lft/base.py:160-166, filled in lines 206-240): contractor and team of a work, `none` for
an exception in `_contractor_workers_assignment`.  They do not depend on what was placed before.  `index v` is the choice of
`_get_contractor_index` for work `v`. -/
def choose (contractors : List Contractor) (spec : Nat → WorkSpec) (reqs : Nat → List WorkerReq) (index : Nat → Nat → Nat)
    (v : Nat) : Option (List Worker × Nat) :=
  match assign contractors (spec v) (reqs v) (index v) with
  | .ok (some ct) => some (ct.2, ct.1.id)
  | _ => none

/-- The inputs of `build_scheduler` in the LFT scheduler (lft/base.py:144-195) without assigned durations. -/
def plan (S : Type) (contractors : List Contractor) (spec : Nat → WorkSpec) (reqs : Nat → List WorkerReq)
    (index : Nat → Nat → Nat) (independent : Nat → Bool) (parentTime : Int) : Plan S :=
  ⟨fun _ v => choose contractors spec reqs index v, independent, fun _ => none, parentTime⟩

end Sampo.LFT
