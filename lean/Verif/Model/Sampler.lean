import Verif.Model.Pipeline

/-!
# The sampler of works (sampo/utilities/sampler)

Floating-point numbers are rational numbers here.  Numbers drawn at random are given by `Draws`.
-/

namespace Sampo.Sampler

/-- `WORKER_TYPES` (sampler/resources.py:5-12), a set. -/
def workerTypes : List String := ["driver", "fitter", "handyman", "electrician", "manager", "engineer"]

/-- `MinMax` (sampler/types.py:7-10). -/
structure MinMax (T : Type) where
  min : T
  max : T

/-- The random numbers of one call: the list of the set `WORKER_TYPES` after `rand.shuffle`, the results of `rand.randint` by the number of
the call, the result of `rand.random` and the new id. -/
structure Draws where
  names : List String
  int : Nat → Int → Int → Int
  unit : ℚ
  id : String

/-- `WorkerReq` (schemas/requirements.py:31-47) without its name. -/
structure Req where
  kind : String
  volume : ℚ
  minCount : Int
  maxCount : Int
deriving DecidableEq

/-- The fields of a `WorkUnit` (schemas/works.py:16-60) that the sampler sets. -/
structure Work where
  id : String
  modelName : String
  reqs : List Req
  group : String
  volume : ℚ
deriving DecidableEq

/-- `rand.randint(lo, hi)`: a `ValueError` if the range is empty. -/
def randint (d : Draws) (k : Nat) (lo hi : Int) : Option Int := if lo ≤ hi then some (d.int k lo hi) else none

/-- `get_worker_req` (sampler/requirements.py:9-15). -/
def workerReq (d : Draws) (k : Nat) (name : String) (volume count : MinMax Int) : Option Req :=
  (randint d k volume.min volume.max).map fun n => ⟨name, n, count.min, count.max⟩

/-- `get_worker_specific_reqs_list` (sampler/requirements.py:29-34) after `k` calls of `randint`. -/
def specificReqs (d : Draws) (volume count : MinMax Int) : Nat → List String → Option (List Req)
  | _, [] => some []
  | k, name :: names =>
    match workerReq d k name volume count with
    | none => none
    | some r => (specificReqs d volume count (k + 1) names).map (r :: ·)

/-- `get_worker_reqs_list` (sampler/requirements.py:18-26). -/
def reqsList (d : Draws) (volume count : MinMax Int) : Option (List Req) :=
  match randint d 0 1 d.names.length with
  | none => none
  | some n => specificReqs d volume count 1 (d.names.take n.toNat)

/-- `get_work_unit` (sampler/works.py:10-21), `Sampler.work_unit` (sampler/__init__.py:22-29). -/
def workUnit (d : Draws) (modelName id group : String) (workVolume : MinMax ℚ) (reqVolume reqCount : MinMax Int) : Option Work :=
  (reqsList d reqVolume reqCount).map fun reqs =>
    ⟨if id = "" then d.id else id, modelName, reqs, group, d.unit * (workVolume.max - workVolume.min) + workVolume.min⟩

/-- `WorkerReq.scale_all` (schemas/requirements.py:48-59) for a volume that is a number. -/
def Req.scaleAll (scalar : ℚ) (r : Req) : Req :=
  { r with volume := r.volume * scalar, maxCount := max (Pipeline.roundHalfEven (r.maxCount * scalar)) r.minCount }

/-- `get_similar_work_unit` (sampler/works.py:24-33), `Sampler.similar_work_unit` (sampler/__init__.py:31-36). -/
def similar (d : Draws) (exemplar : Work) (scalar : ℚ) (modelName id : String) : Work :=
  ⟨if id = "" then d.id else id, if modelName = "" then exemplar.modelName else modelName, exemplar.reqs.map (Req.scaleAll scalar),
    exemplar.group, exemplar.volume * scalar⟩

end Sampo.Sampler
