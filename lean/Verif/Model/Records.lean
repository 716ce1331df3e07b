import Verif.Model.Json

/-!
# Works, workers, contractors and schedules as they are saved (`sampo/schemas/works.py`, `scheduled_work.py`, `contractor.py`, `schedule.py`)

Records of the fields in `__dict__`, in the order in which they are set.  Simplified: values of `model_name` are strings; costs and volumes
are floats.
-/

namespace Sampo.Json

/-- The classes with ignored fields or custom serializers: resources.py:70, works.py:84-139, scheduled_work.py:29, 70-91,
contractor.py:37-53.  All other classes have neither. -/
def classes (c : String) : Class :=
  if c = "Worker" then ⟨["productivity"], []⟩
  else if c = "WorkUnit" then ⟨[], [("worker_reqs", .each "WorkerReq"), ("zone_reqs", .each "ZoneReq"), ("material_reqs", .each "MaterialReq")]⟩
  else if c = "ScheduledWork" then ⟨["equipments", "materials", "object", "work_unit"],
    [("workers", .each "Worker"), ("zones_pre", .each "ZoneTransition"), ("zones_post", .each "ZoneTransition"), ("start_end_time", .pair "Time")]⟩
  else if c = "Contractor" then ⟨[], [("workers", .keyed "Worker"), ("equipments", .named "Equipment")]⟩
  else ⟨[], []⟩

/-- `Time` (time.py:7-24). -/
def timeVal (t : Int) : Val := .obj "Time" [("value", .int t)]

/-- `Optional[str]`. -/
def optStr : Option String → Val
  | none => .null
  | some s => .str s

/-- `WorkerReq` (requirements.py:32-48). -/
structure WorkerReq where
  kind : String
  volume : Int
  minCount : Int
  maxCount : Int
  name : String

/-- The object. -/
def WorkerReq.val (r : WorkerReq) : Val :=
  .obj "WorkerReq" [("kind", .str r.kind), ("volume", timeVal r.volume), ("min_count", .int r.minCount), ("max_count", .int r.maxCount),
    ("name", .str r.name)]

/-- `MaterialReq`, `EquipmentReq`, `ConstructionObjectReq` (requirements.py:72-115) and `ZoneReq` (requirements.py:117-121): kind, a number
and an optional name. -/
structure CountReq where
  kind : String
  count : Int
  name : Option String

/-- The object. -/
def CountReq.val (cls field : String) (r : CountReq) : Val :=
  .obj cls [("kind", .str r.kind), (field, .int r.count), ("name", optStr r.name)]

/-- `WorkUnit` (works.py:11-75). -/
structure WorkUnit where
  modelName : List (String × String)
  id : String
  name : String
  workerReqs : List WorkerReq
  equipmentReqs : List CountReq
  objectReqs : List CountReq
  materialReqs : List CountReq
  zoneReqs : List CountReq
  description : String
  group : String
  isServiceUnit : Bool
  volume : ℚ
  displayName : String
  priority : Int

/-- A dictionary of strings. -/
def strDict (d : List (String × String)) : Val := .dict (d.map fun p => (p.1, .str p.2))

/-- The object. -/
def WorkUnit.val (u : WorkUnit) : Val :=
  .obj "WorkUnit" [("model_name", strDict u.modelName), ("id", .str u.id), ("name", .str u.name),
    ("worker_reqs", .list (u.workerReqs.map (·.val))), ("equipment_reqs", .list (u.equipmentReqs.map (·.val "EquipmentReq" "count"))),
    ("object_reqs", .list (u.objectReqs.map (·.val "ConstructionObjectReq" "count"))),
    ("material_reqs", .list (u.materialReqs.map (·.val "MaterialReq" "count"))), ("zone_reqs", .list (u.zoneReqs.map (·.val "ZoneReq" "required_status"))),
    ("description", .str u.description), ("group", .str u.group), ("is_service_unit", .bool u.isServiceUnit), ("volume", .float u.volume),
    ("display_name", .str u.displayName), ("priority", .int u.priority)]

/-- `Worker` (resources.py:51-68), `productivity` is any object; the cost may come from numpy. -/
structure Worker where
  id : String
  name : String
  count : Int
  contractorId : String
  productivity : Val
  costOneUnit : Val

/-- The object. -/
def Worker.val (w : Worker) : Val :=
  .obj "Worker" [("id", .str w.id), ("name", .str w.name), ("_count", .int w.count), ("contractor_id", .str w.contractorId),
    ("productivity", w.productivity), ("cost_one_unit", w.costOneUnit)]

/-- The worker as it is loaded: an object whose productivity is `None`. -/
def Worker.loaded (w : Worker) : Val :=
  .obj "Worker" [("productivity", .null), ("id", .str w.id), ("name", .str w.name), ("_count", .int w.count),
    ("contractor_id", .str w.contractorId), ("cost_one_unit", w.costOneUnit)]

/-- `ZoneTransition` (zones.py:57-66). -/
structure ZoneTransition where
  name : String
  fromStatus : Int
  toStatus : Int
  start : Int
  finish : Int

/-- The object. -/
def ZoneTransition.val (z : ZoneTransition) : Val :=
  .obj "ZoneTransition" [("name", .str z.name), ("from_status", .int z.fromStatus), ("to_status", .int z.toStatus),
    ("start_time", timeVal z.start), ("end_time", timeVal z.finish)]

/-- `ScheduledWork` (scheduled_work.py:14-61); `equipments`, `materials` and `object` are any values. -/
structure ScheduledWork where
  id : String
  modelName : List (String × String)
  displayName : String
  isServiceUnit : Bool
  volume : ℚ
  priority : Int
  start : Int
  finish : Int
  workers : List Worker
  equipments : Val
  zonesPre : List ZoneTransition
  zonesPost : List ZoneTransition
  materials : Val
  object : Val
  contractorId : String
  contractor : String
  cost : ℚ

/-- The object. -/
def ScheduledWork.val (s : ScheduledWork) : Val :=
  .obj "ScheduledWork" [("id", .str s.id), ("model_name", strDict s.modelName), ("display_name", .str s.displayName),
    ("is_service_unit", .bool s.isServiceUnit), ("volume", .float s.volume), ("priority", .int s.priority),
    ("start_end_time", .tuple [timeVal s.start, timeVal s.finish]), ("workers", .list (s.workers.map (·.val))), ("equipments", s.equipments),
    ("zones_pre", .list (s.zonesPre.map (·.val))), ("zones_post", .list (s.zonesPost.map (·.val))), ("materials", s.materials),
    ("object", s.object), ("contractor_id", .str s.contractorId), ("contractor", .str s.contractor), ("cost", .float s.cost)]

/-- `Equipment` (resources.py:20-35, 138-140). -/
structure Equipment where
  id : String
  name : String
  count : Int
  contractorId : String

/-- The object. -/
def Equipment.val (e : Equipment) : Val :=
  .obj "Equipment" [("id", .str e.id), ("name", .str e.name), ("_count", .int e.count), ("contractor_id", .str e.contractorId)]

/-- `Contractor` (contractor.py:18-32). -/
structure Contractor where
  id : String
  name : String
  workers : List (String × Worker)
  equipments : List (String × Equipment)

/-- The object. -/
def Contractor.val (c : Contractor) : Val :=
  .obj "Contractor" [("id", .str c.id), ("name", .str c.name), ("workers", .dict (c.workers.map fun p => (p.1, p.2.val))),
    ("equipments", .dict (c.equipments.map fun p => (p.1, p.2.val)))]

/-- `Schedule._serialize` (schedule.py:95-99) of the works in the order of the rows, and the text. -/
def dumpSchedule (works : List Val) : Option Val := ((serList classes works).map fun l => .dict [("works", .list l)]).bind text

/-- `Schedule._deserialize` (schedule.py:101-105), as far as the works in the order of the rows; without works the construction of the
table raises (schedule.py:20-21, 160). -/
def loadSchedule : Val → Option (List Val)
  | .dict [(k, .list l)] => if k = "works" ∧ l ≠ [] then deList classes "ScheduledWork" l else none
  | _ => none

/-- `pickle.loads(pickle.dumps(work unit))` and `deepcopy`: `__getstate__` and `__setstate__` (works.py:141-158), which sets twelve
attributes. -/
def pickled (v : Val) : Option Val :=
  ((dumpd classes v).bind (loadd classes "WorkUnit")).bind fun new =>
    (["worker_reqs", "equipment_reqs", "object_reqs", "material_reqs", "zone_reqs", "id", "model_name", "is_service_unit", "volume", "group",
      "display_name", "priority"].mapM fun k => (new.attr k).map fun x => (k, x)).map (.obj "WorkUnit")

end Sampo.Json
