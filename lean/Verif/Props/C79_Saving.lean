import Verif.Model.Records
import Mathlib.Data.List.Forall2

/-!
# C79: saving and loading of works, contractors and schedules
-/

namespace Sampo.C79

open Json

/-- The text of an object is read back as that object: what `loads(dumps(v))` gives for class `c`. -/
def reload (c : String) (v : Val) : Option Val := (dumps classes v).bind (loadd classes c)

/-! ### Lists of objects -/

private theorem serList_map {α : Type} (f : α → Val) (g : α → List (String × Val) × List (String × Val)) :
    ∀ (l : List α), (∀ x ∈ l, ∃ c fs, f x = .obj c fs ∧ serFields classes (classes c) fs = some (g x)) →
      serList classes (l.map f) = some (l.map fun x => pack (g x))
  | [], _ => by simp [serList]
  | x :: l, h => by
    obtain ⟨c, fs, e1, e2⟩ := h x List.mem_cons_self
    rw [List.map_cons, e1, serList, e2, serList_map f g l fun y hy => h y (List.mem_cons_of_mem _ hy)]
    rfl

private theorem serPairs_map {α : Type} (f : α → Val) (g : α → List (String × Val) × List (String × Val)) :
    ∀ (l : List (String × α)), (∀ x ∈ l, ∃ c fs, f x.2 = .obj c fs ∧ serFields classes (classes c) fs = some (g x.2)) →
      serPairs classes (l.map fun x => (x.1, f x.2)) = some (l.map fun x => (x.1, pack (g x.2)))
  | [], _ => by simp [serPairs]
  | x :: l, h => by
    obtain ⟨c, fs, e1, e2⟩ := h x List.mem_cons_self
    rw [List.map_cons, e1, serPairs, e2, serPairs_map f g l fun y hy => h y (List.mem_cons_of_mem _ hy)]
    rfl

private theorem texts_map {α : Type} (f g : α → Val) : ∀ (l : List α), (∀ x ∈ l, text (f x) = some (g x)) →
    texts (l.map f) = some (l.map g)
  | [], _ => by simp [texts]
  | x :: l, h => by
    rw [List.map_cons, texts, h x List.mem_cons_self, texts_map f g l fun y hy => h y (List.mem_cons_of_mem _ hy)]
    rfl

private theorem textPairs_map {α : Type} (f g : α → Val) : ∀ (l : List (String × α)), (∀ x ∈ l, text (f x.2) = some (g x.2)) →
    textPairs (l.map fun x => (x.1, f x.2)) = some (l.map fun x => (x.1, g x.2))
  | [], _ => by simp [textPairs]
  | x :: l, h => by
    rw [List.map_cons, textPairs, h x List.mem_cons_self, textPairs_map f g l fun y hy => h y (List.mem_cons_of_mem _ hy)]
    rfl

private theorem deList_map {α : Type} (c : String) (f g : α → Val) : ∀ (l : List α), (∀ x ∈ l, ∃ d, f x = .dict d ∧
      (deFields classes (classes c) (hintsOf d) d).map (unpack c (classes c)) = some (g x)) →
      deList classes c (l.map f) = some (l.map g)
  | [], _ => by simp [deList]
  | x :: l, h => by
    obtain ⟨d, e1, e2⟩ := h x List.mem_cons_self
    obtain ⟨fs, e3, e4⟩ := Option.map_eq_some_iff.mp e2
    rw [List.map_cons, e1, deList, e3, deList_map c f g l fun y hy => h y (List.mem_cons_of_mem _ hy)]
    simp [e4]

private theorem dePairs_map {α : Type} (c : String) (f g : α → Val) : ∀ (l : List (String × α)), (∀ x ∈ l, ∃ d, f x.2 = .dict d ∧
      (deFields classes (classes c) (hintsOf d) d).map (unpack c (classes c)) = some (g x.2)) →
      dePairs classes c (l.map fun x => (x.1, f x.2)) = some (l.map fun x => (x.1, g x.2))
  | [], _ => by simp [dePairs]
  | x :: l, h => by
    obtain ⟨d, e1, e2⟩ := h x List.mem_cons_self
    obtain ⟨fs, e3, e4⟩ := Option.map_eq_some_iff.mp e2
    rw [List.map_cons, e1, dePairs, e3, dePairs_map c f g l fun y hy => h y (List.mem_cons_of_mem _ hy)]
    simp [e4]

private theorem deEntries_map {α : Type} (c : String) (f g : α → Val) : ∀ (l : List (String × α)), (∀ x ∈ l, ∃ d, f x.2 = .dict d ∧
      (deFields classes (classes c) (hintsOf d) d).map (unpack c (classes c)) = some (g x.2)) →
      deEntries classes c (l.map fun x => .dict [("key", .str x.1), ("val", f x.2)]) = some (l.map fun x => (x.1, g x.2))
  | [], _ => by simp [deEntries]
  | x :: l, h => by
    obtain ⟨d, e1, e2⟩ := h x List.mem_cons_self
    obtain ⟨fs, e3, e4⟩ := Option.map_eq_some_iff.mp e2
    rw [List.map_cons, e1, deEntries, e3, deEntries_map c f g l fun y hy => h y (List.mem_cons_of_mem _ hy)]
    simp [e4]

/-- What is written about an object: it is read as `w`, and the text does not change it. -/
private structure Codes (v : Val) (c : String) (p : List (String × Val) × List (String × Val)) (w : Val) : Prop where
  ser : ∃ fs, v = .obj c fs ∧ serFields classes (classes c) fs = some p
  txt : text (pack p) = some (pack p)
  de : (deFields classes (classes c) (hintsOf ((hintsKey, .dict p.1) :: p.2)) ((hintsKey, .dict p.1) :: p.2)).map (unpack c (classes c)) = some w

private theorem codes_list {α : Type} {c : String} (f w : α → Val) (p : α → List (String × Val) × List (String × Val))
    (h : ∀ x, Codes (f x) c (p x) (w x)) (l : List α) :
    serList classes (l.map f) = some (l.map fun x => pack (p x)) ∧ texts (l.map fun x => pack (p x)) = some (l.map fun x => pack (p x)) ∧
      deList classes c (l.map fun x => pack (p x)) = some (l.map w) :=
  ⟨serList_map f p l fun x _ => ⟨c, (h x).ser⟩, texts_map _ _ l fun x _ => (h x).txt, deList_map c _ _ l fun x _ => ⟨_, rfl, (h x).de⟩⟩

private theorem text_strDict (d : List (String × String)) :
    textPairs (d.map fun p => (p.1, Val.str p.2)) = some (d.map fun p => (p.1, Val.str p.2)) :=
  textPairs_map Val.str Val.str d fun x _ => by simp [text]

private theorem codes_req (r : WorkerReq) : Codes r.val "WorkerReq"
    ([("volume", .str "Time")], [("kind", .str r.kind), ("volume", .dict [(hintsKey, .dict []), ("value", .int r.volume)]),
      ("min_count", .int r.minCount), ("max_count", .int r.maxCount), ("name", .str r.name)]) r.val where
  ser := ⟨_, rfl, by simp [serFields, serField, timeVal, pack, classes, hintsKey]⟩
  txt := by simp [pack, text, textPairs, hintsKey]
  de := by simp [deFields, deField, unpack, classes, hintsKey, hintsOf, WorkerReq.val, timeVal, List.lookup]

private theorem codes_count (c k : String) (hk : k ≠ hintsKey ∧ k ≠ "name" ∧ k ≠ "kind") (hc : classes c = ⟨[], []⟩) (r : CountReq) :
    Codes (r.val c k) c ([], [("kind", .str r.kind), (k, .int r.count), ("name", optStr r.name)]) (r.val c k) where
  ser := ⟨_, rfl, by cases h : r.name <;> simp [serFields, serField, hc, optStr]⟩
  txt := by cases h : r.name <;> simp [pack, text, textPairs, hintsKey, optStr]
  de := by
    cases h : r.name <;>
    simp [deFields, deField, unpack, hc, hintsKey, hintsOf, CountReq.val, List.lookup, optStr, h]
    all_goals simpa [hintsKey] using hk.1

private def unitCode (u : WorkUnit) : List (String × Val) × List (String × Val) :=
  ([], [("model_name", strDict u.modelName), ("id", .str u.id), ("name", .str u.name),
    ("worker_reqs", .list (u.workerReqs.map fun r => pack ([("volume", .str "Time")], [("kind", .str r.kind),
      ("volume", .dict [(hintsKey, .dict []), ("value", .int r.volume)]), ("min_count", .int r.minCount), ("max_count", .int r.maxCount),
      ("name", .str r.name)]))),
    ("equipment_reqs", .list (u.equipmentReqs.map (·.val "EquipmentReq" "count"))),
    ("object_reqs", .list (u.objectReqs.map (·.val "ConstructionObjectReq" "count"))),
    ("material_reqs", .list (u.materialReqs.map fun r => pack ([], [("kind", .str r.kind), ("count", .int r.count), ("name", optStr r.name)]))),
    ("zone_reqs", .list (u.zoneReqs.map fun r => pack ([], [("kind", .str r.kind), ("required_status", .int r.count), ("name", optStr r.name)]))),
    ("description", .str u.description), ("group", .str u.group), ("is_service_unit", .bool u.isServiceUnit), ("volume", .float u.volume),
    ("display_name", .str u.displayName), ("priority", .int u.priority)])

private theorem unit_dumpd (u : WorkUnit) : dumpd classes u.val = some (pack (unitCode u)) := by
  have h1 := (codes_list (·.val) (·.val) _ codes_req u.workerReqs).1
  have h2 := (codes_list _ _ _ (codes_count "MaterialReq" "count" (by decide) (by simp [classes])) u.materialReqs).1
  have h3 := (codes_list _ _ _ (codes_count "ZoneReq" "required_status" (by decide) (by simp [classes])) u.zoneReqs).1
  simp [dumpd, WorkUnit.val, serFields, serField, serCustom, classes, List.lookup, strDict, unitCode, h1, h2, h3]

private theorem unit_loadd (u : WorkUnit) : loadd classes "WorkUnit" (pack (unitCode u)) = some u.val := by
  have h1 := (codes_list (·.val) (·.val) _ codes_req u.workerReqs).2.2
  have h2 := (codes_list _ _ _ (codes_count "MaterialReq" "count" (by decide) (by simp [classes])) u.materialReqs).2.2
  have h3 := (codes_list _ _ _ (codes_count "ZoneReq" "required_status" (by decide) (by simp [classes])) u.zoneReqs).2.2
  simp [loadd, pack, WorkUnit.val, deFields, deField, deCustom, classes, List.lookup, strDict, unitCode, hintsKey, hintsOf] at h1 h2 h3 ⊢
  simp [h1, h2, h3, unpack]

/-- A work written to a dictionary and read back is the same. -/
theorem work_dictionary (u : WorkUnit) : (dumpd classes u.val).bind (loadd classes "WorkUnit") = some u.val := by
  rw [unit_dumpd, Option.bind_some, unit_loadd]

/-- The entries of the dictionary of a work. -/
theorem work_keys (u : WorkUnit) : ∃ d, dumpd classes u.val = some (.dict d) ∧
    d.map (·.1) = [hintsKey, "model_name", "id", "name", "worker_reqs", "equipment_reqs", "object_reqs", "material_reqs", "zone_reqs",
      "description", "group", "is_service_unit", "volume", "display_name", "priority"] :=
  ⟨_, unit_dumpd u, rfl⟩

/-- A work without requirements for equipment and objects written as text and read back is the same. -/
theorem work_text_partial (u : WorkUnit) (h1 : u.equipmentReqs = []) (h2 : u.objectReqs = []) : reload "WorkUnit" u.val = some u.val := by
  have t1 := (codes_list (·.val) (·.val) _ codes_req u.workerReqs).2.1
  have t2 := (codes_list _ _ _ (codes_count "MaterialReq" "count" (by decide) (by simp [classes])) u.materialReqs).2.1
  have t3 := (codes_list _ _ _ (codes_count "ZoneReq" "required_status" (by decide) (by simp [classes])) u.zoneReqs).2.1
  have : text (pack (unitCode u)) = some (pack (unitCode u)) := by
    simp [pack, unitCode, text, textPairs, strDict, text_strDict, h1, h2, texts] at t1 t2 t3 ⊢
    simp [t1, t2, t3]
  unfold reload dumps
  rw [unit_dumpd, Option.bind_some, this, Option.bind_some, unit_loadd]

/-- Not proved because false: "every work can be written as text".  A work that needs equipment or objects cannot. -/
theorem work_text_raises (u : WorkUnit) (h : u.equipmentReqs ≠ [] ∨ u.objectReqs ≠ []) : dumps classes u.val = none := by
  have t0 : text (pack (unitCode u)) = none := by
    rcases h with h | h
    · obtain ⟨r, l, e⟩ := List.exists_cons_of_ne_nil h
      simp [pack, unitCode, text, textPairs, strDict, text_strDict, e, texts, CountReq.val]
    · obtain ⟨r, l, e⟩ := List.exists_cons_of_ne_nil h
      simp [pack, unitCode, text, textPairs, strDict, text_strDict, e, texts, CountReq.val]
  unfold dumps
  rw [unit_dumpd, Option.bind_some, t0]

/-- A pickled (or deep copied) work has all its data but its name and its description, which are missing. -/
theorem work_pickled (u : WorkUnit) : ∃ v, pickled u.val = some v ∧ v.attr "name" = none ∧ v.attr "description" = none ∧
    ∀ k, k ≠ "name" → k ≠ "description" → v.attr k = u.val.attr k := by
  refine ⟨_, by simp only [pickled, work_dictionary, Option.bind_some]; simp [WorkUnit.val, Val.attr, List.lookup]; rfl, ?_, ?_, ?_⟩
  · simp [Val.attr, List.lookup]
  · simp [Val.attr, List.lookup]
  · intro k h1 h2
    simp only [WorkUnit.val, Val.attr]
    by_cases hk : k ∈ ["worker_reqs", "equipment_reqs", "object_reqs", "material_reqs", "zone_reqs", "id", "model_name", "is_service_unit",
      "volume", "group", "display_name", "priority"]
    · simp only [List.mem_cons, List.not_mem_nil, or_false] at hk
      rcases hk with rfl | rfl | rfl | rfl | rfl | rfl | rfl | rfl | rfl | rfl | rfl | rfl <;> simp [List.lookup]
    · simp only [List.mem_cons, List.not_mem_nil, or_false, not_or] at hk
      obtain ⟨a1, a2, a3, a4, a5, a6, a7, a8, a9, a10, a11, a12⟩ := hk
      simp [List.lookup, beq_false_of_ne, h1, h2, a1, a2, a3, a4, a5, a6, a7, a8, a9, a10, a11, a12]

/-! ### Workers, scheduled works, schedules -/

/-- A plain number, as the cost of a worker is unless it comes from numpy. -/
def Number (v : Val) : Prop := (∃ i, v = .int i) ∨ ∃ q, v = .float q

private theorem codes_worker (w : Worker) (hw : Number w.costOneUnit) : Codes w.val "Worker"
    ([], [("id", .str w.id), ("name", .str w.name), ("_count", .int w.count), ("contractor_id", .str w.contractorId),
      ("cost_one_unit", w.costOneUnit)]) w.loaded where
  ser := ⟨_, rfl, by rcases hw with ⟨i, h⟩ | ⟨q, h⟩ <;> simp [serFields, serField, classes, h]⟩
  txt := by rcases hw with ⟨i, h⟩ | ⟨q, h⟩ <;> simp [pack, text, textPairs, hintsKey, h]
  de := by rcases hw with ⟨i, h⟩ | ⟨q, h⟩ <;> simp [deFields, deField, unpack, classes, hintsKey, hintsOf, Worker.loaded, List.lookup, h]

private theorem codes_transition (z : ZoneTransition) : Codes z.val "ZoneTransition"
    ([("start_time", .str "Time"), ("end_time", .str "Time")], [("name", .str z.name), ("from_status", .int z.fromStatus),
      ("to_status", .int z.toStatus), ("start_time", .dict [(hintsKey, .dict []), ("value", .int z.start)]),
      ("end_time", .dict [(hintsKey, .dict []), ("value", .int z.finish)])]) z.val where
  ser := ⟨_, rfl, by simp [serFields, serField, timeVal, pack, classes, hintsKey]⟩
  txt := by simp [pack, text, textPairs, hintsKey]
  de := by simp [deFields, deField, unpack, classes, hintsKey, hintsOf, ZoneTransition.val, timeVal, List.lookup]

private theorem codes_equipment (e : Equipment) : Codes e.val "Equipment"
    ([], [("id", .str e.id), ("name", .str e.name), ("_count", .int e.count), ("contractor_id", .str e.contractorId)]) e.val where
  ser := ⟨_, rfl, by simp [serFields, serField, classes]⟩
  txt := by simp [pack, text, textPairs, hintsKey]
  de := by simp [deFields, deField, unpack, classes, hintsKey, hintsOf, Equipment.val, List.lookup]

private theorem serList_of {α : Type} {c : String} (f w : α → Val) (p : α → List (String × Val) × List (String × Val))
    (l : List α) (h : ∀ x ∈ l, Codes (f x) c (p x) (w x)) :
    serList classes (l.map f) = some (l.map fun x => pack (p x)) ∧ texts (l.map fun x => pack (p x)) = some (l.map fun x => pack (p x)) ∧
      deList classes c (l.map fun x => pack (p x)) = some (l.map w) :=
  ⟨serList_map f p l fun x hx => ⟨c, (h x hx).ser⟩, texts_map _ _ l fun x hx => (h x hx).txt, deList_map c _ _ l fun x hx => ⟨_, rfl, (h x hx).de⟩⟩

private def schedCode (s : ScheduledWork) : List (String × Val) × List (String × Val) :=
  ([], [("id", .str s.id), ("model_name", strDict s.modelName), ("display_name", .str s.displayName),
    ("is_service_unit", .bool s.isServiceUnit), ("volume", .float s.volume), ("priority", .int s.priority),
    ("start_end_time", .list [.dict [(hintsKey, .dict []), ("value", .int s.start)], .dict [(hintsKey, .dict []), ("value", .int s.finish)]]),
    ("workers", .list (s.workers.map fun w => pack ([], [("id", .str w.id), ("name", .str w.name), ("_count", .int w.count),
      ("contractor_id", .str w.contractorId), ("cost_one_unit", w.costOneUnit)]))),
    ("zones_pre", .list (s.zonesPre.map fun z => pack ([("start_time", .str "Time"), ("end_time", .str "Time")], [("name", .str z.name), ("from_status", .int z.fromStatus),
      ("to_status", .int z.toStatus), ("start_time", .dict [(hintsKey, .dict []), ("value", .int z.start)]),
      ("end_time", .dict [(hintsKey, .dict []), ("value", .int z.finish)])]))),
    ("zones_post", .list (s.zonesPost.map fun z => pack ([("start_time", .str "Time"), ("end_time", .str "Time")], [("name", .str z.name), ("from_status", .int z.fromStatus),
      ("to_status", .int z.toStatus), ("start_time", .dict [(hintsKey, .dict []), ("value", .int z.start)]),
      ("end_time", .dict [(hintsKey, .dict []), ("value", .int z.finish)])]))),
    ("contractor_id", .str s.contractorId), ("contractor", .str s.contractor), ("cost", .float s.cost)])

private def schedLoaded (s : ScheduledWork) : Val :=
  .obj "ScheduledWork" [("equipments", .null), ("materials", .null), ("object", .null), ("work_unit", .null), ("id", .str s.id), ("model_name", strDict s.modelName), ("display_name", .str s.displayName),
    ("is_service_unit", .bool s.isServiceUnit), ("volume", .float s.volume), ("priority", .int s.priority),
    ("start_end_time", .tuple [timeVal s.start, timeVal s.finish]), ("workers", .list (s.workers.map (·.loaded))),
    ("zones_pre", .list (s.zonesPre.map (·.val))), ("zones_post", .list (s.zonesPost.map (·.val))),
    ("contractor_id", .str s.contractorId), ("contractor", .str s.contractor), ("cost", .float s.cost)]

private theorem codes_sched (s : ScheduledWork) (hw : ∀ w ∈ s.workers, Number w.costOneUnit) :
    Codes s.val "ScheduledWork" (schedCode s) (schedLoaded s) := by
  have a := serList_of (·.val) (·.loaded) _ s.workers fun w h => codes_worker w (hw w h)
  have b := codes_list (·.val) (·.val) _ codes_transition s.zonesPre
  have c := codes_list (·.val) (·.val) _ codes_transition s.zonesPost
  refine ⟨⟨_, rfl, ?_⟩, ?_, ?_⟩
  · simp [serFields, serField, serCustom, classes, List.lookup, strDict, schedCode, a.1, b.1, c.1, serList, timeVal, pack]
  · have a' := a.2.1
    have b' := b.2.1
    have c' := c.2.1
    simp [pack, schedCode, text, textPairs, strDict, text_strDict, texts] at a' b' c' ⊢
    simp [a', b', c']
  · have a' := a.2.2
    have b' := b.2.2
    have c' := c.2.2
    simp [pack, schedLoaded, deFields, deField, deCustom, deList, classes, List.lookup, strDict, schedCode, hintsKey, hintsOf, timeVal] at a' b' c' ⊢
    simp [a', b', c', unpack]

/-- What a loaded work of a schedule has: its data are those of the saved work; equipment, materials, object and work unit are `None`; its
workers are those of the saved work without productivity. -/
structure Restored (s : ScheduledWork) (v : Val) : Prop where
  data : ∀ k ∈ ["id", "model_name", "display_name", "is_service_unit", "volume", "priority", "start_end_time", "zones_pre", "zones_post",
    "contractor_id", "contractor", "cost"], v.attr k = s.val.attr k
  lost : ∀ k ∈ ["equipments", "materials", "object", "work_unit"], v.attr k = some .null
  workers : v.attr "workers" = some (.list (s.workers.map (·.loaded)))

private theorem restored (s : ScheduledWork) : Restored s (schedLoaded s) where
  data := by
    intro k hk
    simp only [List.mem_cons, List.not_mem_nil, or_false] at hk
    rcases hk with rfl | rfl | rfl | rfl | rfl | rfl | rfl | rfl | rfl | rfl | rfl | rfl <;>
      simp [Val.attr, schedLoaded, ScheduledWork.val, List.lookup]
  lost := by
    intro k hk
    simp only [List.mem_cons, List.not_mem_nil, or_false] at hk
    rcases hk with rfl | rfl | rfl | rfl <;> simp [Val.attr, schedLoaded, List.lookup]
  workers := by simp [Val.attr, schedLoaded, List.lookup]

private theorem reload_of {v : Val} {c : String} {p : List (String × Val) × List (String × Val)} {w : Val} (h : Codes v c p w) :
    reload c v = some w := by
  obtain ⟨⟨fs, e1, e2⟩, h2, h3⟩ := h
  simp only [reload, dumps, e1, dumpd, e2, Option.map_some, Option.bind_some, h2]
  simpa [pack, loadd] using h3

/-- A worker written as text and read back has its identity, name, number, contractor and cost; its productivity is `None`. -/
theorem worker_text_partial (w : Worker) (hw : Number w.costOneUnit) : reload "Worker" w.val = some w.loaded := reload_of (codes_worker w hw)

/-- Not proved because false: "a worker can be written as text".  One whose cost is a `numpy.float64` cannot. -/
theorem worker_numpy_raises (w : Worker) (q : ℚ) (hw : w.costOneUnit = .npFloat q) : dumps classes w.val = none := by
  simp [dumps, dumpd, Worker.val, serFields, serField, classes, hw]

/-- A cost that is a numpy integer is a numpy integer again. -/
theorem worker_numpy_integer (w : Worker) (wide : Bool) (i : Int) (hw : w.costOneUnit = .np wide i) :
    reload "Worker" w.val = some w.loaded := by
  cases wide <;>
  simp [reload, dumps, dumpd, Worker.val, serFields, serField, classes, hw, pack, text, textPairs, hintsKey, loadd, hintsOf, List.lookup, deFields,
    deField, npName, unpack, Worker.loaded]

/-- A scheduled work written as text and read back. -/
theorem scheduled_work_text_partial (s : ScheduledWork) (hw : ∀ w ∈ s.workers, Number w.costOneUnit) :
    ∃ v, reload "ScheduledWork" s.val = some v ∧ Restored s v :=
  ⟨_, reload_of (codes_sched s hw), restored s⟩

private theorem schedule_dump (l : List ScheduledWork) (hw : ∀ s ∈ l, ∀ w ∈ s.workers, Number w.costOneUnit) :
    dumpSchedule (l.map (·.val)) = some (.dict [("works", .list (l.map fun s => pack (schedCode s)))]) := by
  have a := serList_of (·.val) schedLoaded schedCode l fun s hs => codes_sched s (hw s hs)
  simp [dumpSchedule, a.1, text, textPairs, a.2.1]

/-- A schedule with works, written as text and read back, has the same works in the same order, as above. -/
theorem schedule_text_partial (l : List ScheduledWork) (hl : l ≠ []) (hw : ∀ s ∈ l, ∀ w ∈ s.workers, Number w.costOneUnit) :
    ∃ out, (dumpSchedule (l.map (·.val))).bind loadSchedule = some out ∧ List.Forall₂ Restored l out := by
  have a := serList_of (·.val) schedLoaded schedCode l fun s hs => codes_sched s (hw s hs)
  refine ⟨l.map schedLoaded, ?_, ?_⟩
  · rw [schedule_dump l hw, Option.bind_some, loadSchedule, if_pos ⟨rfl, by simpa using hl⟩, a.2.2]
  · rw [List.forall₂_map_right_iff]
    exact List.forall₂_same.mpr fun s _ => restored s

/-- The text of a loaded schedule is the text it was loaded from. -/
theorem schedule_again (l : List ScheduledWork) (hl : l ≠ []) (hw : ∀ s ∈ l, ∀ w ∈ s.workers, Number w.costOneUnit) :
    ∃ out, (dumpSchedule (l.map (·.val))).bind loadSchedule = some out ∧ dumpSchedule out = dumpSchedule (l.map (·.val)) := by
  have a := serList_of (·.val) schedLoaded schedCode l fun s hs => codes_sched s (hw s hs)
  refine ⟨l.map schedLoaded, ?_, ?_⟩
  · rw [schedule_dump l hw, Option.bind_some, loadSchedule, if_pos ⟨rfl, by simpa using hl⟩, a.2.2]
  · have h : serList classes (l.map schedLoaded) = some (l.map fun s => pack (schedCode s)) := by
      refine serList_map schedLoaded schedCode l fun s hs => ⟨"ScheduledWork", _, rfl, ?_⟩
      have b := serList_map (·.loaded) (fun w : Worker => (([], [("id", .str w.id), ("name", .str w.name), ("_count", .int w.count),
        ("contractor_id", .str w.contractorId), ("cost_one_unit", w.costOneUnit)]) : List (String × Val) × List (String × Val))) s.workers
        fun w h => ⟨"Worker", _, rfl, by
          rcases hw s hs w h with ⟨i, e⟩ | ⟨q, e⟩ <;> simp [serFields, serField, classes, e]⟩
      have c := (codes_list (·.val) (·.val) _ codes_transition s.zonesPre).1
      have d := (codes_list (·.val) (·.val) _ codes_transition s.zonesPost).1
      simp [serFields, serField, serCustom, classes, List.lookup, strDict, schedCode, b, c, d, serList, timeVal, pack]
    rw [schedule_dump l hw]
    simp [dumpSchedule, h, text, textPairs, a.2.1]

/-- Not proved because false: "every schedule can be saved and loaded".  One without works cannot be loaded. -/
theorem empty_schedule_raises : (dumpSchedule []).isSome ∧ (dumpSchedule []).bind loadSchedule = none := by
  simp [dumpSchedule, serList, text, textPairs, texts, loadSchedule]

/-- A contractor written as text and read back has the same workers, without productivity, and the same equipment under the same names. -/
theorem contractor_text_partial (c : Contractor) (hw : ∀ p ∈ c.workers, Number p.2.costOneUnit) : ∃ v, reload "Contractor" c.val = some v ∧
    v.attr "id" = some (.str c.id) ∧ v.attr "name" = some (.str c.name) ∧
    v.attr "workers" = some (.dict (c.workers.map fun p => (p.1, p.2.loaded))) ∧
    v.attr "equipments" = some (.dict (c.equipments.map fun p => (p.1, p.2.val))) := by
  let f : Worker → List (String × Val) × List (String × Val) := fun w => ([], [("id", .str w.id), ("name", .str w.name), ("_count", .int w.count),
    ("contractor_id", .str w.contractorId), ("cost_one_unit", w.costOneUnit)])
  let g : Equipment → List (String × Val) × List (String × Val) := fun e => ([], [("id", .str e.id), ("name", .str e.name),
    ("_count", .int e.count), ("contractor_id", .str e.contractorId)])
  have a := serPairs_map (·.val) f c.workers fun p hp => ⟨"Worker", (codes_worker p.2 (hw p hp)).ser⟩
  have b := serPairs_map (·.val) g c.equipments fun p _ => ⟨"Equipment", (codes_equipment p.2).ser⟩
  have a1 := deEntries_map "Worker" (fun w => pack (f w)) (·.loaded) c.workers fun p hp => ⟨_, rfl, (codes_worker p.2 (hw p hp)).de⟩
  have b1 := dePairs_map "Equipment" (fun e => pack (g e)) (·.val) c.equipments fun p _ => ⟨_, rfl, (codes_equipment p.2).de⟩
  have a2 := texts_map (fun p : String × Worker => Val.dict [("key", .str p.1), ("val", pack (f p.2))]) (fun p => Val.dict [("key", .str p.1), ("val", pack (f p.2))]) c.workers fun p hp => by
      have : text (pack (f p.2)) = some (pack (f p.2)) := (codes_worker p.2 (hw p hp)).txt
      simp [text, textPairs, this]
  have b2 := textPairs_map (fun e => pack (g e)) (fun e => pack (g e)) c.equipments fun p _ => (codes_equipment p.2).txt
  refine ⟨.obj "Contractor" [("id", .str c.id), ("name", .str c.name), ("workers", .dict (c.workers.map fun p => (p.1, p.2.loaded))),
    ("equipments", .dict (c.equipments.map fun p => (p.1, p.2.val)))], ?_, ?_, ?_, ?_, ?_⟩
  · have e1 : dumpd classes c.val = some (pack ([], [("id", .str c.id), ("name", .str c.name),
        ("workers", .list (c.workers.map fun p => .dict [("key", .str p.1), ("val", pack (f p.2))])),
        ("equipments", .dict (c.equipments.map fun p => (p.1, pack (g p.2))))])) := by
      simp [dumpd, Contractor.val, serFields, serField, serCustom, classes, List.lookup, a, b, Function.comp_def]
    simp only [reload, dumps, e1, Option.bind_some]
    have e2 : ∀ x y, text (pack ([], [("id", .str c.id), ("name", .str c.name), ("workers", .list x), ("equipments", .dict y)])) =
        (texts x).bind fun x => (textPairs y).map fun y => pack ([], [("id", .str c.id), ("name", .str c.name), ("workers", .list x), ("equipments", .dict y)]) := by
      intro x y
      cases hx : texts x <;> cases hy : textPairs y <;> simp [pack, text, textPairs, hx, hy]
    rw [e2, a2, b2]
    simp [pack, loadd, deFields, deField, deCustom, classes, List.lookup, hintsKey, hintsOf] at a1 b1 ⊢
    simp [a1, b1, unpack]
  all_goals simp [Val.attr, List.lookup]

/-- Not proved because false: "a dictionary can be loaded twice".  Loading deletes the types from it: the requirements of workers of the
second work have dictionaries for times. -/
theorem dictionary_spent (u : WorkUnit) (h : u.workerReqs ≠ []) : ∃ j, dumpd classes u.val = some j ∧
    loadd classes "WorkUnit" j = some u.val ∧ loadd classes "WorkUnit" (spent j) ≠ some u.val := by
  refine ⟨_, unit_dumpd u, unit_loadd u, ?_⟩
  obtain ⟨r, l, e⟩ := List.exists_cons_of_ne_nil h
  intro hh
  simp [loadd, pack, WorkUnit.val, deFields, deField, deCustom, classes, List.lookup, strDict, unitCode, hintsKey, hintsOf, spent, spentPairs, spentList, e, deList, unpack] at hh
  rw [Option.bind_eq_some_iff] at hh
  obtain ⟨x, h1, h2⟩ := hh
  obtain ⟨y, _, h1⟩ := Option.map_eq_some_iff.mp h1
  obtain ⟨z, hz, h3⟩ := Option.map_eq_some_iff.mp h2
  subst h1
  obtain ⟨z2, hz2, hz⟩ := Option.map_eq_some_iff.mp hz
  obtain ⟨z3, hz3, e3⟩ := Option.map_eq_some_iff.mp hz2
  obtain ⟨z4, hz4, e4⟩ := Option.map_eq_some_iff.mp hz3
  obtain ⟨z5, _, hz5⟩ := Option.bind_eq_some_iff.mp hz4
  obtain ⟨z6, _, e6⟩ := Option.map_eq_some_iff.mp hz5
  rw [← hz, ← e3, ← e4, ← e6] at h3
  simp [unpack, WorkerReq.val, timeVal] at h3

/-! ### Cases -/

private def w0 : Worker := ⟨"w1", "driver", 3, "c1", .obj "IntervalGaussian" [("mean", .float 1)], .float 10⟩

private def u0 : WorkUnit := ⟨[("granular_name", "pit")], "u1", "pit", [⟨"driver", 40, 1, 4, ""⟩], [], [], [⟨"sand", 3, none⟩],
  [⟨"kitchen", 1, some "door"⟩], "", "site", false, 5 / 2, "pit", 1⟩

private def s0 : ScheduledWork := ⟨"u1", [("granular_name", "pit")], "pit", false, 5 / 2, 1, 3, 8, [w0], .list [], [⟨"kitchen", 0, 1, 2, 3⟩], [],
  .list [], .null, "c1", "builders", 150⟩

/-- Such workers, works and schedules exist. -/
example : Number w0.costOneUnit ∧ u0.equipmentReqs = [] ∧ u0.objectReqs = [] ∧ u0.workerReqs ≠ [] ∧ [s0] ≠ [] ∧
    ∀ s ∈ [s0], ∀ w ∈ s.workers, Number w.costOneUnit :=
  ⟨.inr ⟨_, rfl⟩, rfl, rfl, by simp [u0], by simp, by simp [s0, w0, Number]⟩

/-- The productivity of a worker is lost. -/
example : w0.loaded.attr "productivity" = some .null ∧ w0.val.attr "productivity" ≠ some .null := by
  simp [w0, Worker.loaded, Worker.val, Val.attr, List.lookup]

private theorem deFields_keys {T : String → Class} {C : Class} {hints : List (String × Val)} : ∀ {d fs : List (String × Val)},
    deFields T C hints d = some fs → ∀ e ∈ fs, e.1 ≠ hintsKey ∧ e.1 ∉ C.ignored ∧ e.1 ∈ d.map (·.1)
  | [], fs, h, e, he => by
    simp only [deFields, Option.some.injEq] at h
    rw [← h] at he
    cases he
  | (k, v) :: rest, fs, h, e, he => by
    rw [deFields] at h
    split at h
    · obtain ⟨h1, h2, h3⟩ := deFields_keys h e he
      exact ⟨h1, h2, List.mem_cons_of_mem _ h3⟩
    · rename_i hk
      have key : ∀ x, (deFields T C hints rest).map ((k, x) :: ·) = some fs → e.1 ≠ hintsKey ∧ e.1 ∉ C.ignored ∧
          e.1 ∈ ((k, v) :: rest).map (·.1) := by
        intro x hx
        obtain ⟨gs, hg, rfl⟩ := Option.map_eq_some_iff.mp hx
        rcases List.mem_cons.mp he with rfl | he
        · exact ⟨fun h => hk (.inl h), fun h => hk (.inr h), List.mem_cons_self⟩
        · obtain ⟨h1, h2, h3⟩ := deFields_keys hg e he
          exact ⟨h1, h2, List.mem_cons_of_mem _ h3⟩
      split at h
      all_goals
        obtain ⟨x, -, h⟩ := Option.bind_eq_some_iff.mp h
        exact key x h

/-- Whatever dictionary is loaded: the fields that the class leaves out of its data are empty in the object, even if the dictionary has
entries for them, and every other field of the object is an entry of the dictionary that is not the hints. -/
theorem left_out_fields_are_empty {T : String → Class} {c : String} {d : List (String × Val)} {v : Val}
    (h : loadd T c (.dict d) = some v) : ∃ fs, v = .obj c fs ∧ (∀ k ∈ (T c).ignored, (k, .null) ∈ fs) ∧
      ∀ e ∈ fs, (e.1 ∈ (T c).ignored ∧ e.2 = .null) ∨ (e.1 ∉ (T c).ignored ∧ e.1 ≠ hintsKey ∧ e.1 ∈ d.map (·.1)) := by
  unfold loadd at h
  obtain ⟨fs, hf, rfl⟩ := Option.map_eq_some_iff.mp h
  refine ⟨_, rfl, fun k hk => List.mem_append_left _ (List.mem_map.mpr ⟨k, hk, rfl⟩), fun e he => ?_⟩
  rcases List.mem_append.mp he with he | he
  · obtain ⟨k, hk, rfl⟩ := List.mem_map.mp he
    exact .inl ⟨hk, rfl⟩
  · obtain ⟨h1, h2, h3⟩ := deFields_keys hf e he
    exact .inr ⟨h2, h1, h3⟩

/-- Such a dictionary: the data of a worker with an entry for the productivity. -/
example : ∃ v, loadd classes "Worker" (.dict [("name", .str "driver"), ("productivity", .int 7)]) = some v ∧
    v = .obj "Worker" [("productivity", .null), ("name", .str "driver")] :=
  ⟨_, by simp [loadd, deFields, deField, unpack, hintsKey, hintsOf, List.lookup, classes], rfl⟩

end Sampo.C79
