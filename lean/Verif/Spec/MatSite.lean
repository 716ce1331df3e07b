import Verif.Spec.Supply
import Verif.Spec.Sched
import Mathlib.Logic.Relation

/-!
# Specification vocabulary: materials in a schedule
-/

namespace Sampo
open Supply

/-- The deliveries `log` serve a schedule. -/
structure ServesSchedule (land : Land) (needs : Nat → List Mat) (log : List Served) (sched : Sched) : Prop where
  /-- one call of `deliver_resources` for every work -/
  works : log.map (·.work.id) = sched.works ∧ ∀ s ∈ log, s.work.needs = needs s.work.id
  /-- a work starts exactly when its materials are there; they have left a depot of its platform before -/
  arrive : ∀ v x, sched.get v = some x → ∃ s ∈ log, s.work.id = v ∧ s.deadline ≤ x.start ∧ s.time = x.start ∧
    ∀ r ∈ s.records, 0 ≤ r.start ∧ r.start < r.finish ∧ r.finish = x.start ∧
      ∃ d ∈ land.depotsFrom (land.platform v), r.depot = d.id
  /-- no depot gives more than it has -/
  stock : ∀ d ∈ land.depots, ∀ m ∈ d.stock, m.name ≠ vehicles → 0 ≤ m.count → taken log d.id m.name ≤ m.count
  /-- no road is overcrowded -/
  roads : ∀ i ∈ land.roads, 0 ≤ land.bandwidth i → ∀ t, onRoad log i t ≤ land.bandwidth i

/-- A landscape with roads of positive length and depots and materials with different names. -/
structure Supply.Clear (land : Land) : Prop where
  long : ∀ i, 0 < land.overcome i
  depots : (land.depots.map (·.id)).Nodup
  stock : ∀ d ∈ land.depots, (d.stock.map (·.name)).Nodup

/-- The works of each platform depend on each other, so that they are done one after another. -/
def OneByOne (land : Land) (nodes : List Nat) (depends : Nat → Nat → Prop) : Prop :=
  ∀ v ∈ nodes, ∀ w ∈ nodes, v ≠ w → land.platform v = land.platform w →
    Relation.TransGen depends v w ∨ Relation.TransGen depends w v

end Sampo
