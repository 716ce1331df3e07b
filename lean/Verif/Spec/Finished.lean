import Verif.Model.Finished
import Verif.Spec.Feasible

/-! # Reading a schedule from its table -/

namespace Sampo.Finished
open ScheduleTable

/-- The table `t` shows the schedule `s` of the works `nodes` of the graph `g`. -/
structure Presents (I : Details) (g : Graph) (nodes : List Nat) (s : Sched) (t : Table) : Prop where
  /-- every work has one row -/
  once : (t.rows.map (·.id)).Perm nodes
  /-- the row has the name, the volume, the times, the contractor and the team of the work -/
  shows : ∀ r ∈ t.rows, ∃ x, s.get r.id = some x ∧ r.name = I.name r.id ∧ r.volume = I.volume r.id ∧ r.start = x.start ∧
    r.finish = x.finish ∧ r.duration = x.finish - x.start ∧ r.contractor = I.contractor x.contractor ∧
    ((x.team.map fun w => I.kind w.name).Nodup → r.workers = x.team.map fun w => (I.kind w.name, w.count))
  /-- rows are ordered by start -/
  byStart : t.rows.Pairwise fun a b => a.start ≤ b.start
  /-- no work is above a work it depends on -/
  inOrder : t.rows.Pairwise fun a b => ¬ g.DependsOn a.id b.id
  /-- the execution time is the latest finish -/
  lasts : ∃ m, executionTime t = some m ∧ (∀ v x, s.get v = some x → x.finish ≤ m) ∧ ∃ v x, s.get v = some x ∧ x.finish = m
  /-- every work is found by its identifier -/
  found : ∀ v ∈ nodes, ∃ w x, find t v = some w ∧ s.get v = some x ∧ w.id = v ∧ w.times = (x.start, x.finish)

end Sampo.Finished
