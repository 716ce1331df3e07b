import Verif.Model.DeadlineRun
import Verif.Spec.Generic
import Verif.Spec.Schedulers

/-! # Specification of the deadline-driven search -/

namespace Sampo.DeadlineRun

/-- All works are finished by time `d`. -/
def EndsBy (s : Sched) (d : Int) : Prop := ∀ e ∈ s, e.2.finish ≤ d

/-- All works are finished before time `d`. -/
def EndsBefore (s : Sched) (d : Int) : Prop := ∀ e ∈ s, e.2.finish < d

/-- A job that can be done: a work graph with dependencies only, sound contractors and requirements, and for each work a contractor that
owns enough workers of every required type. -/
structure SoundJob (J : Job) : Prop where
  graph : C22.WorkGraph J.graph J.nodes
  deps : C89.OnlyDependencies J.graph
  contractors : C16.SoundContractors J.contractors
  reqs : ∀ v, C16.SoundReqs (J.reqs v)
  kinds : ∀ v, ((J.reqs v).map (·.kind)).Nodup
  able : ∀ v, ∃ c ∈ J.contractors, Generic.Able c (J.reqs v)
  start : 0 ≤ J.parentTime

/-- Contractor `c` may do work `v` with this team: it owns the workers, and their counts are within the requirements of the work. -/
def Staffs (J : Job) (v : Nat) (team : List Worker) (c : Nat) : Prop :=
  ∃ k ∈ J.contractors, k.id = c ∧ C16.Meets k (J.reqs v) team

end Sampo.DeadlineRun
