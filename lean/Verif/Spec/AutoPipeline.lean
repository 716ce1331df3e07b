import Verif.Model.AutoPipeline
import Verif.Spec.Restructure
import Verif.Spec.Capacity
import Verif.Spec.Sched
import Verif.Props.C16_Teams

/-!
# Specification: what a schedule of a project with divided works has to do

A divided work is done in stages.  Nothing here refers to the edges between stages, to a scheduler or to an order.
-/

namespace Sampo.AutoPipeline
open Restructure

/-- A project for the pipeline: works in a topological order with edges that do not compete; no work is inseparable from another one; the
start comes before everything and the works after it wait for its finish; every other work waits for the start or the finish of some
work before it starts; requirements are sound, and priorities agree with the edges or all edges are dependencies. -/
structure SoundProject (p : Project) : Prop where
  wf : WellFormed p.graph p.works
  simple : Simple p.graph p.works
  separable : ∀ v ∈ p.works, ∀ e ∈ p.graph.edgesTo v, e.type ≠ .inseparable
  start_mem : p.start ∈ p.works
  start_first : p.graph.edgesTo p.start = []
  start_whole : ∀ e ∈ p.graph.edgesFrom p.start, e.type = .finishStart
  reached : ∀ v ∈ p.works, v ≠ p.start → ∃ e ∈ p.graph.edgesTo v, e.type ≠ .finishFinish
  reqs : ∀ v ∈ p.works, C16.SoundReqs (p.reqs v) ∧ ((p.reqs v).map (·.kind)).Nodup
  prios : (∀ v ∈ p.works, ∀ e ∈ p.graph.edgesTo v, p.prio e.start ≤ p.prio v) ∨
    ∀ v ∈ p.works, ∀ e ∈ p.graph.edgesTo v, e.type = .finishStart ∨ e.type = .lagFinishStart

/-- The work begins at time `t`: a stage of it starts then, none starts earlier. -/
def Begins (P : Prepared) (s : Sched) (v : Nat) (t : Int) : Prop :=
  (∃ i x, P.workOf i = some v ∧ s.get i = some x ∧ x.start = t) ∧ ∀ i x, P.workOf i = some v → s.get i = some x → t ≤ x.start

/-- The work ends at time `t`: a stage of it finishes then, none finishes later. -/
def Ends (P : Prepared) (s : Sched) (v : Nat) (t : Int) : Prop :=
  (∃ i x, P.workOf i = some v ∧ s.get i = some x ∧ x.finish = t) ∧ ∀ i x, P.workOf i = some v → s.get i = some x → x.finish ≤ t

/-- What an edge demands of the times `[su, fu]` of its first work and `[sv, fv]` of its second work. -/
def Demands (e : OEdge) (su fu sv fv : Int) : Prop :=
  match e.type with
  | .finishStart => (fu : ℚ) + e.lag ≤ sv
  | .inseparable => fu ≤ sv
  | .startStart => su ≤ sv
  | .finishFinish => fu ≤ fv
  | .lagFinishStart => su ≤ sv ∧ fu ≤ fv

/-- A schedule that does the project with the contractors `cs`. -/
structure Executes (p : Project) (cs : List Contractor) (P : Prepared) (s : Sched) : Prop where
  /-- each work has stages, all are scheduled once, with one team of one contractor that meets the requirements -/
  works : ∀ v ∈ p.works, ∃ c ∈ cs, ∃ team, C16.Meets c (p.reqs v) team ∧ (∃ i, P.workOf i = some v) ∧
    ∀ i, P.workOf i = some v → ∃ x, s.get i = some x ∧ x.start ≤ x.finish ∧ x.contractor = c.id ∧ x.team = team
  /-- stages of a work are done one after another, in the order of their numbers -/
  stages : ∀ i j v x y, i < j → P.workOf i = some v → P.workOf j = some v → s.get i = some x → s.get j = some y →
    x.finish ≤ y.start
  /-- nothing else is scheduled -/
  only : s.works.Nodup ∧ ∀ i x, s.get i = some x → ∃ v ∈ p.works, P.workOf i = some v
  /-- all edges of the project are respected -/
  edges : ∀ v ∈ p.works, ∀ e ∈ p.graph.edgesTo v, ∃ su fu sv fv, Begins P s e.start su ∧ Ends P s e.start fu ∧
    Begins P s v sv ∧ Ends P s v fv ∧ Demands e su fu sv fv
  /-- at no moment are more workers busy than their contractor has -/
  capacity : ∀ c ∈ cs, ∀ kind n, c.workers.lookup kind = some n → 0 ≤ n → ∀ t, busy s.placements (c.id, kind) t ≤ n

end Sampo.AutoPipeline
