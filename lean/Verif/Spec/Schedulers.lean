import Verif.Model.Scheduler
import Verif.Spec.Feasible
import Verif.Props.C14_ContractorSearch
import Verif.Props.C16_Teams
import Verif.Props.C22_HeadNodes

/-! Specification: orders of chain heads and teams of the list schedulers. -/

namespace Sampo.C89
open Scheduler

/-- All edges are dependencies; for start-start and finish-finish edges the schedulers promise nothing. -/
def OnlyDependencies (g : Graph) : Prop :=
  ∀ v, ∀ e ∈ g.edgesTo v, e.type = .finishStart ∨ e.type = .lagFinishStart ∨ e.type = .inseparable

/-- Priorities of chain heads agree with the dependencies between chains. -/
def PrioritiesAgree (prio : Nat → Int) (g : Graph) (nodes : List Nat) : Prop :=
  ∀ a b, g.HeadDependsOn nodes a b → prio b ≤ prio a

/-- An order of all chain heads in which every head comes after the heads its chain depends on. -/
def GoodOrder (g : Graph) (nodes order : List Nat) : Prop :=
  order.Nodup ∧ (∀ v, v ∈ order ↔ g.IsHead nodes v) ∧ OrderRespects (g.HeadDependsOn nodes) order

/-- A prioritization that gives only good orders of the given graph. -/
def GivesGoodOrders (rule : Rule) (g : Graph) (nodes : List Nat) : Prop :=
  ∀ order, orderWorks rule g nodes = some order → GoodOrder g nodes order

/-- An enabled contractor of the list does the work with a team that meets its requirements. -/
def Staffs (contractors : List Contractor) (spec : Nat → WorkSpec) (reqs : Nat → List WorkerReq) (v : Nat)
    (team : List Worker) (cid : Nat) : Prop :=
  ∃ c ∈ contractors, c.id = cid ∧ C14.Admissible (spec v) c ∧ C16.Meets c (reqs v) team

end Sampo.C89
