import Verif.Model.Sched
import Verif.Spec.Capacity

/-!
# Specification vocabulary for schedules

A schedule is a list of (work, interval, team, contractor).  Nothing here refers to a timeline or to a scheduler.
-/

namespace Sampo

/-- Every work of the list comes after all its predecessors. -/
def TopoList (preds : Nat → List Nat) (l : List Nat) : Prop :=
  ∀ l₁ v l₂, l = l₁ ++ v :: l₂ → ∀ p ∈ preds v, p ∈ l₁

/-- Works of a schedule, with repetitions if a work is there more than once. -/
def Sched.works (sw : Sched) : List Nat := sw.map (·.1)

/-- Each scheduled work has all its predecessors scheduled and starts not before finish + lag of each of them. -/
def RespectsPrecedence (edges : Nat → List (Nat × Int)) (sw : Sched) : Prop :=
  ∀ v x, sw.get v = some x → ∀ e ∈ edges v, ∃ y, sw.get e.1 = some y ∧ y.finish + e.2 ≤ x.start

/-- The works of a list are done one after another by one contractor and one team. -/
def OneAfterAnother (sw : Sched) (l : List Nat) : Prop :=
  l.Pairwise fun u v => ∃ x y, sw.get u = some x ∧ sw.get v = some y ∧
    x.finish ≤ y.start ∧ x.team = y.team ∧ x.contractor = y.contractor

/-- The scheduled works as intervals in which teams are busy. -/
def Sched.placements (sw : Sched) : List Placement := sw.map fun e => ⟨e.2.team, e.2.start, e.2.finish, false⟩

/-- Durations fixed by the specification (with the lags before them) are not negative. -/
def NonNegTimes (ts : ExecTimes) : Prop := ∀ v l d, ts v = some (l, d) → 0 ≤ l ∧ 0 ≤ d

/-- Times stay within the range of `Time`: finish + lag of a scheduled work is never above infinity (`Time` saturates
there, C01). -/
def TimesInRange (edges : Nat → List (Nat × Int)) (inf : Int) (sw : Sched) : Prop :=
  ∀ x ∈ sw, ∀ v, ∀ e ∈ edges v, e.1 = x.1 → x.2.finish + e.2 ≤ inf

end Sampo
