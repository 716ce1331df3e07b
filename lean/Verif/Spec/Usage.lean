import Verif.Model.Usage

/-!
# Specification: what is in use at a moment
-/

namespace Sampo.Usage

/-- A work is going on at a moment. -/
def Job.at (j : Job) (t : Int) : Prop := j.start ≤ t ∧ t < j.finish

instance (j : Job) (t : Int) : Decidable (j.at t) := by unfold Job.at; infer_instance

/-- The number of workers of a kind that are at work at a moment. -/
def inUse (jobs : List Job) (name : Nat) (t : Int) : Int :=
  ((jobs.filter fun j => j.at t).map fun j => ((j.workers.filter fun w => w.name = name).map (·.count)).sum).sum

/-- What the workers at work at a moment cost per unit of time, for the asked kinds. -/
def costRate (jobs : List Job) (names : Option (List Nat)) (t : Int) : Int :=
  ((jobs.filter fun j => j.at t).map fun j =>
    ((j.workers.filter fun w => names.all fun ns => ns.contains w.name).map fun w => w.price * w.count).sum).sum

/-- All works finish after they start, and no team has a negative size. -/
def Sensible (jobs : List Job) : Prop := ∀ j ∈ jobs, j.start ≤ j.finish ∧ ∀ w ∈ j.workers, 0 ≤ w.count

instance (jobs : List Job) : Decidable (Sensible jobs) := by unfold Sensible; infer_instance

end Sampo.Usage
