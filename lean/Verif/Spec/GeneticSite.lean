import Verif.Spec.GeneticProject
import Verif.Spec.Live
import Verif.Spec.Decoding
import Verif.Props.C55_Offspring

/-! Specification: chromosomes and random draws of the genetic scheduler, sites on which chromosomes are decoded, teams of decoded schedules. -/

namespace Sampo.GeneticRun

open Genetic

variable {σ : Type}

/-- A valid chromosome with borders that are not negative, equal to the capacities when resources are not optimized. -/
structure Good (P : Problem) (optimize : Bool) (i : Ind) : Prop where
  valid : C55.ValidInd P i
  nonneg : ∀ c < P.nc, ∀ k < P.m, 0 ≤ i.res.border c k
  border : optimize = true ∨ ∀ c < P.nc, ∀ k < P.m, i.res.border c k = P.cap c k

/-- Possible results of the random generator in one generation. -/
def PossibleDraws (P : Problem) (dm : Nat → MateDraw) (du : Nat → MutDraw) : Prop :=
  (∀ j, Draws (dm j).order) ∧ ∀ j, C55.Possible P (du j)

/-- Results of the random generator that can occur in a stage. -/
structure Randomness.Possible (R : Randomness) (P : Problem) : Prop where
  shuffle : ∀ g l, (R.shuffle g l).Perm l
  draws : ∀ g, PossibleDraws P (R.mate g) (R.mutation g)

/-- Durations, volumes, given times and the start of the project are not negative; no work is marked as independent. -/
structure Steady (site : Env σ) (B : Decode.Input σ) : Prop where
  estimate : ∀ v team, 0 ≤ site.estimate v team
  volume : ∀ v, 0 ≤ B.volume v
  share : C13.FairShare B.share
  assigned : ∀ v t, B.assignedTime v = some t → 0 ≤ t
  start : 0 ≤ B.parentTime
  independent : ∀ v, B.independent v = false

/-- Besides that, materials and zones raise no error and allow each work from some moment on. -/
structure Calm (site : Env σ) (B : Decode.Input σ) : Prop extends Steady site B where
  deliver : ∀ s v t, (site.deliver s v t).isSome
  occupy : ∀ s v t d, (site.occupy s v t d).isSome
  finish : ∀ s, (site.finishZones s).isSome
  eventually : ∀ s v d, ∃ b, ∀ t, b ≤ t → B.matOk s v t = true ∧ B.zoneOk s v t d = true

/-- An enabled contractor does the work with workers of its own: of each required kind between the least and the greatest
required number, and no workers of other kinds.  A kind of which no worker is needed may be missing. -/
def Serves (J : Project) (v : Nat) (team : List Worker) (cid : Nat) : Prop :=
  ∃ c ∈ J.contractors, c.id = cid ∧ C14.Admissible (J.spec v) c ∧ WellFormedTeam team ∧
    (∀ w ∈ team, w.contractor = cid ∧ 0 < w.count ∧ (∃ n, c.workers.lookup w.name = some n ∧ w.count ≤ n) ∧
      ∃ r ∈ J.reqs v, r.kind = w.name ∧ r.minCount ≤ w.count ∧ w.count ≤ r.maxCount) ∧
    ∀ r ∈ J.reqs v, 0 < r.minCount → ∃ w ∈ team, w.name = r.kind

/-- The project begins with a work that needs no workers, and every other chain depends on some chain. -/
def Begins (J : Project) : Prop :=
  ∃ s, J.reqs s = [] ∧ ∀ v, J.graph.IsHead J.nodes v → v ≠ s → ∃ p, J.graph.HeadDependsOn J.nodes v p

end Sampo.GeneticRun
