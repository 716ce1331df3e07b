import Verif.Model.PlainPipeline
import Verif.Model.GeneticSerial

/-!
# The default pipeline with the genetic scheduler, lag optimization switched on or off

Local optimizations of the order are ignored for this scheduler, as it is not a generic one (pipeline/default.py:242-243).
-/

namespace Sampo.GeneticPipeline

open GeneticFull GeneticRun PlainPipeline
open Genetic (Ind)

variable {σ : Type}

/-- The settings of `GeneticScheduler(...)` (genetic/base.py:33-82), with what is drawn and the fitness. -/
structure Config where
  draws : Draws
  random : Randomness
  optimize : Bool
  fit : Ind → List Int
  select : List Ind → List Ind
  maxPlateau : Option Nat
  generations : Nat
  lftOnly : Bool
  size : Nat
  weights : Option (List Nat)

/-- The task that the pipeline gives to its scheduler (pipeline/default.py:247-299): its graph, its contractors, the corrected priorities, no
specification; the rest as in `T`. -/
def given (T : Job σ) (p : PlainPipeline.Project) (prio : Nat → Int) (cs : List Contractor) : Job σ :=
  { T with J := ⟨p.graph, p.works, cs, p.reqs, prio, fun _ => ⟨[], []⟩⟩ }

/-- `GeneticScheduler.schedule_with_cache` (genetic/base.py:254-315) with the parallel scheme, as a scheduler of the pipeline. -/
def parallel (T : Job σ) (C : Config) (fuelIn fuel : Nat) (p : PlainPipeline.Project) (prio : Nat → Int) (cs : List Contractor) :
    Option (List Sched) :=
  (run (given T p prio cs) C.draws C.random C.optimize C.fit C.select C.maxPlateau C.generations C.lftOnly C.size C.weights fuelIn
    fuel).join.map fun Ls => Ls.map (·.st.sched)

/-- The same with the serial scheme. -/
def serial (T : Job σ) (C : Config) (fuelIn fuel : Nat) (p : PlainPipeline.Project) (prio : Nat → Int) (cs : List Contractor) :
    Option (List Sched) :=
  (runSerial (given T p prio cs) C.draws C.random C.optimize C.fit C.select C.maxPlateau C.generations C.lftOnly C.size C.weights false
    fuelIn fuel).join.map fun sts => sts.map (·.sched)

/-- `DefaultInputPipeline.schedule` (pipeline/default.py:192-300) as in `Model/PlainPipeline.lean`, for a scheduler that returns several
schedules. -/
def runAll (restructure : Graph → Bool → Option Graph) (p : PlainPipeline.Project) (given : Pipeline.Given) (lag : Pipeline.Lag)
    (scheduler : (Nat → Int) → List Contractor → Option (List Sched)) : Pipeline.Outcome Graph Sched Unit :=
  match Priority.correct p.graph.parents p.works.length p.works p.prio with
  | none => .error
  | some prio => Pipeline.schedule (fun _ => p.works.map p.reqs) restructure
      (fun cs _ => (scheduler prio cs).map fun l => l.map fun s => (s, (s.map (·.2.finish)).foldl max 0, ())) p.graph given lag

end Sampo.GeneticPipeline
