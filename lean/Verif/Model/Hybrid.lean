import Verif.Model.GeneticLoop
import Mathlib.Data.List.MinMax
import Mathlib.Order.Lex
import Mathlib.Data.List.Lex

/-!
# The hybrid scheduler (`sampo/hybrid/cycle.py`, `sampo/hybrid/population.py`)

A chromosome is a value of any type `C`; its fitness is a tuple of integers.  A scheduler of populations may use random numbers, so
it gets the number of the round.  `none` of a scheduler: an exception.
-/

namespace Sampo.Hybrid

variable {C : Type}

/-- `PopulationScheduler` (population.py:10-20). -/
abbrev Pop (C : Type) := Nat → List C → Option (List C)

/-- `_get_population_fitness` (cycle.py:23-25): `min` of tuples.  `none`: `ValueError` for no chromosomes. -/
def bestFitness (fit : C → List Int) (pop : List C) : Option (List Int) := (pop.map fit).min?

/-- `np.argmin` of a list of tuples of one length: the index of the smallest number in the flattened array, the first one of equal
numbers.  `none`: `ValueError`. -/
def argminFlat (rows : List (List Int)) : Option Nat := (rows.flatten.min?).map fun m => rows.flatten.idxOf m

/-- `_get_best_individual` (cycle.py:27-29).  `none`: `ValueError` or `IndexError`. -/
def bestIndividual (fit : C → List Int) (pop : List C) : Option C := (argminFlat (pop.map fit)).bind fun i => pop[i]?

/-- The inner loop (cycle.py:54-55). -/
def step (cycle : List (Pop C)) (round : Nat) (pop : List C) : Option (List C) := cycle.foldlM (fun p s => s round p) pop

/-- The loop of `run` (cycle.py:43-57): `cur` is `cur_fitness`, `none` for its first value, a number, which differs from every tuple.
Outer `none`: no end within the fuel; inner `none`: an exception. -/
def loop (fit : C → List Int) (cycle : List (Pop C)) (maxPlateau : Nat) :
    Nat → Nat → Option (List Int) → Nat → List C → Option (Option C)
  | 0, _, _, _, _ => none
  | fuel + 1, round, cur, plateau, pop =>
    match bestFitness fit pop with
    | none => some none
    | some f =>
      let plateau' := if cur = some f then plateau + 1 else 0
      if cur = some f ∧ plateau' = maxPlateau then some (bestIndividual fit pop)
      else
        match step cycle round pop with
        | none => some none
        | some pop' => loop fit cycle maxPlateau fuel (round + 1) (some f) plateau' pop'

/-- `CycleHybridScheduler.run` (cycle.py:31-55); the starting scheduler gets no population. -/
def run (fit : C → List Int) (start : List C → Option (List C)) (cycle : List (Pop C)) (maxPlateau fuel : Nat) : Option (Option C) :=
  match start [] with
  | none => some none
  | some pop => loop fit cycle maxPlateau fuel 0 none 0 pop

/-- `GeneticPopulationScheduler.schedule` (population.py:23-36) with `upgrade_pop` (genetic/base.py:216-252), for a genetic scheduler
without deadline: the population after the last generation.  `weighted` is the fitness with its weights (larger is better). -/
def genetic (weighted : C → List Int) (size : Nat) (env : Nat → GeneticLoop.Env C) (maxPlateau : Option Nat) (generations : Nat) : Pop C :=
  fun round pop => (GeneticLoop.runFree weighted (GeneticLoop.select weighted size) (env round) maxPlateau generations pop).map (·.pop)

/-- `HeuristicPopulationScheduler.schedule` (population.py:42-54): the chromosomes of the schedules of the schedulers; the given
population is not used. -/
def heuristic (schedules : Option (List C)) : Pop C := fun _ _ => schedules

end Sampo.Hybrid
