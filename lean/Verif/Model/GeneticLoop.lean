import Mathlib.Data.List.Sort
import Verif.Prelude

/-!
# Model of the genetic algorithm (sampo/scheduler/genetic/schedule_builder.py) and its first population

An individual is an opaque value of a type `α`.  Its fitness is the list of weighted values of `deap`'s `Fitness` (larger is
better), a function of the individual: evaluating a chromosome decodes it and is not random.  Offspring, shuffling, copying
for a full population and the wall clock are parameters.  The hall of fame is `deap.tools.ParetoFront`, an external class,
modelled after its source.
-/

namespace Sampo.GeneticLoop

/-- `Fitness.dominates` of deap: no smaller weighted value and some larger one. -/
def dominates (a b : List Int) : Bool :=
  ((a.zip b).all fun p => decide (p.2 ≤ p.1)) && (a.zip b).any fun p => decide (p.2 < p.1)

/-- `Fitness.__le__` of deap: lexicographic order of the weighted values. -/
def lexLe : List Int → List Int → Bool
  | x :: xs, y :: ys => if x < y then true else if y < x then false else lexLe xs ys
  | [], _ => true
  | _ :: _, [] => false

variable {α : Type*}

/-- The inner loop of `ParetoFront.update` of deap for one new individual `x`: members still to compare, `dominates_one`,
members passed and not to be removed.  The result is the front after the removals and whether `x` is inserted.
`compare_individuals` (schedule_builder.py:353-355) holds for all individuals of equal fitness. -/
def compareAll (fit : α → List Int) (x : α) : List α → Bool → List α → List α × Bool
  | [], _, kept => (kept, true)
  | h :: hs, dominatesOne, kept =>
    if !dominatesOne && dominates (fit h) (fit x) then (kept ++ h :: hs, false)
    else if dominates (fit x) (fit h) then compareAll fit x hs true kept
    else if fit x = fit h then (kept ++ h :: hs, false)
    else compareAll fit x hs dominatesOne (kept ++ [h])

/-- `HallOfFame.insert` of deap: members are in descending order of fitness, a new member goes before equal ones. -/
def insert (fit : α → List Int) (x : α) (hof : List α) : List α := hof.orderedInsert (fun a b => lexLe (fit b) (fit a)) x

/-- `ParetoFront.update` of deap for one individual. -/
def updateOne (fit : α → List Int) (hof : List α) (x : α) : List α :=
  let r := compareAll fit x hof false []
  if r.2 then insert fit x r.1 else r.1

/-- `ParetoFront.update` of deap. -/
def update (fit : α → List Int) (hof pop : List α) : List α := pop.foldl (updateOne fit) hof

/-- `select_new_population` (operators.py:382-388): `sorted(..., reverse=True)` keeps the order of equal elements. -/
def select (fit : α → List Int) (k : Nat) (pop : List α) : List α :=
  (pop.insertionSort fun a b => lexLe (fit b) (fit a)).take k

/-- Sources of change in a run: `rand.shuffle`, `make_offspring`, and the check of the time border, for every generation. -/
structure Env (α : Type*) where
  shuffle : Nat → List α → List α
  offspring : Nat → List α → List α
  inTime : Nat → Bool

/-- State of a stage: `pop`, `hof`, `plateau_steps`, `generation`; `seen` collects all evaluated individuals and is not part of the
program. -/
structure State (α : Type*) where
  pop : List α
  hof : List α
  plateau : Nat
  generation : Nat
  seen : List α

/-- `best_fitness`, the fitness of `hof[0]`; `none` is an `IndexError`. -/
def best (fit : α → List Int) (hof : List α) : Option (List Int) := hof.head?.map fit

/-- One generation (schedule_builder.py:222-242, 306-333).  `keep` is the test of offspring before they join the population
(only in the second stage: `ind.time <= deadline`). -/
def generationStep (fit : α → List Int) (sel : List α → List α) (env : Env α) (keep : α → Bool) (s : State α) : State α :=
  let pop := env.shuffle s.generation s.pop
  let off := (env.offspring s.generation pop).filter keep
  let pop' := sel (pop ++ off)
  let hof := update fit s.hof pop'
  { pop := pop', hof := hof, plateau := if best fit hof = best fit s.hof then s.plateau + 1 else 0,
    generation := s.generation + 1, seen := s.seen ++ off }

/-- The loop of a stage: at most `last` is the number of the last generation; `stop` is the early exit of the first stage when all
individuals meet the deadline (schedule_builder.py:244-246), tested after a generation (then `generation` is not advanced).
The recursion is on the number of remaining generations. -/
def loop (fit : α → List Int) (sel : List α → List α) (env : Env α) (keep : α → Bool) (stop : State α → Bool)
    (maxPlateau : Nat) : Nat → State α → State α
  | 0, s => s
  | left + 1, s =>
    if s.plateau < maxPlateau ∧ env.inTime s.generation then
      let s' := generationStep fit sel env keep s
      if stop s' then { s' with generation := s.generation } else loop fit sel env keep stop maxPlateau left s'
    else s

/-- The beginning of `build_schedules_with_cache` (schedule_builder.py:196-214): evaluation of the first population. -/
def start (fit : α → List Int) (pop : List α) (generation : Nat) : State α :=
  { pop := pop, hof := update fit [] pop, plateau := 0, generation := generation, seen := pop }

/-- `build_schedules_with_cache` without deadline (schedule_builder.py:183-248, 342-350): the members of the hall of fame, which are
decoded to the returned schedules.  `none` is the `IndexError` of `hof[0]` for an empty population. -/
def runFree (fit : α → List Int) (sel : List α → List α) (env : Env α) (maxPlateau : Option Nat) (generations : Nat)
    (pop : List α) : Option (State α) :=
  if (update fit [] pop).isEmpty then none
  else some (loop fit sel env (fun _ => true) (fun _ => false) (maxPlateau.getD generations) generations (start fit pop 1))

/-- `build_schedules_with_cache` with a deadline (schedule_builder.py:183-350).  `time` is the execution time of a decoded
individual, `res` the fitness of the second stage, `fill` the indices drawn by `rand.choices` to fill up the population.
`toolbox.copy_individual` makes equal individuals.  `none` is an `IndexError`. -/
def runDeadline (time : α → Int) (res : α → List Int) (sel1 sel2 : List α → List α) (env1 env2 : Env α) (deadline : Int)
    (fill : List α → Nat → List α) (maxPlateau : Option Nat) (generations size : Nat) (pop : List α) : Option (State α) :=
  let tfit := fun a => [- time a]
  if (update tfit [] pop).isEmpty then none
  else
    let s := loop tfit sel1 env1 (fun _ => true)
      (fun s => (s.hof.head?.any fun b => decide (time b ≤ deadline)) && s.pop.all fun a => decide (time a ≤ deadline))
      (maxPlateau.getD (generations / 2)) (generations / 2) (start tfit pop 1)
    match s.hof.head? with
    | none => none
    | some b =>
      if deadline < time b then
        let pop2 := s.pop.filter fun a => time a = time b
        some { pop := pop2, hof := update res [] pop2, plateau := 0, generation := s.generation, seen := s.seen }
      else
        let pop2 := s.pop.filter fun a => time a ≤ deadline
        let s2 := start res pop2 s.generation
        if s2.hof.isEmpty then none
        else
          let full := if pop2.length < size then pop2 ++ fill pop2 (size - pop2.length) else pop2
          some (loop res sel2 env2 (fun a => decide (time a ≤ deadline)) (fun _ => false)
            (maxPlateau.getD (generations - s.generation + 1)) (generations + 1 - s.generation) { s2 with pop := full })

/-! ### First population -/

/-- `counts` of `generate_chromosomes` (operators.py:299-314): copies of every initial chromosome, then of the two randomized kinds.
Weights are naturals and the division is exact here (floats in the program). -/
def counts (n : Nat) (weights : List Nat) : List Nat :=
  let c := if 0 < n / 3 / weights.length then n / 3 / weights.length else 1
  let specified := weights.map fun w => (c * w + weights.sum - 1) / weights.sum
  let topological := if specified.sum < n / 2 then n / 2 - specified.sum else 1
  let lft := if topological + specified.sum < n then n - topological - specified.sum else 1
  specified ++ [topological, lft]

/-- The list `rand.sample(..., counts=counts)` draws from (operators.py:316): numbers of the kinds with repetitions. -/
def urn (counts : List Nat) : List Nat := (List.range counts.length).flatMap fun i => List.replicate ((counts[i]?).getD 0) i

/-- `rand.sample(urn, k=n)` is some selection of `n` different places of the urn. -/
def Sample (n : Nat) (urn picked : List Nat) : Prop := picked.length = n ∧ List.Subperm picked urn

end Sampo.GeneticLoop
