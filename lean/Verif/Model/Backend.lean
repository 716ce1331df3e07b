import Verif.Model.GeneticOffspring
import Verif.Model.GeneticLoop
import Verif.Model.StochasticEstimator

/-!
# Computational backends (`sampo/backend/default.py`, `sampo/backend/multiproc.py`)

A backend remembers a task and settings, and evaluates chromosomes with a toolbox made of them.  Graph, contractors, landscape and
specification are one opaque value of a type `P`, the numbers of the genetic algorithm and the kind of decoding one of a type `G`,
chromosomes are of a type `C`, schedules of a type `S`, values of fitness functions of a type `F`.  Checking and decoding of chromosomes are
parameters, functions of what the toolbox is made of: random numbers of a stochastic estimator are not drawn anew.  Processes of the pool are
not distinguished: all are initialized in the same way, and `Pool.map` keeps the order.
-/

namespace Sampo.Backend

open StochasticEstimator

/-- A `DefaultWorkEstimator` (time_estimator.py:60-67): mode and productivities.  The estimation mode is stored but not used. -/
structure Est where
  mode : Mode
  table : Table

/-- `DefaultWorkEstimator()` (time_estimator.py:60-67); the six kinds of workers are numbered. -/
def Est.new : Est := ⟨.static, initial [0, 1, 2, 3, 4, 5]⟩

/-- `get_recreate_info` (time_estimator.py:134-135) and the call in the initializer of the processes (multiproc.py:59): a new estimator. -/
def recreate (_ : Est) : Est := .new

variable {P G C S F : Type}

/-- What `cache_scheduler_info` remembers (default.py:18-31); the random generator is left out. -/
structure Job (P : Type) where
  problem : P
  estimator : Option Est

/-- What `cache_genetic_info` remembers (default.py:33-58).  Of the initial schedules only whether there are any. -/
structure Settings (G : Type) where
  params : G
  parentTime : Option Int
  initial : Bool

/-- The part of a toolbox used by `evaluate_chromosome` (genetic/operators.py:225-234). -/
structure Toolbox (P G : Type) where
  problem : P
  est : Est
  params : G
  parentTime : Int

/-- A backend: the task, the settings, `_toolbox`, and the toolbox in the processes of the pool, if there is a pool (multiproc.py:82-86).
The default backend has no pool. -/
structure State (P G : Type) where
  task : Option (Job P)
  settings : Option (Settings G)
  toolbox : Option (Toolbox P G)
  pool : Option (Toolbox P G)

/-- A new backend (backend/__init__.py:17-39, multiproc.py:82-86). -/
def State.new : State P G := ⟨none, none, none, none⟩

/-- `_ensure_toolbox_created` (default.py:60-89).  `none`: the task or the settings are missing.  Simplified: without settings the program makes
a toolbox that raises `ValueError` when it decodes. -/
def State.ensureToolbox (s : State P G) : Option (State P G) :=
  match s.toolbox with
  | some _ => some s
  | none => s.task.bind fun t => s.settings.map fun g =>
      { s with toolbox := some ⟨t.problem, t.estimator.getD .new, g.params, g.parentTime.getD 0⟩ }

/-- `_ensure_pool_created` (multiproc.py:91-113) with the initializer (25-77).  `none`: the task or the settings are missing, or the estimator is
`None` (`AttributeError`). -/
def State.ensurePool (s : State P G) : Option (State P G) :=
  match s.pool with
  | some _ => some s
  | none => s.task.bind fun t => t.estimator.bind fun e => s.settings.map fun g =>
      { s with pool := some ⟨t.problem, recreate e, g.params, g.parentTime.getD 0⟩ }

/-- `evaluate` (genetic/operators.py:241-246): a chromosome that is not correct has no schedule. -/
def evaluate (valid : Toolbox P G → C → Bool) (decode : Toolbox P G → C → S) (tb : Toolbox P G) (c : C) : Option S :=
  if valid tb c then some (decode tb c) else none

/-- What a program does with a backend.  A fitness function is given the evaluation and a chromosome (genetic_api.py:25-31). -/
inductive Op (P G C S F : Type)
  | task (t : Job P)
  | settings (g : Settings G)
  | compute (fitness : (C → Option S) → C → F) (cs : List C)
  | population

/-- One operation on the default backend: the values of the chromosomes for `compute` (default.py:18-58, 91-99).  Of
`generate_first_population` only that it makes the toolbox. -/
def State.stepDefault (valid : Toolbox P G → C → Bool) (decode : Toolbox P G → C → S) (s : State P G) :
    Op P G C S F → Option (List (List F) × State P G)
  | .task t => some ([], { s with task := some t, toolbox := none })
  | .settings g => some ([], { s with settings := some g, toolbox := none })
  | .compute fitness cs => s.ensureToolbox.bind fun s => s.toolbox.map fun tb => ([cs.map (fitness (evaluate valid decode tb))], s)
  | .population => s.ensureToolbox.map fun s => ([], s)

/-- One operation on the multiprocessing backend (multiproc.py:115-160).  `none` for `cache_genetic_info` with initial schedules before
`cache_scheduler_info` (143-144): they are converted at once, without a graph. -/
def State.stepMulti (valid : Toolbox P G → C → Bool) (decode : Toolbox P G → C → S) (s : State P G) :
    Op P G C S F → Option (List (List F) × State P G)
  | .task t => some ([], { s with task := some t, toolbox := none, pool := none })
  | .settings g => if g.initial = true ∧ s.task.isNone then none
      else some ([], { s with settings := some g, toolbox := none, pool := none })
  | .compute fitness cs => s.ensurePool.bind fun s => s.pool.map fun tb => ([cs.map (fitness (evaluate valid decode tb))], s)
  | .population => s.ensureToolbox.bind fun s => s.ensurePool.map fun s => ([], s)

/-- A sequence of operations: the values computed, or `none` if one raises. -/
def run (step : State P G → Op P G C S F → Option (List (List F) × State P G)) : State P G → List (Op P G C S F) → Option (List (List F))
  | _, [] => some []
  | s, op :: ops => (step s op).bind fun r => (run step r.2 ops).map fun t => r.1 ++ t

/-! ### First populations -/

/-- `generate_chromosomes` (genetic/operators.py:262-332), behind `generate_first_population` of the default backend (default.py:97-99).
`initial` are the converted initial schedules with their weights, the first of them made by LFT; `none` in it is a heuristic that found no
schedule (genetic/utils.py:26-30).  `picked` are the kinds drawn from `urn (counts n weights)`, `topological` and `lft` the randomized
individuals.  `none`: `TypeError` for a missing schedule, `KeyError`, or division by zero. -/
def firstDefault (lftOnly : Bool) (initial : List (Option (C × Nat))) (topological lft : Nat → C) (n : Nat) (picked : List Nat) :
    Option (List C) :=
  if lftOnly then initial.head?.bind fun first => first.map fun c => (List.range (n - 1)).map lft ++ [c.1]
  else (initial.mapM id).bind fun ini =>
    if ini = [] ∨ (ini.map (·.2)).sum = 0 then none
    else some (picked.mapIdx fun i k => if k < ini.length then ((ini[k]?).map (·.1)).getD (topological i)
      else if k = ini.length then topological i else lft i)

/-- `weights` in `GeneticScheduler.generate_first_population` (genetic/base.py:168-169, 206-214): seven of them are read.  `none`: `IndexError`. -/
def schedulerWeights (weights : Option (List Nat)) : Option (List Nat) :=
  match weights with
  | none => some [2, 2, 2, 1, 1, 1, 1]
  | some ws => if 7 ≤ ws.length then some (ws.take 7) else none

/-- `self._weights or [2, 2, 1, 1, 1, 1]` (multiproc.py:214). -/
def multiWeights (weights : Option (List Nat)) : List Nat :=
  match weights with
  | none => [2, 2, 1, 1, 1, 1]
  | some [] => [2, 2, 1, 1, 1, 1]
  | some (w :: ws) => w :: ws

/-- The counts of the kinds (multiproc.py:216-227).  Weights are naturals.  `none`: `ZeroDivisionError`. -/
def multiCounts (n : Nat) (ws : List Nat) : Option (List Nat) :=
  let c := if 0 < n / 3 / ws.length then n / 3 / ws.length else 1
  let specified := c * ws.length
  let counts := ws.map fun w => c * w
  if counts.sum = 0 then none
  else
    let multiplier := (specified + counts.sum - 1) / counts.sum
    some (counts.map (· * multiplier) ++ [if specified < n then n - specified else 1])

/-- `self._rand.sample(chromosome_keys, k=size_population, counts=counts)` (multiproc.py:229-230): what is drawn from.  `none`: `TypeError` if the
numbers of keys and counts differ, `ValueError` if there are too few. -/
def multiUrn (n : Nat) (weights : Option (List Nat)) : Option (List Nat) :=
  (multiCounts n (multiWeights weights)).bind fun counts =>
    if counts.length = 7 ∧ n ≤ counts.sum then some (GeneticLoop.urn counts) else none

/-- The order of works in an individual of a kind (multiproc.py:162-212).  `heuristic` is the order of the heuristic with that number, `none` if it found no schedule (then
`convert` raises `TypeError`); its order is reversed.  The last kind is the randomized one. -/
def multiOrder (heuristic : Nat → Option (List Nat)) (randomized : List Nat) (kind : Nat) : Option (List Nat) :=
  if kind < 6 then (heuristic kind).map List.reverse else some randomized

/-- `generate_first_population` (multiproc.py:157-234): the orders of the individuals. -/
def firstMulti (heuristic : Nat → Option (List Nat)) (randomized : Nat → List Nat) (picked : List Nat) : Option (List (List Nat)) :=
  (picked.mapIdx fun i k => multiOrder heuristic (randomized i) k).mapM id

end Sampo.Backend
