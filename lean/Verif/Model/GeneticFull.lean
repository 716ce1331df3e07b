import Verif.Model.GeneticRun
import Verif.Model.Checked
import Verif.Model.Backend
import Verif.Model.Optimize

/-!
# The genetic scheduler from the project to the schedules (`sampo/scheduler/genetic/base.py`)

Heuristic schedules, first population, generations and decoding, without a deadline.  Results are `Option (Option _)`: outer `none` is a
search loop that does not end within the fuel, inner `none` an exception.
-/

namespace Sampo.GeneticFull

open GeneticRun Scheduler Validate
open Genetic (Ind Problem)

variable {σ α β : Type}

/-- One step after another: Python statements in a row. -/
def andThen (r : Option (Option α)) (f : α → Option (Option β)) : Option (Option β) :=
  match r with
  | none => none
  | some none => some none
  | some (some a) => f a

/-- The elements of a list computed one after another: a list comprehension. -/
def all : List (Option (Option α)) → Option (Option (List α))
  | [] => some (some [])
  | r :: rs => andThen r fun a => andThen (all rs) fun as => some (some (a :: as))

/-- What the scheduler is given (genetic/base.py:254-263) and what it passes on.  `cost` are the weights of works in HEFT, `dur` the durations
in LFT, `index` the contractors LFT chooses among the possible ones; `finishEnd` and `finishBetween` are what the timelines answer to the resource
optimizer of HEFT for the counts of a team; `sort` is the order of rows of a schedule, `first` picks one of several contractors, `B` are the
data of works read by the decoder. -/
structure Job (σ : Type) where
  J : Project
  site : Env σ
  env : σ
  independent : Nat → Bool
  cost : Nat → Rat
  dur : Nat → Int
  index : Nat → Nat → Nat
  finishEnd : JIT.State σ → Nat → Contractor → List Int → Int
  finishBetween : Momentum.State σ → Nat → Contractor → List Int → Int
  sort : Sched → Sched
  first : List Nat → Nat
  B : Decode.Input σ
  inf : Int

/-- What is drawn for the first population: for the individual with a given number the picks of works and of contractors of randomized LFT and
the shuffles of the topological scheduler; the kinds of individuals. -/
structure Draws where
  pick : Nat → Nat → Nat
  index : Nat → Nat → Nat → Nat
  shuffle : Nat → List Nat → List Nat
  kinds : List Nat

/-- A generic scheduler as in `generate_first_population`: the project starts at 0 (genetic/base.py:180-184). -/
def setup {S : Type} (T : Job σ) (opt : S → Nat → Contractor → Optimizer) : Generic.Setup S :=
  ⟨T.J.contractors, T.J.spec, T.J.reqs, opt, T.independent, 0⟩

/-- `schedule_with_cache(wg, contractors, spec, landscape=landscape)[0]` on a just-in-time timeline (generic.py:106-131): schedule and order. -/
def onJIT (T : Job σ) (rule : Rule) (opt : JIT.State σ → Nat → Contractor → Optimizer) (fuel : Nat) : Option (Option (Sched × List Nat)) :=
  (scheduleJIT T.site rule T.J.graph T.J.nodes (Generic.planJIT (onGraph T.site T.J.graph T.J.nodes) (setup T opt) fuel)
    (LFT.agents T.J.contractors) T.env fuel).map fun o => o.bind fun st => (orderWorks rule T.J.graph T.J.nodes).map fun order =>
      (st.sched, order)

/-- The same on a momentum timeline, with any plan of teams (generic.py:106-131, lft/base.py:102-142). -/
def onMomentum (T : Job σ) (rule : Rule) (plan : Plan (Momentum.State σ)) (fuelIn fuel : Nat) : Option (Option (Sched × List Nat)) :=
  (scheduleMomentum T.site rule T.J.graph T.J.nodes plan (LFT.agents T.J.contractors) T.env T.inf fuelIn fuel).map fun o =>
    o.bind fun st => (orderWorks rule T.J.graph T.J.nodes).map fun order => (st.sched, order)

/-- `validate_schedule(schedule, wg, contractors, spec)` at the end of `schedule_with_cache` (generic.py:128-129, lft/base.py:139-140). -/
def ok (T : Job σ) (x : Sched × List Nat) : Bool :=
  passes T.sort T.J.graph T.J.nodes T.site.service T.J.contractors T.J.spec T.J.reqs x.1

/-- `init_schedule` and `init_k_schedule` (genetic/base.py:178-193): `NoSufficientContractorError` gives `(None, None, None)`, a failed
validation is not caught.  Simplified: each exception of the scheduler itself is taken for `NoSufficientContractorError`. -/
def caught (T : Job σ) (r : Option (Option (Sched × List Nat))) : Option (Option (Option (Sched × List Nat))) :=
  r.map fun o => match o with
    | none => some none
    | some x => if ok T x then some (some x) else none

/-- The plan of the LFT schedulers (lft/base.py:102-142, 250-267). -/
def lftPlan (T : Job σ) (index : Nat → Nat → Nat) : Plan (Momentum.State σ) :=
  LFT.plan _ T.J.contractors T.J.spec T.J.reqs index T.independent 0

/-- `LFTScheduler(...).schedule_with_cache(..., validate=True)` (genetic/base.py:171-176): exceptions are not caught. -/
def lft (T : Job σ) (fuelIn fuel : Nat) : Option (Option (Sched × List Nat)) :=
  checked (ok T) (onMomentum T (lftRule T.dur T.J.prio) (lftPlan T T.index) fuelIn fuel)

/-- The seven heuristic schedules (genetic/base.py:206-214): LFT, HEFT on both timelines with full scans (heft/base.py:20-48), HEFT with shares of
the possible numbers of workers. -/
def heuristics (T : Job σ) (fuelIn fuel : Nat) : List (Option (Option (Option (Sched × List Nat)))) :=
  [andThen (lft T fuelIn fuel) fun x => some (some (some x)),
    caught T (onJIT T (heftRule T.cost T.J.prio) (fun st v c => Optimize.fullScan (T.finishEnd st v c)) fuel),
    caught T (onMomentum T (heftRule T.cost T.J.prio)
      (Generic.planMomentum (onGraph T.site T.J.graph T.J.nodes) (setup T fun st v c => Optimize.fullScan (T.finishBetween st v c)) T.inf fuelIn fuel) fuelIn fuel),
    caught T (onJIT T (heftRule T.cost T.J.prio) (fun _ _ _ => Optimize.averageReq 8 1) fuel),
    caught T (onJIT T (heftRule T.cost T.J.prio) (fun _ _ _ => Optimize.averageReq 4 1) fuel),
    caught T (onJIT T (heftRule T.cost T.J.prio) (fun _ _ _ => Optimize.averageReq 4 3) fuel),
    caught T (onJIT T (heftRule T.cost T.J.prio) (fun _ _ _ => Optimize.averageReq 8 7) fuel)]

/-- `convert_schedule_to_chromosome` for a schedule and its order. -/
def chromosome (T : Job σ) (heads : List Nat) (x : Sched × List Nat) : Option Ind := convert T.J heads T.first x.1 x.2

/-- An entry of `init_chromosomes` (genetic/utils.py:25-31). -/
def weighted (T : Job σ) (heads : List Nat) (x : Option (Sched × List Nat) × Nat) : Option (Option (Ind × Nat)) :=
  match x.1 with
  | none => some none
  | some s => (chromosome T heads s).map fun i => some (i, x.2)

/-- `init_chromosomes_f` (genetic/utils.py:15-33) for the heuristic schedules and their weights. -/
def initial (T : Job σ) (heads : List Nat) (weights : List Nat) (fuelIn fuel : Nat) : Option (Option (List (Option (Ind × Nat)))) :=
  andThen (all (heuristics T fuelIn fuel)) fun hs => some ((hs.zip weights).mapM (weighted T heads))

/-- `randomized_init(is_topological=True)` (genetic/operators.py:282-287, 292-293) for individual `i`. -/
def topological (T : Job σ) (d : Draws) (heads : List Nat) (fuelIn fuel : Nat) (i : Nat) : Option (Option Ind) :=
  andThen (onMomentum T (topologicalRule T.J.prio (d.shuffle i))
    (Generic.planMomentum (onGraph T.site T.J.graph T.J.nodes) (setup T fun _ _ _ => Optimize.averageReq 2 1) T.inf fuelIn fuel) fuelIn fuel) fun x =>
      some (chromosome T heads x)

/-- `randomized_init(is_topological=False)` (genetic/operators.py:288-293) for individual `i`.  The loop of randomized LFT makes at most one
round for each work (C20), which is its fuel. -/
def randomLft (T : Job σ) (d : Draws) (heads : List Nat) (fuelIn fuel : Nat) (i : Nat) : Option (Option Ind) :=
  andThen (onMomentum T (randomLftRule T.J.prio (d.pick i) T.J.nodes.length) (lftPlan T (d.index i)) fuelIn fuel) fun x =>
    some (chromosome T heads x)

/-- The first population (genetic/operators.py:262-332): `generate_chromosomes` of the converted heuristic schedules. -/
def population (T : Job σ) (d : Draws) (heads : List Nat) (lftOnly : Bool) (n : Nat) (weights : List Nat) (fuelIn fuel : Nat) :
    Option (Option (List Ind)) :=
  andThen (initial T heads weights fuelIn fuel) fun ini =>
    match Backend.firstDefault lftOnly (ini.map fun x => x.map fun y => (some (some y.1), y.2)) (topological T d heads fuelIn fuel)
        (randomLft T d heads fuelIn fuel) n d.kinds with
    | none => some none
    | some l => all l

/-- `GeneticScheduler.schedule_with_cache` without a deadline and without validation at the end (genetic/base.py:254-315,
schedule_builder.py:155-350): the decoded members of the hall of fame. -/
def run (T : Job σ) (d : Draws) (R : Randomness) (optimize : Bool) (fit : Ind → List Int) (sel : List Ind → List Ind)
    (maxPlateau : Option Nat) (generations : Nat) (lftOnly : Bool) (n : Nat) (weights : Option (List Nat)) (fuelIn fuel : Nat) :
    Option (Option (List (Decode.Loop σ))) :=
  match prepare T.J, Backend.schedulerWeights weights with
  | some (heads, P), some ws => andThen (population T d heads lftOnly n ws fuelIn fuel) fun pop =>
      match GeneticLoop.runFree fit sel (stage P optimize R) maxPlateau generations pop with
      | none => some none
      | some s => all (s.hof.map fun i => schedule T.site T.J heads T.B T.inf T.env fuel i)
  | _, _ => some none

/-- The same with `validate=True` (genetic/base.py:311-313). -/
def runValidated (T : Job σ) (d : Draws) (R : Randomness) (optimize : Bool) (fit : Ind → List Int) (sel : List Ind → List Ind)
    (maxPlateau : Option Nat) (generations : Nat) (lftOnly : Bool) (n : Nat) (weights : Option (List Nat)) (fuelIn fuel : Nat) :
    Option (Option (List (Decode.Loop σ))) :=
  andThen (run T d R optimize fit sel maxPlateau generations lftOnly n weights fuelIn fuel) fun Ls =>
    some (if Ls.all fun Lp => ok T (Lp.st.sched, []) then some Ls else none)

end Sampo.GeneticFull
