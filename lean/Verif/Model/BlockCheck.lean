import Verif.Model.Blocks
import Verif.Model.Validate
import Mathlib.Data.List.Dedup

/-!
# The validator of block schedules (`sampo/scheduler/multi_agency/block_validation.py`)
-/

namespace Sampo.BlockCheck

/-- A `Contractor` (schemas/contractor.py:18-35): a data class, equal to another one if all fields are.  Equipment is left out. -/
structure Contractor where
  id : Nat
  name : Nat
  workers : List (Nat × Int)
deriving DecidableEq, Repr

/-- A `ScheduledBlock` (multi_agency.py:96-121): the block graph's data, what `validate_schedule` reads of its work graph, and the works of
its schedule. -/
structure Block extends Blocks.SBlock where
  input : Validate.Input
  works : List Validate.SWork

/-- Contractors as `validate_schedule` reads them (validation.py:97-105). -/
def seen (cs : List Contractor) : List (Nat × List (Nat × Int)) := cs.map fun c => (c.id, c.workers)

/-- `len(contractors) == len(set(contractors))` (block_validation.py:12-17). -/
def noCollisions (agents : List (List Contractor)) : Bool :=
  decide ((agents.flatMap id).length = (agents.flatMap id).dedup.length)

/-- `_check_blocks_separately` (block_validation.py:41-51); agents by number. -/
def checkSeparately (agents : List (List Contractor)) (blocks : List Block) : Bool :=
  blocks.all fun b => Validate.validate b.input (seen (agents.getD b.agent [])) b.works

/-- `validate_block_schedule` (block_validation.py:11-25): nothing is raised. -/
def validateBlocks (g : Blocks.BlockGraph) (agents : List (List Contractor)) (blocks : List Block) : Bool :=
  noCollisions agents && Blocks.checkDependencies g (blocks.map (·.toSBlock)) && checkSeparately agents blocks

/-- The loop of validation.py:125-166 with the pool of workers it leaves in `cur_worker_pool`: what happens at the last moment is not
applied. -/
def sweepRest (init : AgentId → Option Int) : List Validate.Event → Int → List (AgentId × Int) → (AgentId → Option Int) →
    Option (AgentId → Option Int)
  | [], _, _, cur => some cur
  | e :: es, moment, mp, cur =>
    if e.work.workers.isEmpty then sweepRest init es moment mp cur
    else if e.time ≠ moment then
      match Validate.flush init mp cur with
      | none => none
      | some cur' => sweepRest init es e.time (Validate.grab [] e) cur'
    else sweepRest init es moment (Validate.grab mp e) cur

/-- The loop over blocks in `_check_blocks_with_global_timelines` (block_validation.py:74-77). -/
def globalLoop (init : AgentId → Option Int) : List Block → (AgentId → Option Int) → Bool
  | [], _ => true
  | b :: bs, cur => match sweepRest init (Validate.events b.works) 0 [] cur with
    | none => false
    | some cur => globalLoop init bs cur

/-- `_check_blocks_with_global_timelines` (block_validation.py:54-77); its call is commented out (block_validation.py:22-25). -/
def checkGlobally (agents : List (List Contractor)) (blocks : List Block) : Bool :=
  globalLoop (Validate.pool (seen (agents.flatMap id))) blocks (Validate.pool (seen (agents.flatMap id)))

end Sampo.BlockCheck
