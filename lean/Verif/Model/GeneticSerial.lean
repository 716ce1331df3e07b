import Verif.Model.GeneticFull

/-!
# The genetic scheduler with the serial scheme (`sgs_type=ScheduleGenerationScheme.Serial`)

Landscapes without zones: with zones the serial scheme raises (C100).
-/

namespace Sampo.GeneticFull

open GeneticRun
open Genetic (Ind Problem)

variable {σ : Type}

/-- `toolbox.chromosome_to_schedule` with the serial scheme (converter.py:86-124, 240-316), without zones: nothing happens to zones after
a work (C100). -/
def scheduleSerial (site : Env σ) (J : Project) (heads : List Nat) (B : Decode.Input σ) (inf : Int) (env : σ) (fuelIn fuel : Nat)
    (i : Ind) : Option (Option (Momentum.State σ)) :=
  Decode.serial (input J heads B i) (Scheduler.onGraph site J.graph J.nodes) (fun st _ => some st.env) env inf fuelIn fuel

/-- `GeneticScheduler.schedule_with_cache` without a deadline, with the serial scheme (genetic/base.py:254-315,
schedule_builder.py:155-350): the decoded members of the hall of fame, validated at the end if `validate` is set. -/
def runSerial (T : Job σ) (d : Draws) (R : Randomness) (optimize : Bool) (fit : Ind → List Int) (sel : List Ind → List Ind)
    (maxPlateau : Option Nat) (generations : Nat) (lftOnly : Bool) (n : Nat) (weights : Option (List Nat)) (validate : Bool)
    (fuelIn fuel : Nat) : Option (Option (List (Momentum.State σ))) :=
  match prepare T.J, Backend.schedulerWeights weights with
  | some (heads, P), some ws => andThen (population T d heads lftOnly n ws fuelIn fuel) fun pop =>
      match GeneticLoop.runFree fit sel (stage P optimize R) maxPlateau generations pop with
      | none => some none
      | some s => andThen (all (s.hof.map fun i => scheduleSerial T.site T.J heads T.B T.inf T.env fuelIn fuel i)) fun sts =>
          some (if !validate || sts.all fun st => ok T (st.sched, []) then some sts else none)
  | _, _ => some none

end Sampo.GeneticFull
