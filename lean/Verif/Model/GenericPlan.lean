import Verif.Model.LFTPlan

/-!
# The teams which the generic scheduler (HEFT, topological) chooses (`sampo/scheduler/generic.py`)
-/

namespace Sampo.Generic

/-- What the generic scheduler is given besides graph and timeline: contractors, specifications and requirements of the works, the
resource optimizer, the independence flags and the start of the project.  The optimizer is any function of the state of the run, the
work and the contractor, so that it may ask the timeline for finish times (`ft_getter`, generic.py:77-79). -/
structure Setup (S : Type) where
  contractors : List Contractor
  spec : Nat → WorkSpec
  reqs : Nat → List WorkerReq
  opt : S → Nat → Contractor → Optimizer
  independent : Nat → Bool
  parentTime : Int

/-- `self.optimize_resources` (generic.py:74-104, 167-171): team and contractor for a work; `find` is the search of the timeline.
`none`: an exception, in particular `NoSufficientContractorError`. -/
def choose {S : Type} (G : Setup S) (find : S → Nat → List Worker → Option (Int × Int)) (st : S) (v : Nat) :
    Option (List Worker × Nat) :=
  match chooseTeam G.contractors G.parentTime (G.reqs v) (G.spec v) (G.opt st v) (fun _ team => find st v team) with
  | some (some r) => some (r.2.2.2, r.2.2.1.id)
  | _ => none

/-- What the search of the just-in-time timeline reports to the choice (generic.py:98-100): start and finish of a team.  A search
that does not end within the fuel counts as a failure.  Finish times are `Time`s, which end at infinity (time.py:19-28). -/
def askJIT {σ : Type} (E : Env σ) (G : Setup (JIT.State σ)) (fuel : Nat) (st : JIT.State σ) (v : Nat) (team : List Worker) :
    Option (Int × Int) :=
  match JIT.find E st v team (G.independent v) G.parentTime fuel with
  | some (some f) => some (f.1, mkTime f.2)
  | _ => none

/-- The inputs of `build_scheduler` (generic.py:133-190) on a just-in-time timeline, without assigned durations. -/
def planJIT {σ : Type} (E : Env σ) (G : Setup (JIT.State σ)) (fuel : Nat) : Plan (JIT.State σ) :=
  ⟨choose G (askJIT E G fuel), G.independent, fun _ => none, G.parentTime⟩

/-- The same report of the momentum timeline. -/
def askMomentum {σ : Type} (E : Env σ) (G : Setup (Momentum.State σ)) (inf : Int) (fuelIn fuel : Nat) (st : Momentum.State σ)
    (v : Nat) (team : List Worker) : Option (Int × Int) :=
  match Momentum.find E st v team (G.independent v) none G.parentTime inf fuelIn fuel with
  | some (some f) => some (f.start, mkTime f.finish)
  | _ => none

/-- The inputs of `build_scheduler` on a momentum timeline. -/
def planMomentum {σ : Type} (E : Env σ) (G : Setup (Momentum.State σ)) (inf : Int) (fuelIn fuel : Nat) : Plan (Momentum.State σ) :=
  ⟨choose G (askMomentum E G inf fuelIn fuel), G.independent, fun _ => none, G.parentTime⟩

end Sampo.Generic
