import Verif.Model.Session

/-!
# What the settings of a pipeline are after some calls
-/

namespace Sampo.Session
open Pipeline

variable {γ σ ω α S L E : Type}

/-- The value set last, or the default. -/
def latest {κ β : Type} (sets : κ → Option β) (default : β) (calls : List κ) : β := ((calls.filterMap sets).getLast?).getD default

/-- The settings among the steps of a session, in order. -/
def settings (h : List (Step γ σ ω α S L E)) : List (Call γ ω α S L E) :=
  h.filterMap fun s => match s with | .set c => some c | .schedule _ => none

def Call.wg? : Call γ ω α S L E → Option (Option γ) | .wg g => some (some g) | _ => none
def Call.contractors? : Call γ ω α S L E → Option Given | .contractors c => some c | _ => none
def Call.landscape? : Call γ ω α S L E → Option L | .landscape l => some l | _ => none
def Call.spec? : Call γ ω α S L E → Option S | .spec s => some s | _ => none
def Call.timeShift? : Call γ ω α S L E → Option Int | .timeShift t => some t | _ => none
def Call.lag? : Call γ ω α S L E → Option Lag | .lagOptimize l => some l | _ => none
def Call.optimizer? : Call γ ω α S L E → Option α | .optimizeLocal a => some a | _ => none

/-- What scheduling means for these calls on a new pipeline: the graph set last is scheduled by this scheduler, with the contractors, the
specification, the landscape, the shift and the lag option set last (or the defaults) and all optimizers in the order in which they were added. -/
def intended (reqsOf : γ → List (List WorkerReq)) (restructure : γ → Bool → Option γ) (spec : S) (landscape : L)
    (calls : List (Call γ ω α S L E)) (m : Method γ σ ω α S L) : Outcome γ σ ω :=
  match latest Call.wg? none calls with
  | none => .error
  | some g => Pipeline.schedule reqsOf restructure
      (m ⟨latest Call.spec? spec calls, latest Call.landscape? landscape calls, latest Call.timeShift? 0 calls, calls.filterMap Call.optimizer?⟩)
      g (latest Call.contractors? (.generate .avg 1 1) calls) (latest Call.lag? .off calls)

end Sampo.Session
