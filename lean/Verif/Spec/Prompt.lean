import Verif.Model.SupplyQuery
import Verif.Spec.Supply

/-!
# Specification: materials that are there in time
-/

namespace Sampo.Supply

/-- The materials of work `v` were there at the very moment for which they were ordered - or asking for that moment raises an
exception (which the search would have done as well). -/
def Prompt (land : Land) (log : List Served) (v : Nat) : Prop :=
  ∃ later s earlier, log = later ++ s :: earlier ∧ s.work.id = v ∧
    (s.time = s.deadline ∨ ∃ st, History land st earlier ∧ findMin land st s.work s.deadline = none)

end Sampo.Supply
