import Verif.Model.Decode
import Verif.Model.ZoneSite
import Verif.Model.MatSite

/-!
# Decoding chromosomes on a site with zones and supplied materials

`Model/Decode.lean` has the questions to materials and zones as fields of `Input`.  Here they are those of
`Model/SupplyQuery.lean` and `Model/Zone.lean`.
-/

namespace Sampo.Decode

variable {τ : Type}

/-- The questions of `can_schedule_at_the_moment` to the supply and to the zones (just_in_time_timeline.py:179-184).  Simplified:
where the question to the supply raises, the answer is no. -/
def onSite (B : Input (ZoneSite.State (MatSite.State τ))) (service : Nat → Bool) (land : Supply.Land) (needs : Nat → List Supply.Mat)
    (cfg : Zone.Config) (zones : Nat → List Zone.Req) : Input (ZoneSite.State (MatSite.State τ)) :=
  { B with
    matOk := fun s v t => Supply.canSchedule land s.mat.supply (MatSite.workOf service needs v) t == some true
    zoneOk := fun s v t exec => Zone.canSchedule cfg.costs s.zones (zones v) t exec }

end Sampo.Decode
