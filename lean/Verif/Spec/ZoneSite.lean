import Verif.Model.Zone
import Verif.Spec.Sched

/-!
# Specification vocabulary: zones in a schedule
-/

namespace Sampo

/-- Two lists of requirements that cannot be met at the same time: some zone is needed in different statuses, none of which is 0
("not stated"). -/
def Zone.Incompatible (a b : List Zone.Req) : Prop :=
  ∃ q ∈ a, ∃ r ∈ b, q.zone = r.zone ∧ q.status ≠ 0 ∧ r.status ≠ 0 ∧ q.status ≠ r.status

/-- At some moment both works are being done. -/
def SWork.Together (x y : SWork) : Prop := ∃ t, x.start ≤ t ∧ t < x.finish ∧ y.start ≤ t ∧ t < y.finish

/-- Materials never ask for a later start, and their bookkeeping never fails. -/
structure NoMaterialLimits {σ : Type} (E : Env σ) : Prop where
  material : ∀ s v t, E.matTime s v t ≤ t
  deliver : ∀ s v t, ∃ s' t', E.deliver s v t = some (s', t') ∧ t' ≤ t

/-- The zones of a landscape can be used freely: changes of status cost nothing and no final statuses are set (they make every
scheduler fail, C40); every work needs each zone at most once, and all zones exist. -/
structure Zone.Usable (cfg : Zone.Config) (reqs : Nat → List Zone.Req) : Prop where
  free : ∀ a b, cfg.costs a b = 0
  final : cfg.endStatuses = []
  once : ∀ v, ((reqs v).map (·.zone)).Nodup
  known : ∀ v, ∀ q ∈ reqs v, cfg.startStatuses q.zone ≠ none

end Sampo
