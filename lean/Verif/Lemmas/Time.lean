import Verif.Model.Time

namespace Sampo

theorem mkTime_eq (v : Int) : mkTime v = max (-TIME_INF) (min TIME_INF v) := by
  unfold mkTime TIME_INF; split <;> (try split) <;> omega

theorem mkTime_isTime (v : Int) : IsTime (mkTime v) := by
  rw [mkTime_eq]; unfold IsTime TIME_INF; omega

theorem mkTime_of_isTime {v : Int} (h : IsTime v) : mkTime v = v := by
  rw [mkTime_eq]; unfold IsTime TIME_INF at *; omega

theorem mkTime_mono {a b : Int} (h : a ≤ b) : mkTime a ≤ mkTime b := by
  rw [mkTime_eq, mkTime_eq]; unfold TIME_INF; omega

theorem le_tAdd_of_nonneg {a b : Int} (ha : IsTime a) (hb : 0 ≤ b) : a ≤ tAdd a b := by
  unfold tAdd; rw [mkTime_eq]; unfold IsTime TIME_INF at *; omega

theorem tAdd_isTime (a b : Int) : IsTime (tAdd a b) := mkTime_isTime _

theorem tAdd_mono {a b c d : Int} (h : a ≤ b) (h' : c ≤ d) : tAdd a c ≤ tAdd b d :=
  mkTime_mono (by omega)

theorem tSub_isTime (a b : Int) : IsTime (tSub a b) := mkTime_isTime _

end Sampo
