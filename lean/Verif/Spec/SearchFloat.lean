import Verif.Model.SearchFloat

/-! Specification: functions with one minimum. -/

namespace Sampo.Search

/-- Between `a` and `b` the function falls strictly until `m` and rises strictly from there. -/
structure OneMinimum (f : ℚ → ℚ) (a b m : ℚ) : Prop where
  lo : a ≤ m
  hi : m ≤ b
  falls : ∀ x y, a ≤ x → x < y → y ≤ m → f y < f x
  rises : ∀ x y, m ≤ x → x < y → y ≤ b → f x < f y

end Sampo.Search
