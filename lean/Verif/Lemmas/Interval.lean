import Verif.Model.Interval
import Mathlib.Tactic.Linarith
import Mathlib.Algebra.Order.Field.Basic

namespace Sampo.Intervals

theorem round_bounds (q : ℚ) : q - 1 / 2 ≤ Pipeline.roundHalfEven q ∧ (Pipeline.roundHalfEven q : ℚ) ≤ q + 1 / 2 := by
  have h1 := Int.floor_le q
  have h2 := Int.lt_floor_add_one q
  unfold Pipeline.roundHalfEven
  by_cases a : q - ⌊q⌋ < 1 / 2
  · rw [if_pos a]; constructor <;> linarith
  · rw [if_neg a]
    by_cases b : 1 / 2 < q - ⌊q⌋
    · rw [if_pos b]; push_cast; constructor <;> linarith
    · rw [if_neg b]
      by_cases c : ⌊q⌋ % 2 = 0
      · rw [if_pos c]; constructor <;> linarith
      · rw [if_neg c]; push_cast; constructor <;> linarith

theorem toInt_bounds (q : ℚ) : q - 1 < Pipeline.toInt q ∧ (Pipeline.toInt q : ℚ) < q + 1 := by
  unfold Pipeline.toInt
  by_cases h : 0 ≤ q
  · rw [if_pos h]
    exact ⟨by linarith [Int.lt_floor_add_one q], by linarith [Int.floor_le q]⟩
  · rw [if_neg h]
    exact ⟨by linarith [Int.le_ceil q], by linarith [Int.ceil_lt_add_one q]⟩

end Sampo.Intervals
