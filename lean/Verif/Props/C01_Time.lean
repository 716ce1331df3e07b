import Verif.Lemmas.Time
import Mathlib.Tactic.Linarith

/-! # C01: time arithmetic saturates and never leaves its range -/

namespace Sampo.C01

/-- Every constructed time lies in `[-2*10^9, 2*10^9]`. -/
theorem construct_in_range (v : Int) : -2000000000 ≤ mkTime v ∧ mkTime v ≤ 2000000000 :=
  mkTime_isTime v

/-- Every result of `+`, `-`, `*` and (when the divisor is not zero) `//` lies in the range. -/
theorem operators_in_range (a b : Int) :
    (-2000000000 ≤ tAdd a b ∧ tAdd a b ≤ 2000000000) ∧
    (-2000000000 ≤ tSub a b ∧ tSub a b ≤ 2000000000) ∧
    (-2000000000 ≤ tMul a b ∧ tMul a b ≤ 2000000000) ∧
    (∀ q, tFloorDiv a b = some q → -2000000000 ≤ q ∧ q ≤ 2000000000) := by
  refine ⟨mkTime_isTime _, mkTime_isTime _, mkTime_isTime _, ?_⟩
  intro q h
  unfold tFloorDiv at h
  split at h
  · cases h
  · cases h; exact mkTime_isTime _

/-- Within the range the constructor is the identity, outside it returns the nearest border. -/
theorem construct_exact (v : Int) :
    (-2000000000 ≤ v → v ≤ 2000000000 → mkTime v = v) ∧
    (2000000000 < v → mkTime v = 2000000000) ∧
    (v < -2000000000 → mkTime v = -2000000000) := by
  rw [mkTime_eq]; unfold TIME_INF; omega

/-- The operators agree with integer arithmetic whenever the exact result is in range. -/
theorem operators_exact (a b : Int) :
    (-2000000000 ≤ a + b → a + b ≤ 2000000000 → tAdd a b = a + b) ∧
    (-2000000000 ≤ a - b → a - b ≤ 2000000000 → tSub a b = a - b) ∧
    (-2000000000 ≤ a * b → a * b ≤ 2000000000 → tMul a b = a * b) ∧
    (b ≠ 0 → -2000000000 ≤ Int.fdiv a b → Int.fdiv a b ≤ 2000000000 → tFloorDiv a b = some (Int.fdiv a b)) := by
  refine ⟨fun h h' => mkTime_of_isTime ⟨h, h'⟩, fun h h' => mkTime_of_isTime ⟨h, h'⟩,
    fun h h' => mkTime_of_isTime ⟨h, h'⟩, ?_⟩
  intro hb h h'
  unfold tFloorDiv
  rw [if_neg hb, mkTime_of_isTime ⟨h, h'⟩]

private theorem fdiv_bound {a b M : Int} (h : -M ≤ a ∧ a ≤ M) (hb : 0 < b) :
    -M ≤ Int.fdiv a b ∧ Int.fdiv a b ≤ M := by
  have hlt : Int.fdiv a b * b + Int.fmod a b = a := Int.fdiv_mul_add_fmod a b
  have h1 : 0 ≤ Int.fmod a b := Int.fmod_nonneg_of_pos _ hb
  have h2 : Int.fmod a b < b := Int.fmod_lt_of_pos _ hb
  generalize Int.fdiv a b = q at *
  generalize Int.fmod a b = r at *
  constructor
  · exact Int.not_lt.mp fun hq => by nlinarith
  · exact Int.not_lt.mp fun hq => by nlinarith

/-- Floor division of two times is the exact floor division (the quotient is always in range); division by zero is
an error. -/
theorem floordiv_exact_or_error (a b : Int) (ha : IsTime a) :
    (b = 0 → tFloorDiv a b = none) ∧ (b ≠ 0 → tFloorDiv a b = some (Int.fdiv a b)) := by
  refine ⟨fun h => by simp [tFloorDiv, h], fun h => ?_⟩
  have hb : -TIME_INF ≤ Int.fdiv a b ∧ Int.fdiv a b ≤ TIME_INF := by
    rcases Int.lt_or_gt_of_ne h with hb | hb
    · rw [← Int.neg_fdiv_neg]
      unfold IsTime at ha
      exact fdiv_bound (by omega) (by omega)
    · exact fdiv_bound ha hb
  exact (operators_exact a b).2.2.2 h hb.1 hb.2

/-- `+` is monotone in both arguments, `-` is monotone in the first and antitone in the second. -/
theorem operators_monotone (a a' b b' : Int) (h : a ≤ a') (hb : b ≤ b') :
    tAdd a b ≤ tAdd a' b' ∧ tSub a b' ≤ tSub a' b :=
  ⟨mkTime_mono (by omega), mkTime_mono (by omega)⟩

/-- Adding a non-negative duration never moves a time backwards and keeps infinity infinite. -/
theorem add_nonneg_duration (t d : Int) (ht : IsTime t) (hd : 0 ≤ d) :
    t ≤ tAdd t d ∧ tAdd timeInf d = timeInf ∧ tIsInf (tAdd timeInf d) = true := by
  have h : tAdd timeInf d = timeInf := by
    unfold tAdd timeInf; rw [mkTime_eq, mkTime_eq]; unfold TIME_INF; omega
  exact ⟨le_tAdd_of_nonneg ht hd, h, by rw [h]; decide⟩

/-- `is_inf` holds exactly for the two borders of the range. -/
theorem is_inf_iff (t : Int) : tIsInf t = true ↔ t = 2000000000 ∨ t = -2000000000 := by
  unfold tIsInf TIME_INF
  simp only [beq_iff_eq]
  omega

/-- Addition of non-negative durations is associative even across saturation. -/
theorem add_assoc_nonneg (t d e : Int) (ht : 0 ≤ t) (hd : 0 ≤ d) (he : 0 ≤ e) :
    tAdd (tAdd t d) e = tAdd t (d + e) := by
  unfold tAdd; simp only [mkTime_eq]; unfold TIME_INF; omega

-- hypotheses are satisfiable, at and beyond the border
example : IsTime 1999999999 ∧ tAdd 1999999999 5 = timeInf ∧ tSub (-1999999999) 5 = -2000000000 := by decide
example : tAdd (tAdd 1999999990 7) 8 = tAdd 1999999990 (7 + 8) ∧ tFloorDiv (-7) 2 = some (-4) := by decide
-- saturation is real: without the sign condition addition is not associative
example : tAdd (tAdd 1999999999 5) (-5) ≠ tAdd 1999999999 (5 + -5) := by decide

end Sampo.C01
