import Mathlib.Algebra.Order.Field.Basic
import Mathlib.Tactic.Linarith
import Mathlib.Tactic.NormNum
import Mathlib.Tactic.Positivity
import Verif.Model.Fitness
import Verif.Spec.Usage
import Verif.Props.C42_Usage

/-! # C64: fitness functions rank schedules as documented

Small values are better.  A schedule `a` is preferred to `b` by a fitness function if its value is smaller. -/

namespace Sampo.C64
open Usage Fitness

/-! ### Deadline -/

private theorem late_of_le {d : Int} (hd : 0 < d) {jobs : List Job} (h : done jobs ≤ d) : late d jobs = some 1 := by
  have hd' : (0 : ℚ) < d := by exact_mod_cast hd
  have h' : (done jobs : ℚ) ≤ d := by exact_mod_cast h
  unfold late
  rw [if_neg (by omega), max_eq_left]
  rw [div_le_one hd']
  exact h'

private theorem late_of_gt {d : Int} (hd : 0 < d) {jobs : List Job} (h : d < done jobs) :
    late d jobs = some ((done jobs : ℚ) / d) := by
  have hd' : (0 : ℚ) < d := by exact_mod_cast hd
  have h' : (d : ℚ) < done jobs := by exact_mod_cast h
  unfold late
  rw [if_neg (by omega), max_eq_right]
  rw [one_le_div hd']
  exact h'.le

/-- Of two schedules that meet the deadline, the one with the smaller sum of peaks is preferred; with the cost function, the
cheaper one. -/
theorem in_time_by_resources {d : Int} (hd : 0 < d) (names : Option (List Nat)) {a b : List Job} (ha : done a ≤ d)
    (hb : done b ≤ d) :
    (∃ x y, deadlinePeaks d names (some a) = some x ∧ deadlinePeaks d names (some b) = some y ∧
      (x < y ↔ peaksSum (done a) a names < peaksSum (done b) b names)) ∧
    ∃ x y, deadlineCost d names (some a) = some x ∧ deadlineCost d names (some b) = some y ∧
      (x < y ↔ costsSum a names < costsSum b names) := by
  simp only [deadlinePeaks, deadlineCost, late_of_le hd ha, late_of_le hd hb, Option.map_some, Option.some.injEq]
  constructor
  · exact ⟨_, _, rfl, rfl, by rw [mul_one, mul_one]; exact_mod_cast Iff.rfl⟩
  · exact ⟨_, _, rfl, rfl, by rw [mul_one, mul_one]; exact_mod_cast Iff.rfl⟩

/-- A schedule `a` that misses the deadline is preferred to a schedule `b` that meets it exactly if it saves resources by a larger
factor than it is late. -/
theorem late_preferred_iff {d : Int} (hd : 0 < d) (names : Option (List Nat)) {a b : List Job} (ha : d < done a)
    (hb : done b ≤ d) :
    (∃ x y, deadlinePeaks d names (some a) = some x ∧ deadlinePeaks d names (some b) = some y ∧
      (x < y ↔ peaksSum (done a) a names * done a < peaksSum (done b) b names * d)) ∧
    ∃ x y, deadlineCost d names (some a) = some x ∧ deadlineCost d names (some b) = some y ∧
      (x < y ↔ costsSum a names * done a < costsSum b names * d) := by
  have hd' : (0 : ℚ) < d := by exact_mod_cast hd
  have key : ∀ m n t : Int, ((m : ℚ) * (t / d) < n * 1 ↔ m * t < n * d) := by
    intro m n t
    rw [mul_one, ← mul_div_assoc, div_lt_iff₀ hd']
    exact_mod_cast Iff.rfl
  simp only [deadlinePeaks, deadlineCost, late_of_gt hd ha, late_of_le hd hb, Option.map_some, Option.some.injEq]
  exact ⟨⟨_, _, rfl, rfl, key _ _ _⟩, ⟨_, _, rfl, rfl, key _ _ _⟩⟩

/-- A schedule that meets the deadline is preferred to one that misses it and does not need fewer resources.  Missing: late schedules
that need fewer resources; they may be preferred (`late_preferred`). -/
theorem deadline_first_partial {d : Int} (hd : 0 < d) (names : Option (List Nat)) {a b : List Job} (ha : d < done a)
    (hb : done b ≤ d) :
    (0 < peaksSum (done a) a names → peaksSum (done b) b names ≤ peaksSum (done a) a names →
      ∃ x y, deadlinePeaks d names (some a) = some x ∧ deadlinePeaks d names (some b) = some y ∧ y < x) ∧
    (0 < costsSum a names → costsSum b names ≤ costsSum a names →
      ∃ x y, deadlineCost d names (some a) = some x ∧ deadlineCost d names (some b) = some y ∧ y < x) := by
  have hd' : (0 : ℚ) < d := by exact_mod_cast hd
  have ha' : (d : ℚ) < done a := by exact_mod_cast ha
  have key : ∀ m n : Int, 0 < m → n ≤ m → (n : ℚ) * 1 < m * (done a / d) := by
    intro m n hm hn
    have hm' : (0 : ℚ) < m := by exact_mod_cast hm
    have hn' : (n : ℚ) ≤ m := by exact_mod_cast hn
    have h1 : (1 : ℚ) < done a / d := by rw [one_lt_div hd']; exact ha'
    calc (n : ℚ) * 1 ≤ m * 1 := by linarith
      _ < m * (done a / d) := by exact (mul_lt_mul_iff_right₀ hm').mpr h1
  simp only [deadlinePeaks, deadlineCost, late_of_gt hd ha, late_of_le hd hb, Option.map_some, Option.some.injEq]
  exact ⟨fun h1 h2 => ⟨_, _, rfl, rfl, key _ _ h1 h2⟩, fun h1 h2 => ⟨_, _, rfl, rfl, key _ _ h1 h2⟩⟩

/-- One work with ten workers that takes 10, and one with six that takes 15. -/
private def quick : List Job := [⟨0, 10, [⟨0, 10, 10⟩]⟩]
private def slow : List Job := [⟨0, 15, [⟨0, 6, 10⟩]⟩]

example : done slow = 15 ∧ done quick = 10 ∧ peaksSum 15 slow none = 6 ∧ peaksSum 10 quick none = 10 := by decide

/-- Not proved because false: the functions "require the end time to meet the deadline", but with the deadline 10 the schedule that
ends at 15 is preferred to the one that ends at 10, because it needs six workers instead of ten. -/
theorem late_preferred : Sensible slow ∧ Sensible quick ∧ done quick ≤ 10 ∧ 10 < done slow ∧
    ∃ x y, deadlinePeaks 10 none (some slow) = some x ∧ deadlinePeaks 10 none (some quick) = some y ∧ x < y := by
  refine ⟨by decide, by decide, by decide, by decide, ?_⟩
  obtain ⟨x, y, h1, h2, h⟩ := (late_preferred_iff (d := 10) (by decide) none (a := slow) (b := quick) (by decide) (by decide)).1
  exact ⟨x, y, h1, h2, h.mpr (by decide)⟩

/-- A deadline of 0 makes both functions raise for every schedule. -/
theorem zero_deadline_fails (names : Option (List Nat)) (jobs : List Job) :
    deadlinePeaks 0 names (some jobs) = none ∧ deadlineCost 0 names (some jobs) = none := by
  simp [deadlinePeaks, deadlineCost, late]

/-! ### Chromosomes that are not correct -/

/-- A chromosome that is not correct is never preferred to a schedule by its time; nor by its peaks, or by time plus peaks, as long as
these sums stay below the value of `Time.inf()`.  In the two-objective function it is worse in both. -/
theorem incorrect_last (names : Option (List Nat)) {jobs : List Job} (h : done jobs < TIME_INF) :
    time (some jobs) < time none ∧
    (peaksSum (done jobs) jobs names < TIME_INF → peaks names (some jobs) < peaks names none ∧
      (timeAndPeaks names (some jobs)).1 < (timeAndPeaks names none).1 ∧
      (timeAndPeaks names (some jobs)).2 < (timeAndPeaks names none).2) ∧
    (done jobs + peaksSum (done jobs) jobs names < TIME_INF → timeWithPeaks names (some jobs) < timeWithPeaks names none) := by
  simp only [time, Fitness.peaks, timeAndPeaks, timeWithPeaks, failed]
  refine ⟨by exact_mod_cast h, fun h2 => ⟨by exact_mod_cast h2, by exact_mod_cast h, by exact_mod_cast h2⟩,
    fun h2 => by exact_mod_cast h2⟩

/-- With the cost function a chromosome that is not correct comes last exactly if the schedule costs less than the value of
`Time.inf()` (for a schedule that meets the deadline). -/
theorem incorrect_last_cost_iff {d : Int} (hd : 0 < d) (names : Option (List Nat)) {jobs : List Job} (h : done jobs ≤ d) :
    ∃ x y, deadlineCost d names (some jobs) = some x ∧ deadlineCost d names none = some y ∧
      (x < y ↔ costsSum jobs names < TIME_INF) := by
  simp only [deadlineCost, late_of_le hd h, Option.map_some, Option.some.injEq, failed]
  exact ⟨_, _, rfl, rfl, by rw [mul_one]; exact_mod_cast Iff.rfl⟩

/-- Ten workers at 300000 for 1000 units of time. -/
private def costly : List Job := [⟨0, 1000, [⟨0, 10, 300000⟩]⟩]

/-- Not proved because false: a chromosome that is not correct is preferred to a schedule that meets the deadline and costs more than
two billions. -/
theorem incorrect_preferred : Sensible costly ∧ done costly ≤ 1000 ∧ ∃ x y, deadlineCost 1000 none (some costly) = some x ∧
    deadlineCost 1000 none none = some y ∧ y < x := by
  refine ⟨by decide, by decide, ?_⟩
  simp only [deadlineCost, late_of_le (d := 1000) (by decide) (jobs := costly) (by decide), Option.map_some, Option.some.injEq,
    failed]
  refine ⟨_, _, rfl, rfl, ?_⟩
  rw [mul_one]
  exact_mod_cast (by decide : TIME_INF < costsSum costly none)

/-- The function for the sum of resources raises for every schedule with a worker. -/
theorem total_fails (names : Option (List Nat)) {jobs : List Job} (h : ∃ j ∈ jobs, j.workers ≠ []) :
    total names (some jobs) = none := by
  rw [total, C42.total_fails h names]
  rfl

end Sampo.C64
