import Verif.Lemmas.Interval
import Mathlib.Tactic.Linarith
import Mathlib.Tactic.Positivity
import Mathlib.Tactic.FieldSimp
import Mathlib.Tactic.Ring
import Mathlib.Algebra.Order.Field.Basic

/-!
# C75: random values from intervals
-/

namespace Sampo.C75

open Intervals Synthetic

/-- A random value of a uniform interval lies in it. -/
theorem uniform_inside {lo hi u : ℚ} (h : lo ≤ hi) (h0 : 0 ≤ u) (h1 : u ≤ 1) : lo ≤ uniform lo hi u ∧ uniform lo hi u ≤ hi := by
  unfold uniform
  constructor <;> nlinarith

private theorem uniformInt_eq {lo hi u : ℚ} (h : lo ≤ hi) (h0 : 0 ≤ u) (h1 : u ≤ 1) :
    uniformInt lo hi u = Pipeline.roundHalfEven (uniform lo hi u) := by
  obtain ⟨a, b⟩ := uniform_inside h h0 h1
  obtain ⟨c, d⟩ := round_bounds (uniform lo hi u)
  have e := (toInt_bounds (lo - 100000)).2
  have f := (toInt_bounds (hi + 100000)).1
  have g1 : Pipeline.toInt (lo - 100000) ≤ Pipeline.roundHalfEven (uniform lo hi u) := by
    have : (Pipeline.toInt (lo - 100000) : ℚ) ≤ Pipeline.roundHalfEven (uniform lo hi u) := by linarith
    exact_mod_cast this
  have g2 : Pipeline.roundHalfEven (uniform lo hi u) ≤ Pipeline.toInt (hi + 100000) := by
    have : (Pipeline.roundHalfEven (uniform lo hi u) : ℚ) ≤ Pipeline.toInt (hi + 100000) := by linarith
    exact_mod_cast this
  unfold uniformInt
  omega

/-- Partial: a random integer of a uniform interval with integer borders lies in it; with any borders it is at most a half outside
(`uniform_int_outside`). -/
theorem uniform_int_partial {lo hi u : ℚ} (h : lo ≤ hi) (h0 : 0 ≤ u) (h1 : u ≤ 1) :
    (∀ a b : Int, lo = a → hi = b → a ≤ uniformInt lo hi u ∧ uniformInt lo hi u ≤ b) ∧
    lo - 1 / 2 ≤ uniformInt lo hi u ∧ (uniformInt lo hi u : ℚ) ≤ hi + 1 / 2 := by
  rw [uniformInt_eq h h0 h1]
  obtain ⟨a, b⟩ := uniform_inside h h0 h1
  obtain ⟨c, d⟩ := round_bounds (uniform lo hi u)
  refine ⟨fun x y hx hy => ?_, by linarith, by linarith⟩
  have h2 : (x : ℚ) - 1 < Pipeline.roundHalfEven (uniform lo hi u) := by linarith [hx]
  have h3 : (Pipeline.roundHalfEven (uniform lo hi u) : ℚ) < y + 1 := by linarith [hy]
  have h2' : x - 1 < Pipeline.roundHalfEven (uniform lo hi u) := by exact_mod_cast h2
  have h3' : Pipeline.roundHalfEven (uniform lo hi u) < y + 1 := by exact_mod_cast h3
  omega

private theorem round_int (k : Int) : Pipeline.roundHalfEven k = k := by
  unfold Pipeline.roundHalfEven
  rw [Int.floor_intCast, sub_self, if_pos (by norm_num)]

/-- Every integer of a uniform interval but its right border is taken for some random number. -/
theorem uniform_int_all {lo hi : ℚ} {k : Int} (hlo : lo ≤ k) (hhi : (k : ℚ) < hi) : ∃ u, 0 ≤ u ∧ u < 1 ∧ uniformInt lo hi u = k := by
  have hpos : 0 < hi - lo := by linarith
  refine ⟨(k - lo) / (hi - lo), div_nonneg (by linarith) (le_of_lt hpos), (div_lt_one hpos).2 (by linarith), ?_⟩
  rw [uniformInt_eq (by linarith) (div_nonneg (by linarith) (le_of_lt hpos)) (le_of_lt ((div_lt_one hpos).2 (by linarith)))]
  have : uniform lo hi ((k - lo) / (hi - lo)) = k := by
    unfold uniform
    rw [mul_div_cancel₀ _ (ne_of_gt hpos)]
    ring
  rw [this, round_int]

/-- Not proved because false: "a random integer of an interval lies in it".  From 0.5 to 3 it can be 0. -/
theorem uniform_int_outside : uniformInt (1 / 2) 3 0 = 0 := by decide +kernel

/-- A random value of a Gaussian interval lies in it, and is the drawn one if that does. -/
theorem gaussian_inside (i : Gaussian) (h : i.lo ≤ i.hi) (z : ℚ) : i.lo ≤ i.float z ∧ i.float z ≤ i.hi ∧
    (i.lo ≤ fin (i.mean + z * i.sigma) → fin (i.mean + z * i.sigma) ≤ i.hi → i.float z = fin (i.mean + z * i.sigma)) := by
  unfold Gaussian.float
  refine ⟨le_min (le_max_right _ _) h, min_le_right _ _, fun h1 h2 => ?_⟩
  rw [max_eq_left h1, min_eq_left h2]

/-- With the borders in the wrong order every random value is the right border: 0 for the default productivity of workers. -/
theorem gaussian_swapped (i : Gaussian) (h : i.hi ≤ i.lo) (z : ℚ) : i.float z = i.hi := by
  unfold Gaussian.float
  exact min_eq_right (h.trans (le_max_right _ _))

/-- Not proved because false: "a Gaussian interval has random integers".  With an infinite border, as by default, the call raises, whatever
is drawn; and only then. -/
theorem gaussian_int_raises (i : Gaussian) (z : ℚ) : i.int z = none ↔ ¬ ((∃ lo, i.lo = fin lo) ∧ ∃ hi, i.hi = fin hi) := by
  obtain ⟨m, s, lo, hi⟩ := i
  unfold Gaussian.int
  match lo, hi with
  | none, _ => exact ⟨fun _ h => (by obtain ⟨⟨q, hq⟩, -⟩ := h; exact nomatch hq), fun _ => rfl⟩
  | some none, _ => exact ⟨fun _ h => (by obtain ⟨⟨q, hq⟩, -⟩ := h; exact nomatch hq), fun _ => rfl⟩
  | some (some a), none => exact ⟨fun _ h => (by obtain ⟨-, ⟨q, hq⟩⟩ := h; exact nomatch hq), fun _ => rfl⟩
  | some (some a), some none => exact ⟨fun _ h => (by obtain ⟨-, ⟨q, hq⟩⟩ := h; exact nomatch hq), fun _ => rfl⟩
  | some (some a), some (some b) => exact ⟨nofun, fun h => absurd ⟨⟨a, rfl⟩, ⟨b, rfl⟩⟩ h⟩

/-- Partial: a random integer of a Gaussian interval with finite borders is the drawn number, rounded, unless that is more than 99998
outside; it is never more than 100001 outside. -/
theorem gaussian_int_partial {mean sigma lo hi z : ℚ} (h : lo ≤ hi) : ∃ v : Int, Gaussian.int ⟨mean, sigma, fin lo, fin hi⟩ z = some v ∧
    lo - 100001 < v ∧ (v : ℚ) < hi + 100001 ∧
    (lo - 99998 ≤ mean + z * sigma → mean + z * sigma ≤ hi + 99998 → |mean + z * sigma - v| ≤ 1 / 2) := by
  refine ⟨_, rfl, ?_⟩
  have e := toInt_bounds (lo + -100000)
  have f := toInt_bounds (hi + 100000)
  obtain ⟨c, d⟩ := round_bounds (mean + z * sigma)
  generalize hr : Pipeline.roundHalfEven (mean + z * sigma) = r at c d ⊢
  generalize hx : Pipeline.toInt (lo + -100000) = x at e ⊢
  generalize hy : Pipeline.toInt (hi + 100000) = y at f ⊢
  push_cast
  refine ⟨lt_min (lt_max_of_lt_right (by linarith)) (by linarith), min_lt_of_right_lt (by linarith), fun h1 h2 => ?_⟩
  rw [max_eq_left (by linarith), min_eq_left (by linarith), abs_le]
  constructor <;> linarith

/-- Not proved because false: "a random integer of a Gaussian interval lies in it". -/
theorem gaussian_int_outside : Gaussian.int ⟨6, 3 / 10, fin 6, fin 6⟩ (-2) = some 5 ∧ Gaussian.int ⟨6, 3 / 10, fin 6, fin 6⟩ 2 = some 7 := by
  decide +kernel

-- the interval of pipe lengths, and a Gaussian one
example : (1 / 2 : ℚ) ≤ 3 ∧ uniform (1 / 2) 3 (1 / 5) = 1 ∧ uniformInt (1 / 2) 3 (1 / 5) = 1 := by decide +kernel
example : fin (1 / 10) ≤ fin 10 ∧ Gaussian.float ⟨5, 2, fin (1 / 10), fin 10⟩ 1 = fin 7 ∧
    Gaussian.float ⟨5, 2, fin (1 / 10), fin 10⟩ (-4) = fin (1 / 10) ∧ Gaussian.float ⟨1, 1 / 5, fin 1, fin 0⟩ 3 = fin 0 := by
  refine ⟨by decide +kernel, by decide +kernel, by decide +kernel, by decide +kernel⟩

end Sampo.C75
