import Verif.Spec.SearchFloat
import Mathlib.Tactic.Linarith
import Mathlib.Tactic.Ring
import Mathlib.Tactic.NormNum
import Mathlib.Algebra.Order.Archimedean.Basic
import Mathlib.Data.Rat.Floor

/-!
# C110: the search for the minimum of a function of one number

It ends for every function and positive tolerance, in the interval, close to the minimum if there is only one; it does not end if the
tolerance is 0.
-/

namespace Sampo.C110
open Search

variable {f : ℚ → ℚ} {eps : ℚ}

/-- More fuel does not change the answer. -/
private theorem mono {n m : Nat} (h : n ≤ m) : ∀ {down up r : ℚ}, dichotomyFloat f eps n down up = some r →
    dichotomyFloat f eps m down up = some r := by
  induction n generalizing m with
  | zero => intro down up r hr; cases hr
  | succ n ih =>
    intro down up r hr
    obtain ⟨m, rfl⟩ : ∃ k, m = k + 1 := ⟨m - 1, by omega⟩
    rw [dichotomyFloat] at hr ⊢
    dsimp only at hr ⊢
    split
    · rename_i hc
      rw [if_pos hc] at hr
      split
      · rename_i hf; rw [if_pos hf] at hr; exact ih (by omega) hr
      · rename_i hf; rw [if_neg hf] at hr; exact ih (by omega) hr
    · rename_i hc
      rw [if_neg hc] at hr
      exact hr

/-- The search ends after at most `n` halvings of an interval that is `2 ^ n` times as long as the tolerance, whatever the function, and
its answer is in the interval, no closer to the upper end than to an end point of the last interval. -/
private theorem ends (heps : 0 < eps) : ∀ (n : Nat) (down up : ℚ), up - down ≤ eps / 2 * 2 ^ n + eps / 2 →
    ∃ r, dichotomyFloat f eps (n + 1) down up = some r ∧ down ≤ r ∧ (down ≤ up → r ≤ up) := by
  intro n
  induction n with
  | zero =>
    intro down up h
    refine ⟨down, ?_, le_refl _, fun h => h⟩
    rw [dichotomyFloat, if_neg (by rw [pow_zero] at h; linarith)]
  | succ n ih =>
    intro down up h
    rw [dichotomyFloat]
    dsimp only
    split
    · rename_i hc
      rw [pow_succ] at h
      split
      · obtain ⟨r, h1, h2, h3⟩ := ih down ((down + up + eps / 5) / 2) (by linarith)
        exact ⟨r, h1, h2, fun _ => le_trans (h3 (by linarith)) (by linarith)⟩
      · obtain ⟨r, h1, h2, h3⟩ := ih ((down + up - eps / 5) / 2) up (by linarith)
        exact ⟨r, h1, by linarith, fun _ => h3 (by linarith)⟩
    · exact ⟨down, rfl, le_refl _, fun h => h⟩

/-- With a positive tolerance the search ends for every function, and the answer is in the interval. -/
theorem search_ends (f : ℚ → ℚ) (heps : 0 < eps) {down up : ℚ} (h : down ≤ up) :
    ∃ N r, (∀ fuel, N ≤ fuel → dichotomyFloat f eps fuel down up = some r) ∧ down ≤ r ∧ r ≤ up := by
  obtain ⟨n, hn⟩ := pow_unbounded_of_one_lt ((up - down) / (eps / 2)) (show (1 : ℚ) < 2 by norm_num)
  have : up - down ≤ eps / 2 * 2 ^ n + eps / 2 := by
    rw [div_lt_iff₀ (by linarith)] at hn
    linarith
  obtain ⟨r, h1, h2, h3⟩ := ends (f := f) heps n down up this
  exact ⟨n + 1, r, fun fuel hf => mono hf h1, h2, h3 h⟩

/-- The number of rounds: an interval of `2 ^ n` half tolerances is searched in `n` rounds. -/
theorem search_rounds (f : ℚ → ℚ) (heps : 0 < eps) {down up : ℚ} (n : Nat) (h : up - down ≤ eps / 2 * 2 ^ n) :
    dichotomyFloat f eps (n + 1) down up ≠ none := by
  obtain ⟨r, h1, -⟩ := ends (f := f) heps n down up (by linarith)
  rw [h1]
  exact Option.some_ne_none _

/-- If the function falls until `m` and rises from there, the answer is at most the tolerance below `m`, and never above it. -/
theorem finds_minimum (heps : 0 < eps) {down up m r : ℚ} (hf : OneMinimum f down up m) {fuel : Nat}
    (h : dichotomyFloat f eps fuel down up = some r) : m - eps ≤ r ∧ r ≤ m := by
  induction fuel generalizing down up with
  | zero => cases h
  | succ n ih =>
    rw [dichotomyFloat] at h
    dsimp only at h
    split at h
    · rename_i hc
      split at h
      · rename_i hlt
        have hm : m ≤ (down + up + eps / 5) / 2 := by
          by_contra hn
          push Not at hn
          have := hf.falls ((down + up - eps / 5) / 2) ((down + up + eps / 5) / 2) (by linarith) (by linarith) hn.le
          linarith
        exact ih ⟨hf.lo, hm, hf.falls, fun x y hx hxy hy => hf.rises x y hx hxy (by linarith)⟩ h
      · rename_i hge
        have hm : (down + up - eps / 5) / 2 ≤ m := by
          by_contra hn
          push Not at hn
          exact hge (hf.rises ((down + up - eps / 5) / 2) ((down + up + eps / 5) / 2) hn.le (by linarith) (by linarith))
        exact ih ⟨hm, hf.hi, fun x y hx hxy hy => hf.falls x y (by linarith) hxy hy, hf.rises⟩ h
    · rename_i hc
      rw [Option.some.injEq] at h
      subst h
      push Not at hc
      exact ⟨by linarith [hf.hi], hf.lo⟩

/-- Every point at which the function is asked for is in the interval: two functions that agree there get the same answer. -/
theorem asks_inside {g : ℚ → ℚ} (heps : 0 < eps) {down up : ℚ} (hfg : ∀ x, down ≤ x → x ≤ up → f x = g x) (fuel : Nat) :
    dichotomyFloat f eps fuel down up = dichotomyFloat g eps fuel down up := by
  induction fuel generalizing down up with
  | zero => rfl
  | succ n ih =>
    rw [dichotomyFloat, dichotomyFloat]
    dsimp only
    split
    · rename_i hc
      rw [hfg _ (by linarith) (by linarith), hfg _ (by linarith) (by linarith)]
      split
      · exact ih fun x h1 h2 => hfg x h1 (by linarith)
      · exact ih fun x h1 h2 => hfg x (by linarith) h2
    · rfl

-- a parabola with its minimum at 3
private theorem parabola : OneMinimum (fun x => (x - 3) * (x - 3)) 0 10 3 := by
  refine ⟨by norm_num, by norm_num, fun x y _ hxy hy => ?_, fun x y hx hxy _ => ?_⟩ <;> nlinarith

example : ∃ N r, (∀ fuel, N ≤ fuel → dichotomyFloat (fun x => (x - 3) * (x - 3)) (1 / 1000000) fuel 0 10 = some r) ∧
    3 - 1 / 1000000 ≤ r ∧ r ≤ 3 := by
  obtain ⟨N, r, h, -⟩ := search_ends (fun x => (x - 3) * (x - 3)) (show (0 : ℚ) < 1 / 1000000 by norm_num) (show (0 : ℚ) ≤ 10 by norm_num)
  exact ⟨N, r, h, finds_minimum (by norm_num) parabola (h N (Nat.le_refl _))⟩

/-- Not proved because false: "the search ends for every tolerance".  With tolerance 0 it never does, whatever the function. -/
theorem no_tolerance_no_end (f : ℚ → ℚ) {down up : ℚ} (h : down < up) (fuel : Nat) : dichotomyFloat f 0 fuel down up = none := by
  induction fuel generalizing down up with
  | zero => rfl
  | succ n ih =>
    rw [dichotomyFloat]
    dsimp only
    rw [if_pos (by linarith)]
    split
    · exact ih (by linarith)
    · exact ih (by linarith)

/-- Not proved because false: "a function that only does not rise before its minimum and does not fall after it is enough".  This function
rises from 0 to 1 and is constant from there; between 0 and 10 its minimum is at 0, but the search goes to the other end. -/
theorem constant_part_misleads : (∀ x y : ℚ, 0 ≤ x → x ≤ y → min x 1 ≤ min y 1) ∧
    ∃ r, dichotomyFloat (fun x => min x 1) 1 10 0 10 = some r ∧ 9 ≤ r := by
  refine ⟨fun x y _ h => min_le_min_right 1 h, ?_⟩
  have h : (dichotomyFloat (fun x => min x 1) 1 10 0 10).any (fun r => decide (9 ≤ r)) = true := by decide +kernel
  cases hr : dichotomyFloat (fun x => min x 1) 1 10 0 10 with
  | none => rw [hr] at h; cases h
  | some r => rw [hr] at h; exact ⟨r, rfl, by simpa using h⟩

end Sampo.C110
