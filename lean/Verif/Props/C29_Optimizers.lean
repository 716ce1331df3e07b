import Verif.Lemmas.Optimize

/-! # C29: resource optimizers stay within borders -/

namespace Sampo.C29
open Sampo.Optimize

/-- Dichotomy returns a number between its borders, for every function. -/
theorem dichotomy_within_borders (f : Int → Int) (down up : Int) (h : down ≤ up) :
    down ≤ dichotomyInt down up f ∧ dichotomyInt down up f ≤ up :=
  dichotomyInt_within down up f h

/-- On a strictly unimodal function dichotomy ends at most one step from the minimum. -/
theorem dichotomy_near_minimum (f : Int → Int) (down up m : Int) (h : Unimodal f down up m) :
    dichotomyInt down up f - 1 ≤ m ∧ m ≤ dichotomyInt down up f + 1 :=
  dichotomyLoop_unimodal f m _ down up (Nat.le_refl _) h

/-- Coordinate descent with dichotomy: without fixed counts it succeeds with counts between the borders, for every finish
time function; with fixed counts it can only end with counts between the borders too. -/
theorem coordinate_descent_within_borders (fitness : List Int → Int) (down up team : List Int) (ho : Ordered down up)
    (hlen : team.length = down.length) :
    (∃ r, descentOptimize dichotomyInt fitness none down up team = some r) ∧
    ∀ arr : Option (List Bool), (∀ l, arr = some l → l.length = team.length) →
      ∀ r, descentOptimize dichotomyInt fitness arr down up team = some r → Within down up r :=
  ⟨Option.isSome_iff_exists.mp descentOptimize_none_arr,
    fun _ harr _ h => descentOptimize_within dichotomyInt_within ho hlen harr h⟩

/-- Full scan likewise; in particular its diagonal search always ends. -/
theorem full_scan_within_borders (fitness : List Int → Int) (down up team : List Int) (ho : Ordered down up)
    (hlen : team.length = down.length) :
    (∃ r, fullScan fitness none down up team = some r) ∧
    ∀ arr : Option (List Bool), (∀ l, arr = some l → l.length = team.length) →
      ∀ r, fullScan fitness arr down up team = some r → Within down up r := by
  obtain ⟨mid, up', h1, h2, h3, h4⟩ := scan_spec fitness (fitness down) (fitness up) ho
  unfold fullScan
  rw [h1]
  refine ⟨Option.isSome_iff_exists.mp descentOptimize_none_arr, ?_⟩
  intro arr harr r h
  have hl : team.length = mid.length := by have := h2.length; omega
  exact Within.mono h2 h3 (descentOptimize_within dichotomyInt_within h4 hl harr h)

/-- Average-requirement optimization with coefficient `k = kn / kd ≥ 1` and non-negative lower borders. -/
theorem average_within_borders (kn kd : Int) (hk : 0 < kd) (hkk : kd ≤ kn) (down up team : List Int)
    (hd : ∀ d ∈ down, 0 ≤ d) (ho : Ordered down up) (hlen : team.length = down.length) :
    (∃ r, averageReq kn kd none down up team = some r) ∧
    ∀ arr : Option (List Bool), (∀ l, arr = some l → l.length = team.length) →
      ∀ r, averageReq kn kd arr down up team = some r → Within down up r := by
  refine ⟨⟨_, rfl⟩, ?_⟩
  intro arr harr r h
  simp only [averageReq, Option.bind_eq_some_iff, Option.some.injEq] at h
  obtain ⟨t, h2, rfl⟩ := h
  have hw := average_within hk hkk hd ho
  rw [writeBack_eq h2 (by have := hw.length; omega) harr]
  exact hw

/-- `k = 1` takes the largest allowed team, and a `k` above every distance the smallest one. -/
theorem average_extremes (down up team : List Int) (hd : ∀ d ∈ down, 0 ≤ d) (ho : Ordered down up) (k : Int)
    (hbig : ∀ u ∈ up, u < k) :
    averageReq 1 1 none down up team = some up ∧ averageReq k 1 none down up team = some down := by
  unfold Ordered at ho
  have : List.zipWith (averageCount 1 1) down up = up ∧ List.zipWith (averageCount k 1) down up = down := by
    induction down generalizing up with
    | nil => cases up <;> simp_all [Within]
    | cons a d ih =>
      cases up with
      | nil => simp [Within] at ho
      | cons b u =>
        simp only [Within] at ho
        obtain ⟨h1, h2⟩ := ih u (fun x hx => hd x (by simp [hx])) ho.2.2 (fun x hx => hbig x (by simp [hx]))
        have ha := hd a (by simp)
        have hb := hbig b (by simp)
        simp only [List.zipWith_cons_cons, List.cons.injEq]
        refine ⟨⟨?_, h1⟩, ?_, h2⟩
        · simp only [averageCount, Int.mul_one, Int.tdiv_one]; omega
        · simp only [averageCount, Int.mul_one]
          rw [Int.tdiv_eq_ediv_of_nonneg (by omega), Int.ediv_eq_zero_of_lt (by omega) (by omega)]
          omega
  simp [averageReq, npTruth, writeBack, this.1, this.2]

/-- Not proved because false: the optimizers do not always return a minimizer.  With one worker type, borders 1 and 3 and
a finish time that falls with each worker, full scan and dichotomy stop at 2 workers although 3 finish earlier. -/
theorem optimum_can_be_missed :
    fullScan (fun c => 10 - c.sum) none [1] [3] [5] = some [2] ∧ dichotomyInt 1 3 (fun x => 10 - x) = 2 ∧
    Within [1] [3] [3] ∧ (10 - [(3 : Int)].sum) < 10 - [(2 : Int)].sum := by
  decide

/-- Not proved because false: with two or more worker types of which some are fixed by the specification, every optimizer
fails (numpy refuses the truth value of the array), whatever the borders. -/
theorem partly_fixed_team_fails (fitness : List Int → Int) (down up team : List Int) (ho : Ordered down up)
    (hlen : team.length = down.length) (a b : Bool) (l : List Bool) (harr : (a :: b :: l).length = team.length) :
    descentOptimize dichotomyInt fitness (some (a :: b :: l)) down up team = none ∧
    fullScan fitness (some (a :: b :: l)) down up team = none ∧
    (∀ kn kd, averageReq kn kd (some (a :: b :: l)) down up team = none) := by
  have key : ∀ (d u : List Int), d.length = team.length →
      descentOptimize dichotomyInt fitness (some (a :: b :: l)) d u team = none := by
    intro d u hd
    have : d ≠ [] := by
      intro h0
      subst h0
      simp at hd harr
      omega
    simp [descentOptimize, coordinateDescent, this, npTruth]
  refine ⟨key down up hlen.symm, ?_, fun _ _ => by simp [averageReq, npTruth]⟩
  obtain ⟨mid, up', h1, h2, _, _⟩ := scan_spec fitness (fitness down) (fitness up) ho
  unfold fullScan
  rw [h1]
  exact key mid up' (by have := h2.length; omega)

-- concrete cases: two worker types, a non-trivial finish time
example : Ordered [1, 2] [9, 6] ∧ fullScan (fun c => (c.headD 0 - 4) ^ 2 + c.sum) none [1, 2] [9, 6] [0, 0] = some [6, 5] := by
  decide
example : Unimodal (fun x => (x - 4) * (x - 4)) 0 20 4 := by
  refine ⟨by omega, by omega, ?_, ?_⟩
  · intro x y h1 h2 h3; simp only; nlinarith
  · intro x y h1 h2 h3; simp only; nlinarith
example : averageReq 3 2 none [1, 2] [10, 6] [0, 0] = some [7, 4] := by decide
example : ([true, false] : List Bool).length = ([5, 5] : List Int).length ∧ Ordered [1, 1] [3, 3] := by decide

end Sampo.C29
