import Verif.Spec.Estimator
import Mathlib.Tactic.Linarith
import Mathlib.Tactic.Ring
import Mathlib.Tactic.FieldSimp
import Mathlib.Tactic.Positivity
import Mathlib.Algebra.Order.Floor.Ring
import Mathlib.Data.List.Basic

/-! Lemmas about the estimator. -/

namespace Sampo.Estimator

theorem output_sum_succ (n : Nat) (m : Int) : ((List.range (n + 1)).map fun k : Nat => 1 - ((k : ℚ) / m) ^ 2).sum =
    ((List.range n).map fun k : Nat => 1 - ((k : ℚ) / m) ^ 2).sum + (1 - ((n : ℚ) / m) ^ 2) := by
  rw [List.range_succ, List.map_append, List.sum_append]
  simp

/-- The closed form in the code is the sum. -/
theorem coefficient_sum (n : Nat) {m : Int} (hm : m ≠ 0) :
    coefficient n m = some ((List.range n).map fun k : Nat => 1 - ((k : ℚ) / m) ^ 2).sum := by
  unfold coefficient
  rw [if_neg hm]
  congr 1
  have hq : (m : ℚ) ≠ 0 := by exact_mod_cast hm
  induction n with
  | zero => simp
  | succ n ih =>
    rw [output_sum_succ, ← ih]
    push_cast
    field_simp
    ring

/-- Each worker up to the maximum adds something that is not negative, so the output grows with the team. -/
theorem sum_mono {m : Int} : ∀ {n n' : Nat}, n ≤ n' → (n' : Int) ≤ m →
    ((List.range n).map fun k : Nat => 1 - ((k : ℚ) / m) ^ 2).sum ≤ ((List.range n').map fun k : Nat => 1 - ((k : ℚ) / m) ^ 2).sum := by
  intro n n' h
  induction h with
  | refl => intro _; exact le_refl _
  | step h ih =>
    rename_i j
    intro hm
    rw [output_sum_succ]
    have h1 := ih (by push_cast at hm; omega)
    have hmpos : (0 : ℚ) < m := by
      have : 0 < m := by push_cast at hm; omega
      exact_mod_cast this
    have hj : (j : ℚ) ≤ m := by
      have : (j : Int) ≤ m := by push_cast at hm; omega
      exact_mod_cast this
    have hle : ((j : ℚ) / m) ≤ 1 := by rw [div_le_one hmpos]; exact hj
    have h0 : 0 ≤ ((j : ℚ) / m) := by positivity
    have : ((j : ℚ) / m) ^ 2 ≤ 1 := by
      rw [pow_two]; nlinarith
    linarith

theorem sum_ge_one {m : Int} {n : Nat} (h1 : 1 ≤ n) (hm : (n : Int) ≤ m) :
    1 ≤ ((List.range n).map fun k : Nat => 1 - ((k : ℚ) / m) ^ 2).sum := by
  have := sum_mono (m := m) h1 hm
  simpa using this

theorem output_mono {m : Int} {n n' : Nat} (h : n ≤ n') (hm : (n' : Int) ≤ m) (h1 : 1 ≤ n) : output n m ≤ output n' m := by
  unfold output
  have h2 := sum_mono h hm
  have h3 := sum_ge_one (m := m) h1 (by omega)
  have h4 : (n : ℚ) ≤ n' := by exact_mod_cast h
  have h5 : (0 : ℚ) ≤ n := by positivity
  nlinarith

theorem output_ge {m : Int} {n : Nat} (h1 : 1 ≤ n) (hm : (n : Int) ≤ m) : (n : ℚ) ≤ output n m := by
  unfold output
  have h3 := sum_ge_one (m := m) h1 hm
  have h5 : (0 : ℚ) ≤ n := by positivity
  nlinarith

theorem productivity_eq {P : Means} {w : Worker} {m : Int} {p : ℚ} (hp : meanOf P w = some p) (h0 : 0 ≤ w.count) (hm : m ≠ 0) :
    productivity P w m = some (p * output w.count.toNat m) := by
  unfold productivity
  rw [hp, Option.bind_some]
  obtain ⟨n, hn⟩ := Int.eq_ofNat_of_zero_le h0
  rw [hn, coefficient_sum _ hm]
  simp only [Option.map_some, output, Int.toNat_natCast]
  congr 1
  push_cast
  ring

theorem mkTime_mono {a b : Int} (h : a ≤ b) : mkTime a ≤ mkTime b := by
  unfold mkTime TIME_INF
  split <;> split <;> (try split) <;> (try split) <;> omega

theorem mkTime_bounds (a : Int) : -TIME_INF ≤ mkTime a ∧ mkTime a ≤ TIME_INF := by
  unfold mkTime TIME_INF
  split
  · omega
  · split <;> omega

theorem timeInf_eq : timeInf = TIME_INF := by decide

theorem reqLoop_bounds {P : Means} {team : List Worker} : ∀ {reqs : List Req} {t s : Int}, t ≤ TIME_INF →
    reqLoop P team reqs t = some s → 0 ≤ s ∧ s ≤ TIME_INF := by
  intro reqs
  induction reqs with
  | nil =>
    intro t s ht h
    simp [reqLoop] at h
    subst h
    have : mkTime 0 = 0 := by decide
    rw [this]
    unfold TIME_INF at *
    omega
  | cons r rs ih =>
    intro t s ht h
    unfold reqLoop at h
    have hinf : (0 : Int) ≤ timeInf ∧ timeInf ≤ TIME_INF := by decide
    by_cases h0 : r.minCount = 0
    · rw [if_pos h0] at h; exact ih ht h
    · rw [if_neg h0] at h
      cases hw : workerOf team r.kind with
      | none =>
        rw [hw] at h
        dsimp only at h
        by_cases hpos : 0 < r.minCount
        · rw [if_pos hpos] at h; cases h; exact hinf
        · rw [if_neg hpos] at h; simp at h
      | some w =>
        rw [hw] at h
        dsimp only at h
        by_cases hlt : w.count < r.minCount
        · rw [if_pos hlt] at h; cases h; exact hinf
        · rw [if_neg hlt] at h
          cases hp : productivity P w r.maxCount with
          | none => rw [hp] at h; simp at h
          | some p =>
            rw [hp, Option.bind_some] at h
            by_cases hp0 : p = 0
            · rw [if_pos hp0] at h; cases h; exact hinf
            · rw [if_neg hp0] at h
              exact ih (by have := (mkTime_bounds ⌈(r.volume : ℚ) / p⌉).2; omega) h

/-- The time one requirement takes. -/
def reqTime (P : Means) (team : List Worker) (r : Req) : Int :=
  if r.minCount = 0 then 0
  else match workerOf team r.kind with
    | none => 0
    | some w => match meanOf P w with
      | none => 0
      | some p => mkTime ⌈(r.volume : ℚ) / (p * output w.count.toNat r.maxCount)⌉

theorem workerOf_mem {team : List Worker} {name : Nat} {w : Worker} (h : workerOf team name = some w) : w ∈ team ∧ w.name = name := by
  unfold workerOf at h
  have h1 := List.mem_of_find?_eq_some h
  have h2 := List.find?_some h
  exact ⟨by simpa using h1, by simpa using h2⟩

theorem isWorker_iff {team : List Worker} {name : Nat} {w : Worker} : IsWorker team name w ↔ workerOf team name = some w := by
  unfold workerOf IsWorker
  rw [List.find?_eq_some_iff_append]
  constructor
  · rintro ⟨a, b, rfl, hn, hb⟩
    exact ⟨by simpa using hn, b.reverse, a.reverse, by simp, by simpa using hb⟩
  · rintro ⟨hn, b, a, heq, hb⟩
    refine ⟨a.reverse, b.reverse, ?_, by simpa using hn, by simpa using hb⟩
    rw [← List.reverse_reverse team, heq]
    simp

/-- A team that meets and fits the requirements: the loop gives the largest of the times. -/
theorem reqLoop_meets {P : Means} {team : List Worker} (hk : Known P team) : ∀ {reqs : List Req} {t : Int}, Sound reqs →
    Meets team reqs → Fits team reqs → 0 ≤ t → reqLoop P team reqs t = some ((reqs.map (reqTime P team)).foldl max t) := by
  intro reqs
  induction reqs with
  | nil =>
    intro t _ _ _ h0
    have : mkTime 0 = 0 := by decide
    simp [reqLoop, this, h0]
  | cons r rs ih =>
    intro t hs hm hf h0
    have hs' : Sound rs := fun x hx => hs x (List.mem_cons_of_mem _ hx)
    have hm' : Meets team rs := fun x hx => hm x (List.mem_cons_of_mem _ hx)
    have hf' : Fits team rs := fun x hx => hf x (List.mem_cons_of_mem _ hx)
    unfold reqLoop
    rw [List.map_cons, List.foldl_cons]
    by_cases hz : r.minCount = 0
    · rw [if_pos hz]
      have : reqTime P team r = 0 := by unfold reqTime; rw [if_pos hz]
      rw [this, max_eq_left h0]
      exact ih hs' hm' hf' h0
    · rw [if_neg hz]
      have hr := hs r (List.mem_cons_self ..)
      obtain ⟨w, hw, hle⟩ := hm r (List.mem_cons_self ..) (by omega)
      have hmax := hf r (List.mem_cons_self ..) w hw
      rw [isWorker_iff] at hw
      obtain ⟨p, hp, hpos⟩ := hk w (workerOf_mem hw).1
      rw [hw]
      dsimp only
      rw [if_neg (by omega), productivity_eq hp (by omega) (by omega), Option.bind_some]
      have hout := output_ge (m := r.maxCount) (n := w.count.toNat) (by omega) (by omega)
      have hn : (1 : ℚ) ≤ (w.count.toNat : ℚ) := by
        have : 1 ≤ w.count.toNat := by omega
        exact_mod_cast this
      rw [if_neg (by nlinarith)]
      have : reqTime P team r = mkTime ⌈(r.volume : ℚ) / (p * output w.count.toNat r.maxCount)⌉ := by
        unfold reqTime
        rw [if_neg hz, hw]
        dsimp only
        rw [hp]
      rw [this]
      exact ih hs' hm' hf' (le_max_of_le_left h0)

/-- A team that does not meet the requirements. -/
theorem reqLoop_unmet {P : Means} {team : List Worker} (hk : Known P team) : ∀ {reqs : List Req} {t : Int}, Sound reqs →
    ¬ Meets team reqs → Fits team reqs → reqLoop P team reqs t = some timeInf := by
  intro reqs
  induction reqs with
  | nil => intro t _ hm; exact absurd (by intro r hr; simp at hr) hm
  | cons r rs ih =>
    intro t hs hm hf
    have hs' : Sound rs := fun x hx => hs x (List.mem_cons_of_mem _ hx)
    have hf' : Fits team rs := fun x hx => hf x (List.mem_cons_of_mem _ hx)
    have hr := hs r (List.mem_cons_self ..)
    unfold reqLoop
    by_cases hz : r.minCount = 0
    · rw [if_pos hz]
      refine ih hs' ?_ hf'
      intro hm'
      refine hm ?_
      intro x hx h0
      rcases List.mem_cons.mp hx with rfl | hx
      · omega
      · exact hm' x hx h0
    · rw [if_neg hz]
      cases hw : workerOf team r.kind with
      | none => dsimp only; rw [if_pos (by omega)]
      | some w =>
        dsimp only
        by_cases hlt : w.count < r.minCount
        · rw [if_pos hlt]
        · rw [if_neg hlt]
          have hmax := hf r (List.mem_cons_self ..) w (isWorker_iff.mpr hw)
          obtain ⟨p, hp, hpos⟩ := hk w (workerOf_mem hw).1
          rw [productivity_eq hp (by omega) (by omega), Option.bind_some]
          have hout := output_ge (m := r.maxCount) (n := w.count.toNat) (by omega) (by omega)
          have hn : (1 : ℚ) ≤ (w.count.toNat : ℚ) := by
            have : 1 ≤ w.count.toNat := by omega
            exact_mod_cast this
          rw [if_neg (by nlinarith)]
          refine ih hs' ?_ hf'
          intro hm'
          refine hm ?_
          intro x hx h0
          rcases List.mem_cons.mp hx with rfl | hx
          · exact ⟨w, isWorker_iff.mpr hw, by omega⟩
          · exact hm' x hx h0

end Sampo.Estimator
