import Verif.Model.DeadlineRun
import Mathlib.Tactic.Linarith
import Mathlib.Tactic.NormNum
import Mathlib.Data.Rat.Cast.Order

/-! # Lemmas about the deadline-driven search -/

namespace Sampo.Deadline

variable {run run' : Rat → List Nat → Option Int} {deadline : Int}

/-- The binary search only uses levels above its lower border. -/
theorem binLoop_congr (h : ∀ k, 1 ≤ k → run k [] = run' k []) : ∀ {fuel : Nat} {kMin kMax : Rat} {s : Search}, 1 ≤ kMin → kMin ≤ kMax →
    binLoop run deadline fuel kMin kMax s = binLoop run' deadline fuel kMin kMax s := by
  intro fuel
  induction fuel with
  | zero => intro kMin kMax s _ _; rfl
  | succ fuel ih =>
    intro kMin kMax s h1 h2
    have hm1 : kMin ≤ (kMin + kMax) / 2 := by linarith
    have hm2 : (kMin + kMax) / 2 ≤ kMax := by linarith
    simp only [binLoop]
    rw [h ((kMin + kMax) / 2) (by linarith)]
    split
    · cases run' ((kMin + kMax) / 2) [] with
      | none => rfl
      | some t =>
        dsimp only
        rw [ih h1 hm1, ih (by linarith) hm2]
    · rfl

theorem indepLoop_congr {kMax : Rat} (h : ∀ l, run kMax l = run' kMax l) : ∀ {vs indep : List Nat} {tries : Nat},
    indepLoop run deadline kMax vs indep tries = indepLoop run' deadline kMax vs indep tries := by
  intro vs
  induction vs with
  | nil => intro indep tries; rfl
  | cons v vs ih =>
    intro indep tries
    simp only [indepLoop, h, ih]

/-- The search only uses levels from 1 on. -/
theorem search_congr (h : ∀ k l, 1 ≤ k → run k l = run' k l) (nodes : List Nat) :
    search run nodes deadline = search run' nodes deadline := by
  unfold search
  rw [h 10000 [] (by norm_num), indepLoop_congr (fun l => h 10000 l (by norm_num)),
    binLoop_congr (fun k hk => h k [] hk) (by norm_num) (by norm_num)]

/-- Works are marked only as long as the deadline is kept. -/
theorem indepLoop_meets {kMax : Rat} : ∀ {vs indep : List Nat} {tries : Nat} {r : List Nat},
    (∃ t, run kMax indep = some t ∧ t ≤ deadline) → indepLoop run deadline kMax vs indep tries = some r →
    ∃ t, run kMax r = some t ∧ t ≤ deadline := by
  intro vs
  induction vs with
  | nil => intro indep tries r h hr; simp only [indepLoop, Option.some.injEq] at hr; subst hr; exact h
  | cons v vs ih =>
    intro indep tries r h hr
    simp only [indepLoop, Option.bind_eq_some_iff] at hr
    obtain ⟨t, ht, hr⟩ := hr
    split at hr
    · split at hr
      · simp only [Option.some.injEq] at hr; subst hr; exact h
      · exact ih h hr
    · exact ih ⟨t, ht, by omega⟩ hr

private theorem binLoop_level : ∀ {fuel : Nat} {kMin kMax : Rat} {s s' : Search}, 1 ≤ kMin → kMin ≤ kMax → 1 ≤ s.leftM → 1 ≤ s.rightM →
    binLoop run deadline fuel kMin kMax s = some (some s') → 1 ≤ s'.leftM ∧ 1 ≤ s'.rightM := by
  intro fuel
  induction fuel with
  | zero => intro kMin kMax s s' _ _ _ _ h; simp [binLoop] at h
  | succ fuel ih =>
    intro kMin kMax s s' h1 h2 h3 h4 h
    have hm1 : kMin ≤ (kMin + kMax) / 2 := by linarith
    have hm2 : (kMin + kMax) / 2 ≤ kMax := by linarith
    have hm : 1 ≤ (kMin + kMax) / 2 := by linarith
    simp only [binLoop] at h
    split at h
    · split at h
      · simp at h
      · split at h
        · refine ih h1 hm1 ?_ ?_ h
          · dsimp only; split <;> exact h3
          · dsimp only; split
            · exact hm
            · exact h4
        · refine ih hm hm2 ?_ ?_ h
          · dsimp only; split
            · exact hm
            · exact h3
          · dsimp only; split <;> exact h4
    · simp only [Option.some.injEq] at h
      subst h
      exact ⟨h3, h4⟩

/-- The level of the outcome is at least 1. -/
theorem search_level {nodes : List Nat} {o : Outcome} (h : search run nodes deadline = some (some o)) : 1 ≤ o.k := by
  unfold search at h
  split at h
  · simp at h
  · split at h
    · simp only [Option.some.injEq, Option.map_eq_some_iff] at h
      obtain ⟨indep, -, rfl⟩ := h
      norm_num
    · simp only [Option.map_eq_some_iff] at h
      obtain ⟨r, hr, s, rfl, rfl⟩ := h
      obtain ⟨h1, h2⟩ := binLoop_level (by norm_num) (by norm_num) (by norm_num) (by norm_num) hr
      split
      · exact h1
      · exact h2

private theorem indepLoop_sub {kMax : Rat} : ∀ {vs indep : List Nat} {tries : Nat} {r : List Nat},
    indepLoop run deadline kMax vs indep tries = some r → ∀ v ∈ r, v ∈ vs ∨ v ∈ indep := by
  intro vs
  induction vs with
  | nil =>
    intro indep tries r h v hv
    simp only [indepLoop, Option.some.injEq] at h
    subst h
    exact .inr hv
  | cons u vs ih =>
    intro indep tries r h v hv
    simp only [indepLoop, Option.bind_eq_some_iff] at h
    obtain ⟨t, -, h⟩ := h
    split at h
    · split at h
      · simp only [Option.some.injEq] at h
        subst h
        exact .inr hv
      · rcases ih h v hv with h' | h'
        · exact .inl (List.mem_cons_of_mem _ h')
        · exact .inr h'
    · rcases ih h v hv with h' | h'
      · exact .inl (List.mem_cons_of_mem _ h')
      · rcases List.mem_cons.1 h' with rfl | h'
        · exact .inl List.mem_cons_self
        · exact .inr h'

/-- Only works of the graph are made independent. -/
theorem search_indep {nodes : List Nat} {o : Outcome} (h : search run nodes deadline = some (some o)) : ∀ v ∈ o.indep, v ∈ nodes := by
  unfold search at h
  split at h
  · simp at h
  · split at h
    · simp only [Option.some.injEq, Option.map_eq_some_iff] at h
      obtain ⟨indep, hi, rfl⟩ := h
      intro v hv
      rcases indepLoop_sub hi v hv with h' | h'
      · exact h'
      · simp at h'
    · simp only [Option.map_eq_some_iff] at h
      obtain ⟨r, hr, s, rfl, rfl⟩ := h
      intro v hv
      split at hv <;> simp at hv

end Sampo.Deadline

namespace Sampo.AutoPipeline

theorem foldl_max_le {l : List Int} : ∀ {a b : Int}, l.foldl max a ≤ b ↔ a ≤ b ∧ ∀ x ∈ l, x ≤ b := by
  induction l with
  | nil => intro a b; simp
  | cons y l ih =>
    intro a b
    rw [List.foldl_cons, ih]
    simp only [List.mem_cons, forall_eq_or_imp, max_le_iff]
    tauto

theorem executionTime_le {s : Sched} {b : Int} : executionTime s ≤ b ↔ 0 ≤ b ∧ ∀ e ∈ s, e.2.finish ≤ b := by
  unfold executionTime
  rw [foldl_max_le]
  simp only [List.forall_mem_map]

theorem executionTime_nonneg (s : Sched) : 0 ≤ executionTime s := (executionTime_le.1 (Int.le_refl _)).1

end Sampo.AutoPipeline
