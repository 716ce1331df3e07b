import Verif.Lemmas.SchedHorizon

namespace Sampo.Momentum

variable {σ : Type} {E : Env σ}

/-- A run with teams that fit ends, and the horizon is bounded by lags and durations. -/
theorem buildFrom_some_before (hsite : NoSiteLimits E) (hest : ∀ v team, 0 ≤ E.estimate v team) {pool : AgentId → Option Int}
    {P : Plan (State σ)} {inf : Int} (hP : 0 ≤ P.parentTime) {order : List Nat} {L D : Int} (hL : 0 ≤ L) (hD : 0 ≤ D)
    (hestD : ∀ v team, E.estimate v team ≤ D) (hlag : ∀ v, ∀ e ∈ E.edgesTo v, e.2 ≤ L)
    (hts : ∀ v ∈ order, P.assignedTimes v = none) (hnd : ∀ v ∈ order, (E.chain v).Nodup) (hchain : ∀ v, v ∈ E.chain v)
    (hteam : ∀ st, ∀ v ∈ order, ∃ team c, P.choose st v = some (team, c) ∧ Fits E pool v team)
    {first : Bool} {st : State σ} {M : Int} (hb : Before st M) (hM : P.parentTime ≤ M)
    (hst : (first = true ∧ History pool st.tl []) ∨ (first = false ∧ ∃ ps, History pool st.tl ps)) :
    ∃ N st', Before st' (M + (order.flatMap E.chain).length * (L + D)) ∧
      ∀ fuelIn fuel, N ≤ fuelIn → buildFrom E P inf fuelIn (fuel + 1) first order st = some (some st') := by
  induction order generalizing first st M with
  | nil => exact ⟨0, st, by simpa using hb, fun _ _ _ => rfl⟩
  | cons v vs ih =>
    obtain ⟨N1, st1, h1, hh1⟩ := step_some (inf := inf) (first := first) (last := vs.isEmpty) hsite hest hP
      (hts v (by simp)) (hnd v (by simp)) (hteam st v (by simp)) hst
    obtain ⟨ps, hh⟩ : ∃ ps, History pool st.tl ps := by
      rcases hst with ⟨_, h⟩ | ⟨_, h⟩
      · exact ⟨[], h⟩
      · exact h
    have hb1 := step_before hsite hest hh hb (by omega) hL hD hP hM (hts v (by simp)) (hnd v (by simp)) (hchain v)
      (fun team c hc => by
        obtain ⟨t, c', h, hf⟩ := hteam st v (by simp)
        rw [hc] at h
        simp only [Option.some.injEq, Prod.mk.injEq] at h
        rw [h.1]; exact hf)
      (fun team c _ u _ => hestD u team) (fun u _ e he => hlag u e he) (h1 N1 0 (Nat.le_refl _))
    have hpos : 0 ≤ ((E.chain v).length : Int) * (L + D) := Int.mul_nonneg (by omega) (by omega)
    obtain ⟨N2, st2, hb2, h2⟩ := ih (fun u hu => hts u (by simp [hu])) (fun u hu => hnd u (by simp [hu]))
      (fun st u hu => hteam st u (by simp [hu])) (first := false) (st := st1) hb1 (by omega) (.inr ⟨rfl, hh1⟩)
    refine ⟨max N1 N2, st2, ?_, fun fuelIn fuel hN => ?_⟩
    · rw [List.flatMap_cons, List.length_append]
      push_cast
      rw [Int.add_mul, ← Int.add_assoc]
      exact hb2
    · simp only [buildFrom, h1 fuelIn fuel (by omega), h2 fuelIn fuel (by omega)]

end Sampo.Momentum
