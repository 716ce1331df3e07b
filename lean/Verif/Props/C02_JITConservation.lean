import Verif.Lemmas.JITHistory

/-! # C02: the just-in-time timeline keeps every worker -/

namespace Sampo.C02
open Sampo.JIT

/-- One call of `update_timeline`: a team that works until `finish`. -/
structure Upd where
  team : List Worker
  finish : Int
  independent : Bool

/-- Any sequence of `update_timeline` calls on a timeline. -/
def runUpdates (tl : Timeline) (us : List Upd) : Option Timeline :=
  us.foldlM (fun tl u => update tl u.finish u.independent u.team) tl

private theorem run_forall {P : AgentId → Queue → Prop} {us : List Upd} {tl tl' : Timeline}
    (h : runUpdates tl us = some tl')
    (hP : ∀ u ∈ us, ∀ w ∈ u.team, ∀ q q', P w.agent q → stepQueue u.independent q w.count u.finish = some q' →
      P w.agent q')
    (h0 : ∀ a q, tl a = some q → P a q) :
    (∀ a q, tl' a = some q → P a q) ∧ ∀ a, (tl' a).isSome = (tl a).isSome := by
  induction us generalizing tl with
  | nil => simp [runUpdates] at h; subst h; exact ⟨h0, fun _ => rfl⟩
  | cons u us ih =>
    simp only [runUpdates, List.foldlM_cons, Option.bind_eq_bind, Option.bind_eq_some_iff] at h
    obtain ⟨tl1, h1, h⟩ := h
    obtain ⟨h2, h3⟩ := update_forall h1 (hP u (by simp)) h0
    obtain ⟨h4, h5⟩ := ih h (fun v hv => hP v (List.mem_cons_of_mem _ hv)) h2
    exact ⟨h4, fun a => by rw [h5, h3]⟩

/-- After any sequence of updates on a fresh timeline the recorded number of workers of every type is the initial one,
and the release list is ordered by time. -/
theorem workers_conserved (pool : AgentId → Option Int) (us : List Upd) (tl : Timeline)
    (hcount : ∀ u ∈ us, ∀ w ∈ u.team, 0 ≤ w.count)
    (hrun : runUpdates (init pool) us = some tl) (a : AgentId) (c : Int) (ha : pool a = some c) :
    ∃ q, tl a = some q ∧ total q = c ∧ Ordered q := by
  obtain ⟨h1, h2⟩ := run_forall (P := fun a q => (∀ c, pool a = some c → total q = c) ∧ Ordered q) hrun
    (by
      rintro u hu w hw q q' ⟨hq1, hq2⟩ hst
      obtain ⟨h1, h2, _⟩ := step_total_ordered (hcount u hu w hw) hst hq2
      exact ⟨fun c hc => by rw [h1]; exact hq1 c hc, h2⟩)
    (by
      intro a q hq
      unfold init at hq
      simp only [Option.map_eq_some_iff] at hq
      obtain ⟨c, hc, rfl⟩ := hq
      exact ⟨fun c' hc' => by rw [hc] at hc'; cases hc'; simp [total], by simp [Ordered]⟩)
  have h3 := h2 a
  simp only [init, ha, Option.map_some, Option.isSome_some] at h3
  obtain ⟨q, hq⟩ := Option.isSome_iff_exists.mp h3
  exact ⟨q, hq, (h1 a q hq).1 c ha, (h1 a q hq).2⟩

/-- If no team asks for more workers than the contractor has, no negative number of workers is ever recorded. -/
theorem counts_never_negative (pool : AgentId → Option Int) (us : List Upd) (tl : Timeline)
    (hpool : ∀ a c, pool a = some c → 0 ≤ c)
    (hcount : ∀ u ∈ us, ∀ w ∈ u.team, 0 ≤ w.count)
    (hdemand : ∀ u ∈ us, WithinPool pool u.team)
    (hrun : runUpdates (init pool) us = some tl) (a : AgentId) (q : Queue) (hq : tl a = some q) :
    ∀ e ∈ q, 0 ≤ e.count := by
  obtain ⟨h1, _⟩ := run_forall (P := fun a q => (∀ c, pool a = some c → QInv c q) ∧ NonNeg q) hrun
    (by
      rintro u hu w hw q q' ⟨hq1, hq2⟩ hst
      obtain ⟨c, hc, hle⟩ := hdemand u hu w hw
      have := stepQueue_inv (hq1 c hc) (hcount u hu w hw) hle hst
      exact ⟨fun c' hc' => by rw [hc] at hc'; cases hc'; exact this, this.nonneg⟩)
    (by
      intro a q hq
      unfold init at hq
      simp only [Option.map_eq_some_iff] at hq
      obtain ⟨c, hc, rfl⟩ := hq
      have hn : NonNeg [⟨0, c⟩] := by intro e he; simp at he; subst he; exact hpool a c hc
      exact ⟨fun c' hc' => by rw [hc] at hc'; cases hc'; exact ⟨by simp [Ordered], hn, by simp [total]⟩, hn⟩)
  exact (h1 a q hq).2

/-- An update of a timeline never fails as long as the team's worker types belong to the pool (so conservation is not
bought by raising errors). -/
theorem updates_succeed (pool : AgentId → Option Int) (us : List Upd)
    (hcount : ∀ u ∈ us, ∀ w ∈ u.team, 0 ≤ w.count)
    (hkeys : ∀ u ∈ us, ∀ w ∈ u.team, (pool w.agent).isSome) :
    ∃ tl, runUpdates (init pool) us = some tl := by
  have key : ∀ (us : List Upd) (tl : Timeline), (∀ u ∈ us, ∀ w ∈ u.team, 0 ≤ w.count) →
      (∀ u ∈ us, ∀ w ∈ u.team, (tl w.agent).isSome) →
      (∀ a q, tl a = some q → Ordered q ∧ q ≠ []) → ∃ tl', runUpdates tl us = some tl' := by
    intro us
    induction us with
    | nil => intro tl _ _ _; exact ⟨tl, rfl⟩
    | cons u us ih =>
      intro tl hc hk hne
      have step : ∀ (team : List Worker) (tl : Timeline), (∀ w ∈ team, 0 ≤ w.count) →
          (∀ w ∈ team, (tl w.agent).isSome) → (∀ a q, tl a = some q → Ordered q ∧ q ≠ []) →
          ∃ tl', update tl u.finish u.independent team = some tl' := by
        intro team
        induction team with
        | nil => intro tl _ _ _; exact ⟨tl, rfl⟩
        | cons w ws ihw =>
          intro tl hc hk hne
          obtain ⟨q, hq⟩ := Option.isSome_iff_exists.mp (hk w (by simp))
          have : ∃ q', stepQueue u.independent q w.count u.finish = some q' := by
            unfold stepQueue; split
            · exact ⟨_, rfl⟩
            · obtain ⟨q1, h1⟩ := consume_isSome w.count (hne _ _ hq).2
              exact ⟨_, by simp [updateQueue, h1]; rfl⟩
          obtain ⟨q', hq'⟩ := this
          obtain ⟨tl', h'⟩ := ihw (JIT.set tl w.agent q') (fun v hv => hc v (by simp [hv]))
            (by
              intro v hv
              unfold JIT.set; split
              · rfl
              · exact hk v (by simp [hv]))
            (by
              intro a p hp
              unfold JIT.set at hp
              split at hp
              · cases hp
                have := step_total_ordered (hc w (by simp)) hq' (hne _ _ hq).1
                exact this.2
              · exact hne a p hp)
          exact ⟨tl', by simp [update, hq, hq', h']⟩
      obtain ⟨tl1, h1⟩ := step u.team tl (hc u (by simp)) (hk u (by simp)) hne
      obtain ⟨h2, h3⟩ := update_forall (P := fun _ q => Ordered q ∧ q ≠ []) h1
        (fun w hw q q' hq hst => (step_total_ordered (hc u (by simp) w hw) hst hq.1).2) hne
      obtain ⟨tl', h'⟩ := ih tl1 (fun v hv => hc v (by simp [hv]))
        (fun v hv w hw => by rw [h3]; exact hk v (by simp [hv]) w hw) h2
      exact ⟨tl', by simp only [runUpdates, List.foldlM_cons, h1]; exact h'⟩
  refine key us _ hcount ?_ ?_
  · intro u hu w hw
    obtain ⟨c, hc⟩ := Option.isSome_iff_exists.mp (hkeys u hu w hw)
    simp [init, hc]
  · intro a q hq
    unfold init at hq
    simp only [Option.map_eq_some_iff] at hq
    obtain ⟨c, hc, rfl⟩ := hq
    exact ⟨by simp [Ordered], by simp⟩

-- a concrete sequence of updates (ordinary, tie, independent) meets the hypotheses
private def exPool : AgentId → Option Int := fun a => if a = (0, 0) then some 5 else none
private def exUpds : List Upd :=
  [⟨[⟨0, 0, 3⟩], 10, false⟩, ⟨[⟨0, 0, 4⟩], 7, false⟩, ⟨[⟨0, 0, 5⟩], 10, false⟩, ⟨[⟨0, 0, 1⟩], 30, true⟩,
   ⟨[⟨0, 0, 2⟩], 31, false⟩]
example : (∀ u ∈ exUpds, ∀ w ∈ u.team, 0 ≤ w.count ∧ (exPool w.agent).isSome) ∧
    (runUpdates (init exPool) exUpds).bind (· (0, 0)) = some [⟨30, 3⟩, ⟨31, 2⟩] := by decide
-- without the bound on the demand negative numbers do appear (5 workers, 8 asked)
example : (runUpdates (init exPool) [⟨[⟨0, 0, 8⟩], 10, false⟩]).bind (· (0, 0)) = some [⟨0, -3⟩, ⟨10, 8⟩] := by
  decide

end Sampo.C02
