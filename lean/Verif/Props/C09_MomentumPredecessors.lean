import Verif.Lemmas.SchedMomentumRun
import Verif.Lemmas.Demo

/-! C09: works placed on a momentum timeline start after their placed predecessors. -/

namespace Sampo.C09

open Momentum

variable {σ : Type}

/-- Placing a work without assigned start and duration: every work of its chain starts not before the assigned project
start and not before finish + lag of each predecessor that is already in the schedule.  Any team, any material and zone
behaviour, any state of the timeline.  Missing from the full property: assigned durations, for which it is false
(`assigned_duration_ignores_predecessors`). -/
theorem starts_after_placed_predecessors_partial (E : Env σ) (st st' : State σ) (node : Nat) (team : List Worker)
    (contractor : Nat) (independent : Bool) (projectStart inf : Int) (fuelIn fuel : Nat)
    (hest : ∀ v, 0 ≤ E.estimate v team) (hnd : (E.chain node).Nodup)
    (hinf0 : 0 ≤ inf) (hinf : projectStart ≤ inf) (hrange : TimesInRange E.edgesTo inf st.sched)
    (h : schedule E st node team contractor independent none none projectStart inf fuelIn fuel = some (some st')) :
    ∀ v ∈ E.chain node, ∃ x, st'.sched.get v = some x ∧ projectStart ≤ x.start ∧
      ∀ e ∈ E.edgesTo v, ∀ y, st.sched.get e.1 = some y → y.finish + e.2 ≤ x.start := by
  have hms : minStart (E.edgesTo node) st.sched ≤ inf :=
    minStart_le hinf0 fun e he y hy => hrange _ (mem_of_get hy) node e he rfl
  obtain ⟨start, fin, hrow⟩ := schedule_min hest hnd (by simp only [parentTimeOf, applySpec]; omega) (by simp) h
  intro v hv
  obtain ⟨x, h1, h2, h3⟩ := hrow.rel hnd hv
  refine ⟨x, h1, h3, fun e he y hy => ?_⟩
  have := le_minStart he hy
  omega

/-- The same with the start time assigned by the caller, provided it is not before the predecessors of the first work of
the chain and the project start. -/
theorem assigned_start_after_placed_predecessors (E : Env σ) (st st' : State σ) (node : Nat) (team : List Worker)
    (contractor : Nat) (independent : Bool) (start projectStart inf : Int) (fuelIn fuel : Nat)
    (hest : ∀ v, 0 ≤ E.estimate v team) (hnd : (E.chain node).Nodup)
    (hstart : ∀ e ∈ E.edgesTo node, ∀ y, st.sched.get e.1 = some y → y.finish + e.2 ≤ start)
    (h0 : 0 ≤ start) (hp : projectStart ≤ start) (hinf : start ≤ inf)
    (h : schedule E st node team contractor independent (some start) none projectStart inf fuelIn fuel =
      some (some st')) :
    ∀ v ∈ E.chain node, ∃ x, st'.sched.get v = some x ∧ projectStart ≤ x.start ∧
      ∀ e ∈ E.edgesTo v, ∀ y, st.sched.get e.1 = some y → y.finish + e.2 ≤ x.start := by
  have hms : minStart (E.edgesTo node) st.sched ≤ start := minStart_le h0 hstart
  obtain ⟨start, fin, hrow⟩ := schedule_min hest hnd (by simp only [parentTimeOf, applySpec]; omega)
    (by intro a ha; cases ha; simp only [parentTimeOf, applySpec]; omega) h
  intro v hv
  obtain ⟨x, h1, h2, h3⟩ := hrow.rel hnd hv
  refine ⟨x, h1, h3, fun e he y hy => ?_⟩
  have := le_minStart he hy
  omega

/-- A state of the demo project in which works 0 and 3 are placed; 3 runs from 7 to 37. -/
private def st3 : State Unit := ⟨init Demo.pool, (), [(3, ⟨7, 37, [⟨0, 0, 2⟩], 0⟩), (0, ⟨5, 5, [], 0⟩)]⟩

-- the hypotheses are met by a chain whose second work waits for work 3
example : ∃ st', schedule Demo.env st3 1 [⟨0, 0, 1⟩] 0 false none none 5 1000 20 20 = some (some st') ∧
    st'.sched.get 1 = some ⟨5, 15, [⟨0, 0, 1⟩], 0⟩ ∧ st'.sched.get 2 = some ⟨37, 57, [⟨0, 0, 1⟩], 0⟩ :=
  ⟨_, rfl, by decide, by decide⟩
example : TimesInRange Demo.env.edgesTo 1000 st3.sched ∧ (Demo.env.chain 1).Nodup :=
  ⟨Demo.timesInRange (by decide), by decide⟩

/-- With an assigned duration the property is false: the second work of the chain starts at 6 although its predecessor 3
finishes at 37. -/
theorem assigned_duration_ignores_predecessors :
    ∃ (E : Env Unit) (st st' : State Unit) (times : ExecTimes) (x y : SWork),
      NonNegTimes times ∧
      schedule E st 1 [⟨0, 0, 1⟩] 0 false none (some times) 5 1000 20 20 = some (some st') ∧
      (3, 0) ∈ E.edgesTo 2 ∧ 2 ∈ E.chain 1 ∧ st'.sched.get 2 = some x ∧ st.sched.get 3 = some y ∧
      x.start < y.finish := by
  refine ⟨Demo.env, st3, _, fun _ => some (0, 1), _, _, ?_, rfl, by decide, by decide, rfl, rfl, by decide⟩
  intro v l d h; simp at h; omega

end Sampo.C09
