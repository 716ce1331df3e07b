import Verif.Lemmas.Terms
import Verif.Spec.Checked

/-! Works that take no time in finished schedules. -/

namespace Sampo

variable {σ : Type} {E : Env σ} {zero : Nat → Bool}

/-- Marked works take no time. -/
def Zero (zero : Nat → Bool) (sw : Sched) : Prop := ∀ e ∈ sw, zero e.1 = true → e.2.start = e.2.finish

theorem Zero.instant {sw : Sched} (h : Zero zero sw) : Instant zero sw := fun v x hx hz => h (v, x) (mem_of_get hx) hz

theorem JIT.placeChain_zero {team : List Worker} {c : Nat} {times : ExecTimes}
    (h0 : ∀ v, zero v = true → ((times v).getD (0, E.estimate v team)).2 = 0) : ∀ {vs : List Nat} {cur : Int} {s : σ} {sw : Sched}
    {r : Int × σ × Sched}, Zero zero sw → JIT.placeChain E team c times vs cur s sw = some r → Zero zero r.2.2
  | [], cur, s, sw, r, hz, h => by
    simp only [JIT.placeChain, Option.some.injEq] at h
    subst h
    exact hz
  | v :: vs, cur, s, sw, r, hz, h => by
    simp only [JIT.placeChain] at h
    split at h
    · simp only [Option.bind_eq_some_iff] at h
      obtain ⟨d, -, h⟩ := h
      refine JIT.placeChain_zero h0 (fun e he hv => ?_) h
      rcases List.mem_cons.1 he with rfl | he
      · have := h0 v hv
        dsimp only
        omega
      · exact hz e he hv
    · simp at h

theorem Momentum.placeChain_zero {team : List Worker} {c : Nat} {times : ExecTimes}
    (h0 : ∀ v, zero v = true → ((times v).getD (0, E.estimate v team)).2 = 0) : ∀ {vs : List Nat} {cur : Int} {s : σ} {sw : Sched}
    {r : Int × σ × Sched}, Zero zero sw → Momentum.placeChain E team c times vs cur s sw = some r → Zero zero r.2.2
  | [], cur, s, sw, r, hz, h => by
    simp only [Momentum.placeChain, Option.some.injEq] at h
    subst h
    exact hz
  | v :: vs, cur, s, sw, r, hz, h => by
    simp only [Momentum.placeChain, Option.bind_eq_some_iff] at h
    obtain ⟨d, -, h⟩ := h
    refine Momentum.placeChain_zero h0 (fun e he hv => ?_) h
    rcases List.mem_cons.1 he with rfl | he
    · have := h0 v hv
      dsimp only
      omega
    · exact hz e he hv

theorem Momentum.execTimes_zero {sw : Sched} {team : List Worker} {assigned : Option Int} {parentTime maxParent : Int}
    (he : ∀ v, zero v = true → E.estimate v team = 0) : ∀ {vs : List Nat} {exec : Int},
    ∀ x ∈ (execTimes E sw team assigned parentTime maxParent vs exec).1, zero x.1 = true → x.2.2 = 0
  | [], _, x, hx, _ => by simp [execTimes] at hx
  | v :: vs, exec, x, hx, hz => by
    simp only [execTimes, List.mem_cons] at hx
    rcases hx with rfl | hx
    · dsimp only
      split
      · rfl
      · exact he v hz
    · exact Momentum.execTimes_zero he x hx hz

theorem Momentum.timesOf_zero {l : List (Nat × Int × Int)} (h : ∀ x ∈ l, zero x.1 = true → x.2.2 = 0) {v : Nat} {y : Int × Int}
    (hy : timesOf l v = some y) (hz : zero v = true) : y.2 = 0 := by
  unfold timesOf at hy
  rw [Option.map_eq_some_iff] at hy
  obtain ⟨x, hx, rfl⟩ := hy
  have h1 := List.mem_of_find?_eq_some hx
  have h2 : x.1 = v := by simpa using List.find?_some hx
  exact h x h1 (h2 ▸ hz)

theorem JIT.step_zero (he : ∀ v team, zero v = true → E.estimate v team = 0) {P : Plan (State σ)} (hts : ∀ v, P.assignedTimes v = none)
    {fuel : Nat} {first last : Bool} {st st' : State σ} {v : Nat} (hz : Zero zero st.sched)
    (h : step E P fuel first last st v = some (some st')) : Zero zero st'.sched := by
  simp only [step] at h
  split at h
  · simp at h
  · split at h
    · simp at h
    · simp at h
    · simp only [Option.some.injEq, Option.bind_eq_some_iff, scheduleAt, Option.map_eq_some_iff] at h
      obtain ⟨es, hes, r, hr, tl', htl, env', henv, rfl⟩ := h
      rw [hts] at hr
      refine JIT.placeChain_zero (fun v hv => ?_) hz hr
      exact he v _ hv

theorem Momentum.step_zero (he : ∀ v team, zero v = true → E.estimate v team = 0) {P : Plan (State σ)} (hts : ∀ v, P.assignedTimes v = none)
    {inf : Int} {fuelIn fuel : Nat} {first last : Bool} {st st' : State σ} {v : Nat} (hz : Zero zero st.sched)
    (h : step E P inf fuelIn fuel first last st v = some (some st')) : Zero zero st'.sched := by
  simp only [step] at h
  split at h
  · simp at h
  · rename_i c hc
    split at h
    · simp at h
    · simp at h
    · split at h
      · simp at h
      · simp only [schedule, Option.map_eq_some_iff, Option.bind_eq_some_iff, scheduleAt] at h
        obtain ⟨f, hf, h⟩ := h
        obtain ⟨f', rfl, r, hr, tl', htl, env', henv, rfl⟩ := h
        rw [hts] at hr
        have hft : ∀ x ∈ f'.times, zero x.1 = true → x.2.2 = 0 := by
          unfold find at hf
          simp only at hf
          split at hf
          · rename_i hteam
            simp only [Option.some.injEq] at hf
            rw [← hf]
            exact Momentum.execTimes_zero fun v hv => he v _ hv
          · simp only [Option.map_eq_some_iff] at hf
            obtain ⟨a, -, t, -, rfl⟩ := hf
            exact Momentum.execTimes_zero fun v hv => he v _ hv
        refine Momentum.placeChain_zero (fun u hu => ?_) hz hr
        simp only [Option.getD_none]
        cases ht : timesOf f'.times u with
        | none => exact he u _ hu
        | some y => exact Momentum.timesOf_zero hft ht hu

theorem JIT.buildFrom_zero (he : ∀ v team, zero v = true → E.estimate v team = 0) {P : Plan (State σ)} (hts : ∀ v, P.assignedTimes v = none)
    {fuel : Nat} : ∀ {order : List Nat} {first : Bool} {st st' : State σ}, Zero zero st.sched →
    buildFrom E P fuel first order st = some (some st') → Zero zero st'.sched
  | [], first, st, st', hz, h => by
    simp only [buildFrom, Option.some.injEq] at h
    exact h ▸ hz
  | v :: vs, first, st, st', hz, h => by
    simp only [buildFrom] at h
    split at h
    · simp at h
    · simp at h
    · rename_i st1 h1
      exact JIT.buildFrom_zero he hts (JIT.step_zero he hts hz h1) h

theorem Momentum.buildFrom_zero (he : ∀ v team, zero v = true → E.estimate v team = 0) {P : Plan (State σ)}
    (hts : ∀ v, P.assignedTimes v = none) {inf : Int} {fuelIn fuel : Nat} : ∀ {order : List Nat} {first : Bool} {st st' : State σ},
    Zero zero st.sched → buildFrom E P inf fuelIn fuel first order st = some (some st') → Zero zero st'.sched
  | [], first, st, st', hz, h => by
    simp only [buildFrom, Option.some.injEq] at h
    exact h ▸ hz
  | v :: vs, first, st, st', hz, h => by
    simp only [buildFrom] at h
    split at h
    · simp at h
    · simp at h
    · rename_i st1 h1
      exact Momentum.buildFrom_zero he hts (Momentum.step_zero he hts hz h1) h

end Sampo
