import Verif.Lemmas.SchedMomentum

namespace Sampo.Momentum

variable {σ : Type} {E : Env σ}

theorem startFor_ge {P : Plan (State σ)} {first last : Bool} {env : σ} {found : Int} {es : σ × Int}
    (h : startFor E P first last env found = some es) : (if first then P.parentTime else found) ≤ es.2 := by
  simp only [startFor] at h
  split at h
  · simp only [Option.map_eq_some_iff] at h
    obtain ⟨z, _, rfl⟩ := h
    simp only; omega
  · simp only [Option.some.injEq] at h; subst h; simp

/-- One round, for any durations. -/
theorem step_row {P : Plan (State σ)} {inf : Int} {fuelIn fuel : Nat} {first last : Bool} {st st' : State σ} {v : Nat}
    (hest : ∀ v team, 0 ≤ E.estimate v team) (hts : ∀ v ts, P.assignedTimes v = some ts → NonNegTimes ts)
    (hP : 0 ≤ P.parentTime) (hinf : P.parentTime ≤ inf)
    (h : step E P inf fuelIn fuel first last st v = some (some st')) :
    ∃ team c start fin, P.choose st v = some (team, c) ∧
      Row (fun _ _ _ => True) team c (E.chain v) start st.sched fin st'.sched ∧
      update st.tl fin (fin - start) team = some st'.tl ∧ P.parentTime ≤ start := by
  simp only [step] at h
  split at h
  · simp at h
  · rename_i c hc
    split at h
    · simp at h
    · simp at h
    · rename_i f hf
      split at h
      · simp at h
      · rename_i es hes
        obtain ⟨f', fin, h1, h2, h3⟩ := schedule_row (fun v => hest v _) (hts v) h
        refine ⟨c.1, c.2, f'.start, fin, hc, h2, h3, ?_⟩
        have hes' := startFor_ge hes
        have key : ∀ (ts : List Worker) (a : Option Int) (st : State σ) (f : Found),
            find E st v ts (P.independent v) a P.parentTime inf fuelIn fuel = some (some f) →
            (∀ x, a = some x → P.parentTime ≤ x) → P.parentTime ≤ f.start := by
          intro ts a st f hf ha
          have hpt : P.parentTime ≤ parentTimeOf E st.sched a P.parentTime v := by unfold parentTimeOf; omega
          simp only [find] at hf
          split at hf
          · simp only [Option.some.injEq] at hf; subst hf; simp only; omega
          · simp only [Option.map_eq_some_iff, findStart] at hf
            obtain ⟨o, ho, hf⟩ := hf
            obtain ⟨t, rfl, rfl⟩ := hf
            simp only
            split at ho
            · simp at ho
            · simp at ho
            · rename_i t' ht'
              simp only [Option.some.injEq, Option.map_eq_some_iff] at ho
              obtain ⟨_, _, rfl⟩ := ho
              cases a with
              | some x => simp only [Option.some.injEq] at ht'; subst ht'; exact ha _ rfl
              | none => exact findLoop_ge hpt hinf ht'
        apply key _ _ _ _ h1
        intro x hx
        cases hx
        have := key _ _ _ _ hf (by simp)
        cases first <;> simp at hes' <;> omega

theorem buildFrom_run {P : Plan (State σ)} {inf : Int} {fuelIn fuel : Nat} {first : Bool} {order : List Nat}
    {st st' : State σ} (hest : ∀ v team, 0 ≤ E.estimate v team)
    (hts : ∀ v ts, P.assignedTimes v = some ts → NonNegTimes ts)
    (hP : 0 ≤ P.parentTime) (hinf : P.parentTime ≤ inf)
    (h : buildFrom E P inf fuelIn fuel first order st = some (some st')) :
    Run (fun _ _ _ => True) E.chain order st.sched st'.sched := by
  induction order generalizing first st with
  | nil => simp only [buildFrom, Option.some.injEq] at h; subst h; exact .nil
  | cons v vs ih =>
    simp only [buildFrom] at h
    split at h
    · simp at h
    · simp at h
    · rename_i st1 h1
      obtain ⟨team, c, start, fin, _, hrow, _⟩ := step_row hest hts hP hinf h1
      exact .cons hrow (ih h)

/-- One round without assigned durations. -/
theorem step_after {P : Plan (State σ)} {inf : Int} {fuelIn fuel : Nat} {first last : Bool} {st st' : State σ} {v : Nat}
    (hest : ∀ v team, 0 ≤ E.estimate v team) (hts : P.assignedTimes v = none)
    (hnd : (E.chain v).Nodup)
    (hlag : ∀ u ∈ E.chain v, ∀ e ∈ E.edgesTo u, e.1 ∈ E.chain v → e.2 ≤ 0)
    (hP : 0 ≤ P.parentTime) (hinf : P.parentTime ≤ inf)
    (hrange : TimesInRange E.edgesTo inf st.sched) (hfirst : first = true → st.sched = [])
    (h : step E P inf fuelIn fuel first last st v = some (some st')) :
    ∃ team c start fin, P.choose st v = some (team, c) ∧
      Row (After E P.parentTime) team c (E.chain v) start st.sched fin st'.sched := by
  have hms : minStart (E.edgesTo v) st.sched ≤ inf := by
    apply minStart_le (by omega)
    intro e he y hy
    exact hrange _ (mem_of_get hy) v e he rfl
  simp only [step] at h
  split at h
  · simp at h
  · rename_i c hc
    split at h
    · simp at h
    · simp at h
    · rename_i f hf
      split at h
      · simp at h
      · rename_i es hes
        have hes' := startFor_ge hes
        have hge := find_ge hf (by simp only [parentTimeOf, applySpec]; omega) (by simp)
        simp only [parentTimeOf, applySpec] at hge
        rw [hts] at h
        have hb : max (minStart (E.edgesTo v) st.sched) P.parentTime ≤ es.2 := by
          cases first with
          | true =>
            simp only [if_true] at hes'
            rw [hfirst rfl, minStart_nil]
            omega
          | false => simp only [Bool.false_eq_true, if_false] at hes'; omega
        by_cases hei : es.2 ≤ inf
        · obtain ⟨start, fin, hrow⟩ := schedule_after (fun v => hest v _) hnd hlag
            (by simp only [parentTimeOf, applySpec]; omega)
            (by intro a ha; cases ha; simp only [parentTimeOf, applySpec]; omega) h
          exact ⟨c.1, c.2, start, fin, hc, hrow⟩
        · -- a start above infinity: the bound of the search is the start itself
          simp only [schedule, Option.map_eq_some_iff] at h
          obtain ⟨o, ho, h⟩ := h
          simp only [Option.bind_eq_some_iff, scheduleAt, Option.map_eq_some_iff] at h
          obtain ⟨g, rfl, r, hr, tl', htl, env', _, rfl⟩ := h
          refine ⟨c.1, c.2, g.start, r.1, hc, placeChain_after (fun v => hest v _) hnd (C := E.chain v) (fun _ h => h)
            (sw0 := st.sched) (a := some es.2) (P := P.parentTime)
            (mp := parentTimeOf E st.sched (some es.2) P.parentTime v) (exec := 0) ?_ ?_ (fun u y hy => .inl hy) hlag hr⟩
          · intro u _
            simp only [Option.getD_none]
            rw [find_times ho]
          · have hm : parentTimeOf E st.sched (some es.2) P.parentTime v = es.2 := by
              simp only [parentTimeOf, applySpec]; omega
            rw [hm]
            simp only [find, hm] at ho
            split at ho
            · simp only [Option.some.injEq] at ho; subst ho; simp only; omega
            · simp only [Option.map_eq_some_iff, findStart, Option.some.injEq] at ho
              obtain ⟨o, rfl, hg⟩ := ho
              obtain ⟨t, ht, rfl⟩ := hg
              simp only [Option.map_eq_some_iff] at ht
              obtain ⟨_, _, rfl⟩ := ht
              simp

theorem buildFrom_after {P : Plan (State σ)} {inf : Int} {fuelIn fuel : Nat} {first : Bool} {order : List Nat}
    {st st' : State σ} (hest : ∀ v team, 0 ≤ E.estimate v team) (hts : ∀ v ∈ order, P.assignedTimes v = none)
    (hnd : ∀ v ∈ order, (E.chain v).Nodup)
    (hlag : ∀ v ∈ order, ∀ u ∈ E.chain v, ∀ e ∈ E.edgesTo u, e.1 ∈ E.chain v → e.2 ≤ 0)
    (hP : 0 ≤ P.parentTime) (hinf : P.parentTime ≤ inf)
    (hrange : TimesInRange E.edgesTo inf st'.sched) (hfirst : first = true → st.sched = [])
    (hall : ∀ v ts, P.assignedTimes v = some ts → NonNegTimes ts)
    (h : buildFrom E P inf fuelIn fuel first order st = some (some st')) :
    Run (After E P.parentTime) E.chain order st.sched st'.sched := by
  induction order generalizing first st with
  | nil => simp only [buildFrom, Option.some.injEq] at h; subst h; exact .nil
  | cons v vs ih =>
    have hrun := buildFrom_run hest hall hP hinf h
    simp only [buildFrom] at h
    split at h
    · simp at h
    · simp at h
    · rename_i st1 h1
      obtain ⟨team, c, start, fin, _, hrow⟩ := step_after hest (hts v (by simp)) (hnd v (by simp)) (hlag v (by simp)) hP hinf
        (fun x hx => hrange x (hrun.subset x hx)) hfirst h1
      exact .cons hrow (ih (fun u hu => hts u (by simp [hu])) (fun u hu => hnd u (by simp [hu]))
        (fun u hu => hlag u (by simp [hu])) (by simp) h)

/-- Invariant of a run: the timeline is a history of placements that cover the works of the schedule. -/
def Covered (pool : AgentId → Option Int) (st : State σ) : Prop :=
  ∃ ps, History pool st.tl ps ∧ ∀ a t, busy st.sched.placements a t ≤ busy ps a t

theorem buildFrom_covered {pool : AgentId → Option Int} {P : Plan (State σ)} {inf : Int} {fuelIn fuel : Nat} {first : Bool}
    {order : List Nat} {st st' : State σ} (hest : ∀ v team, 0 ≤ E.estimate v team)
    (hts : ∀ v ts, P.assignedTimes v = some ts → NonNegTimes ts)
    (hteam : ∀ st v team c, P.choose st v = some (team, c) → WellFormedTeam team)
    (hP : 0 ≤ P.parentTime) (hinf : P.parentTime ≤ inf) (hst : Covered pool st)
    (h : buildFrom E P inf fuelIn fuel first order st = some (some st')) : Covered pool st' := by
  induction order generalizing first st with
  | nil => simp only [buildFrom, Option.some.injEq] at h; subst h; exact hst
  | cons v vs ih =>
    simp only [buildFrom] at h
    split at h
    · simp at h
    · simp at h
    · rename_i st1 h1
      refine ih ?_ h
      obtain ⟨team, c, start, fin, hch, hrow, hup, hge⟩ := step_row hest hts hP hinf h1
      have hwf := hteam _ _ _ _ hch
      obtain ⟨ps, hh, hb⟩ := hst
      refine ⟨⟨team, start, fin, false⟩ :: ps, .place ⟨team, start, fin, false⟩ hh hwf (by simp; omega) hrow.le hup,
        fun a t => ?_⟩
      refine Int.le_trans (hrow.busy_le hwf.2 a t) ?_
      rw [JIT.busy_cons]
      have := hb a t
      simp only
      omega

end Sampo.Momentum
