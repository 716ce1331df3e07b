import Verif.Lemmas.Sched
import Verif.Lemmas.MomentumHistory
import Verif.Spec.Momentum

namespace Sampo.Momentum

variable {σ : Type} {E : Env σ}

/-! ### Lower bounds of the search -/

theorem queueLoop_ge {rt : Resources} {cnt : Nat → Option Int} {exec : Int} {ind : Bool} {fuel : Nat} {queue sched : List Nat}
    {start r : Int} (h : queueLoop rt cnt exec ind fuel queue sched start = some (some r)) : start ≤ r := by
  induction fuel generalizing queue sched start with
  | zero => simp [queueLoop] at h
  | succ n ih =>
    cases queue with
    | nil => simp only [queueLoop, Option.some.injEq] at h; omega
    | cons k queue =>
      simp only [queueLoop] at h
      split at h
      · split at h
        · simp at h
        · simp at h
        · split at h
          · simp at h
          · split at h <;> have := ih h <;> omega
      · simp at h

theorem findMinStart_ge {rt : Resources} {chain : List ChainWork} {ind : Bool} {parent exec inf : Int}
    {workers : List Worker} {fuel : Nat} {r : Int}
    (h : findMinStart rt chain ind parent exec workers inf fuel = some (some r)) : parent ≤ r ∨ r = inf := by
  simp only [findMinStart] at h
  split at h
  · simp only [Option.some.injEq] at h; omega
  · split at h
    · simp at h
    · simp only [Option.some.injEq] at h; omega
    · split at h
      · simp at h
      · exact .inl (queueLoop_ge h)

theorem findLoop_ge {tl : Timeline} {env : σ} {node : Nat} {team : List Worker} {c : Nat} {ind : Bool} {exec inf : Int}
    {fuelIn fuel : Nat} {cur r b : Int} (hb : b ≤ cur) (hinf : b ≤ inf)
    (h : findLoop E tl env node team c ind exec inf fuelIn fuel cur = some (some r)) : b ≤ r := by
  induction fuel generalizing cur with
  | zero => simp [findLoop] at h
  | succ n ih =>
    simp only [findLoop] at h
    split at h
    · simp at h
    · simp at h
    · rename_i cur' hc
      have hge := findMinStart_ge hc
      split at h
      · exact ih (by omega) h
      · split at h
        · exact ih (by omega) h
        · simp only [Option.some.injEq] at h; omega

theorem find_times {st : State σ} {node : Nat} {team : List Worker} {ind : Bool} {assigned : Option Int} {P inf : Int}
    {fuelIn fuel : Nat} {f : Found} (h : find E st node team ind assigned P inf fuelIn fuel = some (some f)) :
    f.times = (execTimes E st.sched team assigned P (parentTimeOf E st.sched assigned P node) (E.chain node) 0).1 := by
  simp only [find] at h
  split at h
  · simp only [Option.some.injEq] at h; subst h; rfl
  · simp only [Option.map_eq_some_iff] at h
    obtain ⟨o, _, h⟩ := h
    obtain ⟨t, _, rfl⟩ := h
    rfl

/-- The found start is not before the parents, if the assigned start is not. -/
theorem find_ge {st : State σ} {node : Nat} {team : List Worker} {ind : Bool} {assigned : Option Int} {P inf : Int}
    {fuelIn fuel : Nat} {f : Found} (h : find E st node team ind assigned P inf fuelIn fuel = some (some f))
    (hinf : parentTimeOf E st.sched assigned P node ≤ inf)
    (ha : ∀ a, assigned = some a → parentTimeOf E st.sched assigned P node ≤ a) :
    parentTimeOf E st.sched assigned P node ≤ f.start := by
  simp only [find] at h
  split at h
  · simp only [Option.some.injEq] at h; subst h; simp only; omega
  · simp only [Option.map_eq_some_iff, findStart] at h
    obtain ⟨o, ho, h⟩ := h
    obtain ⟨t, rfl, rfl⟩ := h
    simp only
    split at ho
    · simp at ho
    · simp at ho
    · rename_i t' ht'
      simp only [Option.some.injEq, Option.map_eq_some_iff] at ho
      obtain ⟨_, _, rfl⟩ := ho
      cases assigned with
      | some a => simp only [Option.some.injEq] at ht'; subst ht'; exact ha _ rfl
      | none => exact findLoop_ge (Int.le_refl _) hinf ht'

/-! ### Rows of the momentum timeline -/

theorem execTimes_nonneg {sw : Sched} {team : List Worker} {assigned : Option Int} {P mp : Int}
    (hest : ∀ v, 0 ≤ E.estimate v team) (vs : List Nat) (exec : Int) :
    ∀ e ∈ (execTimes E sw team assigned P mp vs exec).1, 0 ≤ e.2.1 ∧ 0 ≤ e.2.2 := by
  induction vs generalizing exec with
  | nil => simp [execTimes]
  | cons v vs ih =>
    intro e he
    simp only [execTimes] at he
    rcases List.mem_cons.mp he with rfl | he
    · simp only
      refine ⟨by split <;> omega, ?_⟩
      split
      · omega
      · exact hest v
    · exact ih _ e he

theorem timesOf_nonneg {l : List (Nat × Int × Int)} (h : ∀ e ∈ l, 0 ≤ e.2.1 ∧ 0 ≤ e.2.2) : NonNegTimes (timesOf l) := by
  intro v lag d hv
  simp only [timesOf, Option.map_eq_some_iff] at hv
  obtain ⟨e, he, heq⟩ := hv
  have := h e (List.mem_of_find?_eq_some he)
  rw [heq] at this
  exact this

theorem placeChain_row {team : List Worker} {c : Nat} {times : ExecTimes} (hest : ∀ v, 0 ≤ E.estimate v team)
    (hts : NonNegTimes times) {vs : List Nat} {cur : Int} {s : σ} {sw : Sched} {r : Int × σ × Sched}
    (h : placeChain E team c times vs cur s sw = some r) : Row (fun _ _ _ => True) team c vs cur sw r.1 r.2.2 := by
  induction vs generalizing cur s sw with
  | nil => simp only [placeChain, Option.some.injEq] at h; subst h; exact .nil
  | cons v vs ih =>
    simp only [placeChain, Option.bind_eq_some_iff] at h
    obtain ⟨d, _, h⟩ := h
    have hlt : 0 ≤ ((times v).getD (0, E.estimate v team)).1 ∧ 0 ≤ ((times v).getD (0, E.estimate v team)).2 := by
      cases hv : times v with
      | none => exact ⟨Int.le_refl _, hest v⟩
      | some lt => exact hts v lt.1 lt.2 hv
    exact Row.cons trivial (by omega) hlt.2 (ih h)

/-- The relation proved for the rows of a momentum timeline. -/
def After (E : Env σ) (P : Int) (v : Nat) (sw : Sched) (st : Int) : Prop := AfterPreds E.edgesTo v sw st ∧ P ≤ st

theorem placeChain_after {team : List Worker} {c : Nat} {times : ExecTimes} (hest : ∀ v, 0 ≤ E.estimate v team)
    {sw0 : Sched} {a : Option Int} {P mp : Int} {C : List Nat} {vs : List Nat} {exec cur : Int} {s : σ} {sw : Sched}
    {r : Int × σ × Sched} (hnd : vs.Nodup) (hC : ∀ v ∈ vs, v ∈ C)
    (htimes : ∀ v ∈ vs, times v = timesOf (execTimes E sw0 team a P mp vs exec).1 v)
    (hmp : mp + exec ≤ cur)
    (hsw : ∀ u y, sw.get u = some y → sw0.get u = some y ∨ (u ∈ C ∧ y.finish ≤ cur))
    (hlag : ∀ v ∈ vs, ∀ e ∈ E.edgesTo v, e.1 ∈ C → e.2 ≤ 0)
    (h : placeChain E team c times vs cur s sw = some r) : Row (After E P) team c vs cur sw r.1 r.2.2 := by
  induction vs generalizing exec cur s sw with
  | nil => simp only [placeChain, Option.some.injEq] at h; subst h; exact .nil
  | cons v vs ih =>
    simp only [placeChain, Option.bind_eq_some_iff] at h
    obtain ⟨d, _, h⟩ := h
    rw [List.nodup_cons] at hnd
    have hv := htimes v (List.mem_cons_self ..)
    have hnn := execTimes_nonneg (sw := sw0) (assigned := a) (P := P) (mp := mp) hest (v :: vs) exec _
      (by simp only [execTimes]; exact List.mem_cons_self ..)
    simp only at hnn
    simp only [execTimes, timesOf, List.find?_cons, decide_true, Option.map_some] at hv
    rw [hv, Option.getD_some] at h
    simp only at h
    generalize ht : (if (E.kinds v).isEmpty = true then 0 else E.estimate v team) = t at *
    generalize hl : (if parentTimeOf E sw0 a P v - mp - exec > 0 then parentTimeOf E sw0 a P v - mp - exec else 0) = lag at *
    have hlag1 : parentTimeOf E sw0 a P v - mp - exec ≤ lag := by subst hl; split <;> omega
    have hpt : minStart (E.edgesTo v) sw0 ≤ parentTimeOf E sw0 a P v ∧ P ≤ parentTimeOf E sw0 a P v := by
      unfold parentTimeOf applySpec
      cases a <;> simp only <;> omega
    refine Row.cons ⟨?_, by omega⟩ (by omega) hnn.2 (ih (exec := exec + (lag + t)) hnd.2
      (fun u hu => hC u (List.mem_cons_of_mem _ hu)) ?_ (by omega) ?_ (fun u hu => hlag u (List.mem_cons_of_mem _ hu)) h)
    · intro e he y hy
      rcases hsw e.1 y hy with h1 | ⟨h1, h2⟩
      · have := le_minStart he h1
        omega
      · have := hlag v (List.mem_cons_self ..) e he h1
        omega
    · intro u hu
      have hne : v ≠ u := by rintro rfl; exact hnd.1 hu
      have := htimes u (List.mem_cons_of_mem _ hu)
      simp only [execTimes, timesOf, List.find?_cons, hne, decide_false, ht, hl] at this
      exact this
    · intro u y hy
      rw [get_cons] at hy
      split at hy
      · cases hy
        right
        rename_i huv
        subst huv
        exact ⟨hC _ (List.mem_cons_self ..), Int.le_refl _⟩
      · rcases hsw u y hy with h1 | ⟨h1, h2⟩
        · exact .inl h1
        · exact .inr ⟨h1, by omega⟩

theorem placeChain_min {team : List Worker} {c : Nat} {times : ExecTimes} (hest : ∀ v, 0 ≤ E.estimate v team)
    {sw0 : Sched} {a : Option Int} {P mp : Int} {vs : List Nat} {exec cur : Int} {s : σ} {sw : Sched}
    {r : Int × σ × Sched} (hnd : vs.Nodup)
    (htimes : ∀ v ∈ vs, times v = timesOf (execTimes E sw0 team a P mp vs exec).1 v)
    (hmp : mp + exec ≤ cur)
    (h : placeChain E team c times vs cur s sw = some r) : Row (fun v _ st => minStart (E.edgesTo v) sw0 ≤ st ∧ P ≤ st) team c vs cur sw r.1 r.2.2 := by
  induction vs generalizing exec cur s sw with
  | nil => simp only [placeChain, Option.some.injEq] at h; subst h; exact .nil
  | cons v vs ih =>
    simp only [placeChain, Option.bind_eq_some_iff] at h
    obtain ⟨d, _, h⟩ := h
    rw [List.nodup_cons] at hnd
    have hv := htimes v (List.mem_cons_self ..)
    have hnn := execTimes_nonneg (sw := sw0) (assigned := a) (P := P) (mp := mp) hest (v :: vs) exec _
      (by simp only [execTimes]; exact List.mem_cons_self ..)
    simp only at hnn
    simp only [execTimes, timesOf, List.find?_cons, decide_true, Option.map_some] at hv
    rw [hv, Option.getD_some] at h
    simp only at h
    generalize ht : (if (E.kinds v).isEmpty = true then 0 else E.estimate v team) = t at *
    generalize hl : (if parentTimeOf E sw0 a P v - mp - exec > 0 then parentTimeOf E sw0 a P v - mp - exec else 0) = lag at *
    have hlag1 : parentTimeOf E sw0 a P v - mp - exec ≤ lag := by subst hl; split <;> omega
    have hpt : minStart (E.edgesTo v) sw0 ≤ parentTimeOf E sw0 a P v ∧ P ≤ parentTimeOf E sw0 a P v := by
      unfold parentTimeOf applySpec
      cases a <;> simp only <;> omega
    refine Row.cons ⟨by omega, by omega⟩ (by omega) hnn.2 (ih (exec := exec + (lag + t)) hnd.2 ?_ (by omega) h)
    intro u hu
    have hne : v ≠ u := by rintro rfl; exact hnd.1 hu
    have := htimes u (List.mem_cons_of_mem _ hu)
    simp only [execTimes, timesOf, List.find?_cons, hne, decide_false, ht, hl] at this
    exact this

/-- What `schedule` does, for any assigned start and durations. -/
theorem schedule_row {st st' : State σ} {node : Nat} {team : List Worker} {c : Nat} {ind : Bool} {assigned : Option Int}
    {ats : Option ExecTimes} {P inf : Int} {fuelIn fuel : Nat} (hest : ∀ v, 0 ≤ E.estimate v team)
    (hts : ∀ ts, ats = some ts → NonNegTimes ts)
    (h : schedule E st node team c ind assigned ats P inf fuelIn fuel = some (some st')) :
    ∃ f fin, find E st node team ind assigned P inf fuelIn fuel = some (some f) ∧
      Row (fun _ _ _ => True) team c (E.chain node) f.start st.sched fin st'.sched ∧
      update st.tl fin (fin - f.start) team = some st'.tl := by
  simp only [schedule, Option.map_eq_some_iff] at h
  obtain ⟨o, ho, h⟩ := h
  simp only [Option.bind_eq_some_iff, scheduleAt, Option.map_eq_some_iff] at h
  obtain ⟨f, rfl, r, hr, tl', htl, env', _, rfl⟩ := h
  refine ⟨f, r.1, ho, placeChain_row hest ?_ hr, htl⟩
  cases ats with
  | none =>
    simp only [Option.getD_none]
    rw [find_times ho]
    exact timesOf_nonneg (execTimes_nonneg hest _ _)
  | some ts => exact hts ts rfl

/-- What `schedule` does when durations are not assigned. -/
theorem schedule_after {st st' : State σ} {node : Nat} {team : List Worker} {c : Nat} {ind : Bool} {assigned : Option Int}
    {P inf : Int} {fuelIn fuel : Nat} (hest : ∀ v, 0 ≤ E.estimate v team) (hnd : (E.chain node).Nodup)
    (hlag : ∀ v ∈ E.chain node, ∀ e ∈ E.edgesTo v, e.1 ∈ E.chain node → e.2 ≤ 0)
    (hinf : parentTimeOf E st.sched assigned P node ≤ inf)
    (ha : ∀ a, assigned = some a → parentTimeOf E st.sched assigned P node ≤ a)
    (h : schedule E st node team c ind assigned none P inf fuelIn fuel = some (some st')) :
    ∃ start fin, Row (After E P) team c (E.chain node) start st.sched fin st'.sched := by
  simp only [schedule, Option.map_eq_some_iff] at h
  obtain ⟨o, ho, h⟩ := h
  simp only [Option.bind_eq_some_iff, scheduleAt, Option.map_eq_some_iff] at h
  obtain ⟨f, rfl, r, hr, tl', htl, env', _, rfl⟩ := h
  refine ⟨f.start, r.1, placeChain_after hest hnd (C := E.chain node) (fun _ h => h) (sw0 := st.sched)
    (a := assigned) (P := P) (mp := parentTimeOf E st.sched assigned P node) (exec := 0) ?_ ?_ ?_ hlag hr⟩
  · intro v _
    simp only [Option.getD_none]
    rw [find_times ho]
  · have := find_ge ho hinf ha
    omega
  · exact fun u y hy => .inl hy

theorem schedule_min {st st' : State σ} {node : Nat} {team : List Worker} {c : Nat} {ind : Bool} {assigned : Option Int}
    {P inf : Int} {fuelIn fuel : Nat} (hest : ∀ v, 0 ≤ E.estimate v team) (hnd : (E.chain node).Nodup)
    (hinf : parentTimeOf E st.sched assigned P node ≤ inf)
    (ha : ∀ a, assigned = some a → parentTimeOf E st.sched assigned P node ≤ a)
    (h : schedule E st node team c ind assigned none P inf fuelIn fuel = some (some st')) :
    ∃ start fin, Row (fun v _ t => minStart (E.edgesTo v) st.sched ≤ t ∧ P ≤ t) team c (E.chain node) start st.sched fin
      st'.sched := by
  simp only [schedule, Option.map_eq_some_iff] at h
  obtain ⟨o, ho, h⟩ := h
  simp only [Option.bind_eq_some_iff, scheduleAt, Option.map_eq_some_iff] at h
  obtain ⟨f, rfl, r, hr, tl', htl, env', _, rfl⟩ := h
  refine ⟨f.start, r.1, placeChain_min hest hnd (sw0 := st.sched)
    (a := assigned) (P := P) (mp := parentTimeOf E st.sched assigned P node) (exec := 0) ?_ ?_ hr⟩
  · intro v _
    simp only [Option.getD_none]
    rw [find_times ho]
  · have := find_ge ho hinf ha
    omega

end Sampo.Momentum
