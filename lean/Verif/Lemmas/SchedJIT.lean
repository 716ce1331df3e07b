import Verif.Lemmas.Sched
import Verif.Spec.JIT

namespace Sampo.JIT

variable {σ : Type} {E : Env σ}

theorem placeChain_row {team : List Worker} {c : Nat} {times : ExecTimes} (hest : ∀ v, 0 ≤ E.estimate v team)
    (hts : NonNegTimes times) {vs : List Nat} {cur : Int} {s : σ} {sw : Sched} {r : Int × σ × Sched}
    (h : placeChain E team c times vs cur s sw = some r) : Row (AfterPreds E.edgesTo) team c vs cur sw r.1 r.2.2 := by
  induction vs generalizing cur s sw with
  | nil => simp only [placeChain, Option.some.injEq] at h; subst h; exact .nil
  | cons v vs ih =>
    simp only [placeChain] at h
    split at h
    · simp only [Option.bind_eq_some_iff] at h
      obtain ⟨d, _, h⟩ := h
      have hlt : 0 ≤ ((times v).getD (0, E.estimate v team)).1 ∧ 0 ≤ ((times v).getD (0, E.estimate v team)).2 := by
        cases hv : times v with
        | none => exact ⟨Int.le_refl _, hest v⟩
        | some lt => exact hts v lt.1 lt.2 hv
      refine Row.cons ?_ ?_ hlt.2 (ih h)
      · intro e he y hy
        have := le_minStart he hy
        omega
      · omega
    · cases h

theorem findLoop_report {tl : Timeline} {env : σ} {node : Nat} {team : List Worker} {ind : Bool} {exec : Int} {fuel : Nat}
    {cur r : Int} (h : findLoop E tl env node team ind exec fuel cur = some (some r)) :
    ∃ from_, findMinStart tl ind team from_ = some r := by
  induction fuel generalizing cur with
  | zero => simp [findLoop] at h
  | succ n ih =>
    simp only [findLoop] at h
    split at h
    · simp at h
    · rename_i cur' hc
      split at h
      · exact ih h
      · split at h
        · exact ih h
        · simp only [Option.some.injEq] at h; subst h; exact ⟨cur, hc⟩

theorem startFor_ge {P : Plan (State σ)} {first last : Bool} {env : σ} {found : Int} {es : σ × Int}
    (h : startFor E P first last env found = some es) : (if first then P.parentTime else found) ≤ es.2 := by
  simp only [startFor] at h
  split at h
  · simp only [Option.map_eq_some_iff] at h
    obtain ⟨z, _, rfl⟩ := h
    simp only; omega
  · simp only [Option.some.injEq] at h; subst h; simp

/-- Everything the theorems need about one round. -/
theorem step_spec {P : Plan (State σ)} {fuel : Nat} {first last : Bool} {st st' : State σ} {v : Nat}
    (hest : ∀ v team, 0 ≤ E.estimate v team) (hts : ∀ v ts, P.assignedTimes v = some ts → NonNegTimes ts)
    (h : step E P fuel first last st v = some (some st')) :
    ∃ team c start fin, P.choose st v = some (team, c) ∧
      Row (AfterPreds E.edgesTo) team c (E.chain v) start st.sched fin st'.sched ∧
      update st.tl fin (P.independent v) team = some st'.tl ∧
      (first = true → P.parentTime ≤ start) ∧
      (first = false → st.sched ≠ [] →
        ∃ from_ t, findMinStart st.tl (P.independent v) team from_ = some t ∧ t ≤ start) := by
  simp only [step] at h
  split at h
  · simp at h
  · rename_i c hc
    split at h
    · simp at h
    · simp at h
    · rename_i f hf
      simp only [Option.some.injEq, Option.bind_eq_some_iff, scheduleAt, Option.map_eq_some_iff] at h
      obtain ⟨es, hes, r, hr, tl', htl, env', henv, rfl⟩ := h
      have hge := startFor_ge hes
      refine ⟨c.1, c.2, es.2, r.1, hc, placeChain_row (fun v => hest v _) ?_ hr, htl, ?_, ?_⟩
      · cases hv : P.assignedTimes v with
        | none => intro v l d h; simp at h
        | some ts => exact hts v ts hv
      · rintro rfl; simpa using hge
      · rintro rfl hne
        simp only [Bool.false_eq_true, if_false] at hge
        simp only [find, List.isEmpty_iff, hne, if_false, Option.map_eq_some_iff] at hf
        obtain ⟨o, ho, hf⟩ := hf
        obtain ⟨t, rfl, rfl⟩ := hf
        obtain ⟨from_, hfm⟩ := findLoop_report ho
        exact ⟨from_, t, hfm, hge⟩

theorem buildFrom_run {P : Plan (State σ)} {fuel : Nat} {first : Bool} {order : List Nat} {st st' : State σ}
    (hest : ∀ v team, 0 ≤ E.estimate v team) (hts : ∀ v ts, P.assignedTimes v = some ts → NonNegTimes ts)
    (h : buildFrom E P fuel first order st = some (some st')) :
    Run (AfterPreds E.edgesTo) E.chain order st.sched st'.sched := by
  induction order generalizing first st with
  | nil => simp only [buildFrom, Option.some.injEq] at h; subst h; exact .nil
  | cons v vs ih =>
    simp only [buildFrom] at h
    split at h
    · simp at h
    · simp at h
    · rename_i st1 h1
      obtain ⟨team, c, start, fin, _, hrow, _⟩ := step_spec hest hts h1
      exact .cons hrow (ih h)

theorem busy_nil (a : AgentId) (t : Int) : busy [] a t = 0 := rfl

/-- On a fresh timeline everybody is free at time 0. -/
theorem fresh_report {pool : AgentId → Option Int} {team : List Worker} (ind : Bool) (hwp : WithinPool pool team) :
    findMinStart (init pool) ind team 0 = some 0 := by
  induction team with
  | nil => rfl
  | cons w team ih =>
    obtain ⟨c, hc, hle⟩ := hwp w (List.mem_cons_self ..)
    have hask : ask ind [⟨0, c⟩] w.count 0 = some 0 := by
      cases ind with
      | true => simp [ask, latest]
      | false =>
        simp only [ask, Bool.false_eq_true, if_false, grabWrap]
        rw [grab.eq_def]
        by_cases h : w.count > 0
        · simp only [h, if_true, List.cons_append, List.nil_append]
          have h0 : w.count - (if w.count < c then w.count else c) = 0 := by split <;> omega
          rw [h0, grab.eq_def]
          simp
        · simp [h]
    simp only [findMinStart, init, hc, Option.map_some, Option.bind_eq_bind, Option.bind_some, hask]
    exact ih fun w hw => hwp w (List.mem_cons_of_mem _ hw)

/-- Invariant of a run: the timeline is a history of placements that cover the works of the schedule. -/
def Covered (pool : AgentId → Option Int) (st : State σ) : Prop :=
  ∃ ps, History pool st.tl ps ∧ ∀ a t, busy st.sched.placements a t ≤ busy ps a t

theorem step_covered {pool : AgentId → Option Int} {P : Plan (State σ)} {fuel : Nat} {first last : Bool}
    {st st' : State σ} {v : Nat}
    (hest : ∀ v team, 0 ≤ E.estimate v team) (hts : ∀ v ts, P.assignedTimes v = some ts → NonNegTimes ts)
    (hteam : ∀ st v team c, P.choose st v = some (team, c) → WellFormedTeam team ∧ WithinPool pool team)
    (hP : 0 ≤ P.parentTime)
    (hst : (first = true ∧ st.tl = init pool ∧ st.sched = []) ∨ (first = false ∧ st.sched ≠ [] ∧ Covered pool st))
    (h : step E P fuel first last st v = some (some st')) : Covered pool st' := by
  obtain ⟨team, c, start, fin, hch, hrow, hup, hf, hnf⟩ := step_spec hest hts h
  obtain ⟨hwf, hwp⟩ := hteam _ _ _ _ hch
  obtain ⟨ps, hh, hb, from_, t, hrep, hts⟩ : ∃ ps, History pool st.tl ps ∧
      (∀ a t, busy st.sched.placements a t ≤ busy ps a t) ∧
      ∃ from_ t, findMinStart st.tl (P.independent v) team from_ = some t ∧ t ≤ start := by
    rcases hst with ⟨h1, h2, h3⟩ | ⟨h1, h2, ps, h3, h4⟩
    · refine ⟨[], h2 ▸ .fresh, ?_, 0, 0, ?_, ?_⟩
      · intro a t; rw [h3]; exact Int.le_refl _
      · rw [h2]; exact fresh_report _ hwp
      · have := hf h1; omega
    · exact ⟨ps, h3, h4, hnf h1 h2⟩
  refine ⟨⟨team, start, fin, P.independent v⟩ :: ps, .place ⟨team, start, fin, P.independent v⟩ from_ t hh hwf hwp hrep hts
    hrow.le hup, fun a t => ?_⟩
  refine Int.le_trans (hrow.busy_le hwf.2 a t) ?_
  rw [busy_cons]
  have := hb a t
  simp only
  omega

theorem buildFrom_covered {pool : AgentId → Option Int} {P : Plan (State σ)} {fuel : Nat} {first : Bool}
    {order : List Nat} {st st' : State σ}
    (hest : ∀ v team, 0 ≤ E.estimate v team) (hts : ∀ v ts, P.assignedTimes v = some ts → NonNegTimes ts)
    (hchain : ∀ v, v ∈ E.chain v)
    (hteam : ∀ st v team c, P.choose st v = some (team, c) → WellFormedTeam team ∧ WithinPool pool team)
    (hP : 0 ≤ P.parentTime)
    (hst : (first = true ∧ st.tl = init pool ∧ st.sched = []) ∨ (first = false ∧ st.sched ≠ [] ∧ Covered pool st))
    (h : buildFrom E P fuel first order st = some (some st')) : Covered pool st' := by
  induction order generalizing first st with
  | nil =>
    simp only [buildFrom, Option.some.injEq] at h; subst h
    rcases hst with ⟨_, h1, h2⟩ | ⟨_, _, h1⟩
    · exact ⟨[], h1 ▸ .fresh, fun a t => by rw [h2]; exact Int.le_refl _⟩
    · exact h1
  | cons v vs ih =>
    simp only [buildFrom] at h
    split at h
    · simp at h
    · simp at h
    · rename_i st1 h1
      refine ih (.inr ⟨rfl, ?_, step_covered hest hts hteam hP hst h1⟩) h
      obtain ⟨team, c, start, fin, _, hrow, _⟩ := step_spec hest hts h1
      intro he
      have := hrow.works
      rw [he] at this
      have hv := hchain v
      have h2 : E.chain v = [] := by
        have := congrArg List.length this
        simp [Sched.works] at this
        exact List.length_eq_zero_iff.mp (by omega)
      rw [h2] at hv; simp at hv

end Sampo.JIT
