import Verif.Lemmas.SupplyQuery

/-!
# C86: what the supply timeline promises

Before a work is put into the schedule, the supply timeline is asked whether its materials can be there at a moment, or from
which moment on they can.  An affirmative answer is kept by the delivery that follows.
-/

namespace Sampo.C86

open Supply

/-- All works served so far on the platform of the work have got their materials at or before the moment. -/
def ServedBefore (l : Land) (log : List Served) (w : Work) (t : Int) : Prop :=
  ∀ s ∈ log, l.platform s.work.id = l.platform w.id → s.time ≤ t

private theorem quiet {l : Land} {st : State} {log : List Served} (h : History l st log) {w : Work} {t : Int} (h0 : 0 ≤ t)
    (hb : ServedBefore l log w t) {ok : Bool} (hc : calm st.platforms (l.platform w.id) t w.needs = some ok) :
    Quiet st.platforms (l.platform w.id) t w.needs := by
  intro m hm
  obtain ⟨s, hs⟩ := (calm_some hc).1 m hm
  exact ⟨s, hs, fun e he => ((history_tidy h _ _ s hs).2 t h0 hb e he).1⟩

/-- The moment found is not before the moment asked for. -/
theorem found_not_earlier {l : Land} {st : State} {w : Work} {t u : Int} (h : findMin l st w t = some u) : t ≤ u := by
  rcases findMin_cases h with ⟨_, rfl⟩ | ⟨_, ok, t', req, _, ht', _, hs⟩
  · exact Int.le_refl _
  · have := supplyTime_ge hs
    cases ok with
    | true => simp at ht'; omega
    | false => have := lastTimes_ge (by simpa using ht'); omega

/-- Both questions agree: the materials can be there at a moment if and only if the moment found for it is that moment. -/
theorem can_iff_found {l : Land} {st : State} {log : List Served} (h : History l st log) {w : Work} {t : Int} :
    canSchedule l st w t = some true ↔ findMin l st w t = some t := by
  constructor
  · intro hc
    unfold canSchedule at hc
    unfold findMin
    by_cases hno : w.needs = [] ∨ w.service = true
    · rw [if_pos hno.symm]
    · rw [if_neg hno] at hc
      rw [if_neg fun hh => hno hh.symm]
      simp only [Option.bind_eq_some_iff] at hc
      obtain ⟨ok, hok, hc⟩ := hc
      cases ok with
      | false => simp at hc
      | true =>
        simp only [if_true, Option.bind_eq_some_iff] at hc
        obtain ⟨req, hreq, hc⟩ := hc
        simp only [findReady, hok, Option.bind_some, if_true, hreq, Option.map_some]
        split at hc
        · rename_i hr; rw [if_pos hr]
        · rename_i hr
          rw [if_neg hr]
          unfold canDeliver at hc
          simp only [Option.bind_eq_some_iff] at hc
          obtain ⟨u, hu, hc⟩ := hc
          split at hc
          · simp at hc; subst hc; exact hu
          · simp at hc
  · intro hf
    rcases findMin_cases hf with ⟨hno, _⟩ | ⟨hno, ok, t', req, hok, ht', hreq, hs⟩
    · unfold canSchedule; rw [if_pos hno]
    · have hge := supplyTime_ge hs
      cases ok with
      | false =>
        exfalso
        obtain ⟨m, hm, s, hss, x, hx, hlt⟩ := (calm_some hok).2 rfl
        obtain ⟨s', e, hs', he, hle⟩ := lastTimes_last (by simpa using ht') m hm
        rw [hss] at hs'; cases hs'
        have := (history_tidy h _ _ s hss).1.le_last he hx
        omega
      | true =>
        simp at ht'; subst ht'
        unfold canSchedule
        rw [if_neg hno]
        simp only [hok, Option.bind_some, if_true, hreq]
        split
        · rfl
        · simp [canDeliver, hs]

/-- A promise is kept: if the materials can be there at a moment, they are there at that moment when they are delivered. -/
theorem delivered_when_promised {l : Land} {st : State} {w : Work} {t : Int} (hc : canSchedule l st w t = some true)
    {out : Outcome} (hd : deliver l st w t = some out) : out.time = t := by
  rcases deliver_platform hd with ⟨_, _, _, h⟩ | ⟨_, _, _, h, _⟩ | ⟨req, hsv, hr, hreq, o, use, hp, _, _, _, h⟩
  · exact h
  · exact h
  · unfold canSchedule at hc
    rw [if_neg (by
      rintro (hh | hh)
      · rw [hh] at hreq; simp [request] at hreq; exact hr hreq
      · rw [hsv] at hh; simp at hh)] at hc
    simp only [Option.bind_eq_some_iff] at hc
    obtain ⟨ok, _, hc⟩ := hc
    cases ok with
    | false => simp at hc
    | true =>
      simp only [if_true, hreq, Option.bind_some, if_neg hr] at hc
      simp only [canDeliver, supplyTime, if_neg hr, hp, Option.map_some, Option.bind_some] at hc
      split at hc
      · simp at hc; rw [h]; exact hc
      · simp at hc

/-- ... and the delivery is made: no exception is raised. -/
theorem promise_kept {l : Land} (hl : Sensible l) {st : State} {log : List Served} (h : History l st log)
    (hm : ∀ s ∈ log, Modest l s.work) (hcal : InCalendar log) {w : Work} (hw : Modest l w) (hh : Housed l w) {t : Int}
    (h0 : 0 ≤ t) (hinf : t < TIME_INF) (hc : canSchedule l st w t = some true) :
    ∃ out, deliver l st w t = some out ∧ out.time = t := by
  suffices hs : ∃ out, deliver l st w t = some out by
    obtain ⟨out, ho⟩ := hs
    exact ⟨out, ho, delivered_when_promised hc ho⟩
  have hinv := history_inv hl.long h hm hcal
  have hknown := history_known hl.long h hm
  by_cases hno : w.needs = [] ∨ w.service = true
  · exact ⟨_, by unfold deliver; rw [if_pos hno]⟩
  unfold canSchedule at hc
  rw [if_neg hno] at hc
  simp only [Option.bind_eq_some_iff] at hc
  obtain ⟨ok, hok, hc⟩ := hc
  cases ok with
  | false => simp at hc
  | true =>
    simp only [if_true, Option.bind_eq_some_iff] at hc
    obtain ⟨req, hreq, hc⟩ := hc
    by_cases hr : req = []
    · obtain ⟨p, hp⟩ := takeAll_exists hh.1 h0 hknown hh.2
      exact ⟨_, by unfold deliver; rw [if_neg hno]; simp [hreq, hr, hok, hp]; rfl⟩
    · rw [if_neg hr] at hc
      simp only [canDeliver, supplyTime, if_neg hr, Option.bind_eq_some_iff, Option.map_eq_some_iff] at hc
      obtain ⟨u, ⟨o, ho, rfl⟩, hc⟩ := hc
      have hu : o.start + o.ahead = t := by
        split at hc
        · simpa using hc
        · simp at hc
      have hpos : ∀ m ∈ req, 0 ≤ m.count ∧ m.name ≠ vehicles := request_nonneg hw hreq
      obtain ⟨_, _, _, _, start, hs0, hoff⟩ := plan_spec ho
      have hok' := (offer_ok hl.long hoff).2
      have := hok'.later
      have := hok'.ahead
      obtain ⟨tl, htl⟩ := book_plan hl hinv hcal ((request_sublist hreq).nodup hw.1) hpos ho (by omega)
      obtain ⟨use, hu'⟩ := platformUse_exists (needs := w.needs) (mats := req) (by
        intro m hmm
        obtain ⟨q, hq, hn, _⟩ := request_mem hreq m hmm
        exact ⟨q, hq, hn⟩)
      obtain ⟨p, hp⟩ := takeAll_exists (l := l) hh.1 (start := o.start + o.ahead) (by omega) hknown (mats := use) (by
          intro u hu''
          obtain ⟨_, _, q, hq, _, hqn, _⟩ := (platformUse_spec hu').2 u hu''
          rw [← hqn]; exact hh.2 q hq)
      exact ⟨_, by unfold deliver; rw [if_neg hno]; simp [hreq, hr, supply, ho, hu', hp, htl]; rfl⟩

/-- Partial: a refusal is justified: the materials come later than asked for - if the works of the platform served so far have
got their materials before.  Missing: moments before such a work (`refused_though_there`). -/
theorem refusal_justified_partial {l : Land} {st : State} {log : List Served} (h : History l st log) {w : Work} {t : Int}
    (h0 : 0 ≤ t) (hb : ServedBefore l log w t) (hc : canSchedule l st w t = some false) {out : Outcome}
    (hd : deliver l st w t = some out) : t < out.time := by
  unfold canSchedule at hc
  by_cases hno : w.needs = [] ∨ w.service = true
  · rw [if_pos hno] at hc; simp at hc
  · rw [if_neg hno] at hc
    simp only [Option.bind_eq_some_iff] at hc
    obtain ⟨ok, hok, hc⟩ := hc
    have hq := calm_quiet (quiet h h0 hb hok)
    rw [hok] at hq; cases hq
    simp only [if_true, Option.bind_eq_some_iff] at hc
    obtain ⟨req, hreq, hc⟩ := hc
    by_cases hr : req = []
    · rw [if_pos hr] at hc; simp at hc
    · rw [if_neg hr] at hc
      rcases deliver_platform hd with ⟨h1, _⟩ | ⟨_, h1, _⟩ | ⟨req', _, _, h1, o, use, hp, _, _, _, h6⟩
      · exact absurd h1 hno
      · rw [hreq] at h1; simp at h1; exact absurd h1 hr
      · rw [hreq] at h1; cases h1
        simp only [canDeliver, supplyTime, if_neg hr, hp, Option.map_some, Option.bind_some] at hc
        split at hc
        · simp at hc; omega
        · simp at hc

/-- Partial: the moment found is one at which the materials can be there, so that asking again changes nothing and the delivery
comes at that moment - if the works of the platform served so far have got their materials before the moment asked for.  Missing:
moments before such a work (`found_too_early`). -/
theorem found_settled_partial {l : Land} {st : State} {log : List Served} (h : History l st log) {w : Work} {t u : Int}
    (h0 : 0 ≤ t) (hb : ServedBefore l log w t) (hf : findMin l st w t = some u) :
    findMin l st w u = some u ∧ canSchedule l st w u = some true ∧
      ∀ out, deliver l st w u = some out → out.time = u := by
  have hfu : findMin l st w u = some u := by
    rcases findMin_cases hf with ⟨hno, rfl⟩ | ⟨hno, ok, t', req, hok, ht', hreq, hs⟩
    · exact hf
    · have hq := quiet h h0 hb hok
      rw [calm_quiet hq] at hok; cases hok
      simp at ht'; subst ht'
      have hge := supplyTime_ge hs
      have hqu := hq.mono hge
      unfold findMin
      rw [if_neg fun hh => hno hh.symm]
      simp only [findReady, calm_quiet hqu, Option.bind_some, if_true, request_later hge hq, hreq, Option.map_some]
      split
      · rfl
      · rename_i hr
        unfold supplyTime at hs ⊢
        rw [if_neg hr] at hs ⊢
        simp only [Option.map_eq_some_iff] at hs ⊢
        obtain ⟨o, ho, rfl⟩ := hs
        exact plan_later h0 ho
  have hc := (can_iff_found h).mpr hfu
  exact ⟨hfu, hc, fun out ho => delivered_when_promised hc ho⟩

/-- After materials were not ready on the platform itself the search waits for its last event, and then nothing can change any
more: the moment found is settled although works served so far got their materials later. -/
theorem found_settled_after_waiting {l : Land} {st : State} {log : List Served} (h : History l st log) {w : Work} {t u : Int}
    (h0 : 0 ≤ t) (hc : calm st.platforms (l.platform w.id) t w.needs = some false) (hf : findMin l st w t = some u) :
    findMin l st w u = some u := by
  rcases findMin_cases hf with ⟨hno, rfl⟩ | ⟨hno, ok, t', req, hok, ht', hreq, hs⟩
  · exact hf
  · rw [hc] at hok; cases hok
    simp only [Bool.false_eq_true, if_false] at ht'
    have hge' := lastTimes_ge ht'
    have hge := supplyTime_ge hs
    have hq : Quiet st.platforms (l.platform w.id) t' w.needs := by
      intro m hm
      obtain ⟨s, e, hss, he, hle⟩ := lastTimes_last ht' m hm
      exact ⟨s, hss, fun x hx => Int.le_trans ((history_tidy h _ _ s hss).1.le_last he hx) hle⟩
    have hqu := hq.mono hge
    unfold findMin
    rw [if_neg fun hh => hno hh.symm]
    simp only [findReady, calm_quiet hqu, Option.bind_some, if_true, request_later hge hq, hreq, Option.map_some]
    split
    · rfl
    · rename_i hr
      unfold supplyTime at hs ⊢
      rw [if_neg hr] at hs ⊢
      simp only [Option.map_eq_some_iff] at hs ⊢
      obtain ⟨o, ho, rfl⟩ := hs
      exact plan_later (by omega) ho

/-! ## Concrete cases -/

/-- Calls of `deliver_resources`, the last one first. -/
private def run (l : Land) : List (Work × Int) → Option (State × List Served)
  | [] => some (State.init l, [])
  | c :: cs => (run l cs).bind fun r => (deliver l r.1 c.1 c.2).map fun out =>
      (out.state, ⟨c.1, c.2, out.records, out.time, out.booked⟩ :: r.2)

private theorem run_history {l : Land} {cs : List (Work × Int)} (h0 : ∀ c ∈ cs, 0 ≤ c.2) :
    ∀ r, run l cs = some r → History l r.1 r.2 := by
  induction cs with
  | nil => intro r hr; simp [run] at hr; subst hr; exact .fresh
  | cons c cs ih =>
    intro r hr
    unfold run at hr
    simp only [Option.bind_eq_some_iff, Option.map_eq_some_iff] at hr
    obtain ⟨r', hr', out, hout, rfl⟩ := hr
    exact .serve (ih (fun x hx => h0 x (by simp [hx])) r' hr') (h0 c (by simp)) hout

private def depot : Depot := ⟨0, 0, 2, [⟨1, 5⟩, ⟨2, 10⟩], [⟨1, 100⟩, ⟨2, 100⟩]⟩

/-- One depot with two vehicles, one platform; one vehicle can take the short road, two of them only the long one. -/
private def land : Land where
  depots := [depot]
  depotsFrom _ := [depot]
  roads := [0, 1]
  bandwidth i := if i = 0 then 1 else 2
  overcome i := if i = 0 then 3 else 5
  route b _ _ := if b ≤ 1 then [0] else if b ≤ 2 then [1] else []
  platforms := [1]
  platform _ := 1
  capacity _ m := if m = 1 ∨ m = 2 then some 10 else none

private theorem land_sensible : Sensible land := by
  refine ⟨fun i => (by simp only [land]; split <;> omega), fun batch a b i hi => ?_⟩
  simp only [land] at hi ⊢
  split at hi
  · simp at hi; subst hi; simp; omega
  · split at hi
    · simp at hi; subst hi; simp; omega
    · simp at hi

/-- The first work has used up the second material; a second one asks for it at 1 and at 4. -/
example : ∃ r, run land [(⟨1, false, [⟨2, 10⟩]⟩, 0)] = some r ∧ History land r.1 r.2 ∧ Sensible land ∧
    findMin land r.1 ⟨3, false, [⟨2, 4⟩]⟩ 1 = some 3 ∧ canSchedule land r.1 ⟨3, false, [⟨2, 4⟩]⟩ 1 = some false ∧
    canSchedule land r.1 ⟨3, false, [⟨2, 4⟩]⟩ 4 = some true ∧ ServedBefore land r.2 ⟨3, false, [⟨2, 4⟩]⟩ 1 ∧
    ((deliver land r.1 ⟨3, false, [⟨2, 4⟩]⟩ 4).map fun out => (out.time, out.records)) = some (4, [⟨2, 10, 1, 4, 0⟩]) := by
  have hr : ∃ r, run land [(⟨1, false, [⟨2, 10⟩]⟩, 0)] = some r := by
    rw [← Option.isSome_iff_exists]; decide +kernel
  obtain ⟨r, hr⟩ := hr
  have k1 : ((run land [(⟨1, false, [⟨2, 10⟩]⟩, 0)]).bind fun r => findMin land r.1 ⟨3, false, [⟨2, 4⟩]⟩ 1) = some 3 := by
    decide +kernel
  have k2 : ((run land [(⟨1, false, [⟨2, 10⟩]⟩, 0)]).bind fun r => canSchedule land r.1 ⟨3, false, [⟨2, 4⟩]⟩ 1) =
    some false := by decide +kernel
  have k3 : ((run land [(⟨1, false, [⟨2, 10⟩]⟩, 0)]).bind fun r => canSchedule land r.1 ⟨3, false, [⟨2, 4⟩]⟩ 4) =
    some true := by decide +kernel
  have k4 : ((run land [(⟨1, false, [⟨2, 10⟩]⟩, 0)]).bind fun r =>
    (deliver land r.1 ⟨3, false, [⟨2, 4⟩]⟩ 4).map fun out => (out.time, out.records)) = some (4, [⟨2, 10, 1, 4, 0⟩]) := by
    decide +kernel
  have this : ((run land [(⟨1, false, [⟨2, 10⟩]⟩, 0)]).map fun r =>
    r.2.all fun s => decide (land.platform s.work.id = land.platform 3 → s.time ≤ 1)) = some true := by decide +kernel
  rw [hr] at k1 k2 k3 k4 this
  simp only [Option.map_some, Option.bind_some, Option.some.injEq] at k1 k2 k3 k4 this
  refine ⟨r, hr, run_history (by decide) r hr, land_sensible, k1, k2, k3, ?_, k4⟩
  intro s hs hp
  exact of_decide_eq_true (List.all_eq_true.mp this s hs) hp

/-- Not proved because false: "materials can be delivered at the moment that was found".  The first material is there at the
moment asked for, but not at the moment found, because a work served before takes it in between: then more has to be brought, on
another road.  Works without workers start at the first moment found: this one is found to start at 3 and starts at 5. -/
theorem found_too_early : ∃ (l : Land) (st : State) (log : List Served) (w : Work) (t u : Int) (out : Outcome), Sensible l ∧
    History l st log ∧ 0 ≤ t ∧ findMin l st w t = some u ∧ deliver l st w u = some out ∧ u < out.time := by
  let cs : List (Work × Int) := [(⟨1, false, [⟨1, 8⟩]⟩, 2), (⟨0, false, [⟨2, 10⟩]⟩, 0)]
  have hr : ∃ r, run land cs = some r := by
    rw [← Option.isSome_iff_exists]; decide +kernel
  obtain ⟨r, hr⟩ := hr
  have h1 : (run land cs).bind (fun r => findMin land r.1 ⟨2, false, [⟨1, 5⟩, ⟨2, 5⟩]⟩ 1) = some 3 := by decide +kernel
  have h2 : ((run land cs).bind fun r => (deliver land r.1 ⟨2, false, [⟨1, 5⟩, ⟨2, 5⟩]⟩ 3).map fun o => o.time) = some 5 := by
    decide +kernel
  rw [hr] at h1 h2
  simp only [Option.bind_some, Option.map_eq_some_iff] at h1 h2
  obtain ⟨out, ho, ht⟩ := h2
  exact ⟨land, r.1, r.2, _, 1, 3, out, land_sensible, run_history (by decide) r hr, by decide, h1, ho, by omega⟩

/-- Not proved because false: "if the answer is no, the materials would come too late".  Two works served before take the
material later; the answer is no although all of the material is there and the delivery returns at once - without noting what is
taken. -/
theorem refused_though_there : ∃ (l : Land) (st : State) (log : List Served) (w : Work) (t : Int) (out : Outcome), Sensible l ∧
    History l st log ∧ 0 ≤ t ∧ canSchedule l st w t = some false ∧ deliver l st w t = some out ∧ out.time = t ∧
    out.state.platforms = st.platforms := by
  let cs : List (Work × Int) := [(⟨1, false, [⟨1, 2⟩]⟩, 7), (⟨0, false, [⟨1, 2⟩]⟩, 6)]
  have hr : ∃ r, run land cs = some r := by
    rw [← Option.isSome_iff_exists]; decide +kernel
  obtain ⟨r, hr⟩ := hr
  have h1 : (run land cs).bind (fun r => canSchedule land r.1 ⟨2, false, [⟨1, 9⟩]⟩ 1) = some false := by decide +kernel
  have h2 : ((run land cs).bind fun r => (deliver land r.1 ⟨2, false, [⟨1, 9⟩]⟩ 1).map fun o => o.time) = some 1 := by
    decide +kernel
  have h3 : ((run land cs).bind fun r => request land r.1.platforms 1 1 [⟨1, 9⟩]) = some [] := by decide +kernel
  have h4 : ((run land cs).bind fun r => calm r.1.platforms 1 1 [⟨1, 9⟩]) = some false := by decide +kernel
  rw [hr] at h1 h2 h3 h4
  simp only [Option.bind_some, Option.map_eq_some_iff] at h1 h2 h3 h4
  obtain ⟨out, ho, ht⟩ := h2
  refine ⟨land, r.1, r.2, _, 1, out, land_sensible, run_history (by decide) r hr, by decide, h1, ho, ht, ?_⟩
  unfold deliver at ho
  rw [if_neg (by simp)] at ho
  simp only [show land.platform 2 = 1 from rfl, h3, h4, Option.bind_some, if_true, supply] at ho
  simp at ho
  rw [← ho]

end Sampo.C86
