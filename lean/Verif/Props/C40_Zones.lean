import Verif.Lemmas.ZoneHistory

/-!
# C40: a zone has one status at a time

Without costs of status changes works that need different statuses of a zone never overlap (`one_status_partial`), and the
search always ends with a time that can be occupied (`search_succeeds_partial`).  With costs both parts of the property fail:
a work for which the status is changed is recorded earlier than it is done, so that the next one may overlap with it
(`statuses_overlap`), and a change may get less time than it costs (`change_too_short`).  Final statuses make every
scheduling fail (`final_statuses_fail`).
-/

namespace Sampo.C40

open Zone
open Momentum (Event EventType)

variable {cfg : Config} {n : Int} {tl : Timeline} {us : List Use}

/-- If changes of status cost no time: however works are placed, always at times the zone timeline grants, no two of them use a
zone in different statuses (other than 0) at the same moment.  Missing: costs of changes, for which it is false
(`statuses_overlap`). -/
theorem one_status_partial (hc : ∀ a b, cfg.costs a b = 0) (h : History cfg n tl us) {a b : Use} (ha : a ∈ us) (hb : b ∈ us)
    (hab : a.Conflicts b) : ¬ a.Overlaps b := by
  obtain ⟨hz, h1, h2, h3⟩ := hab
  have hmem : ∀ u ∈ us, u.zone = a.zone → u ∈ usesOf us a.zone := fun u hu h => List.mem_filter.mpr ⟨hu, by simpa using h⟩
  rcases history_inv hc h a.zone with ⟨_, _, h4⟩ | ⟨st, s, R, _, _, h4, h5⟩
  · have := hmem a ha rfl
    rw [h4] at this; cases this
  · have ma := hmem a ha rfl
    have mb := hmem b hb hz.symm
    rw [← h5] at ma mb
    obtain ⟨ka, hka, rfl⟩ := List.mem_map.mp ma
    obtain ⟨kb, hkb, rfl⟩ := List.mem_map.mp mb
    exact h4.apart ka hka kb hkb h1 h2 h3

/-- If changes of status cost no time: for every work with requirements for different known zones, from any moment on, the
search ends, raises no exception, gives a time not before that moment, and the zones can be occupied at that time for the
duration asked for. -/
theorem search_succeeds_partial (hc : ∀ a b, cfg.costs a b = 0) (h : History cfg n tl us) {reqs : List Req}
    (hn : (reqs.map (·.zone)).Nodup) (hk : ∀ q ∈ reqs, cfg.startStatuses q.zone ≠ none) {parent exec : Int} (h0 : 0 ≤ parent)
    (he : 0 ≤ exec) (idx : Int) :
    ∃ fuel t, findMinStart fuel cfg.costs tl reqs parent exec = some (some t) ∧ parent ≤ t ∧
      ∃ res, update cfg.costs tl idx reqs t exec = some res := by
  have hpp : AllProper tl := by
    intro z s hs
    rcases history_inv hc h z with ⟨_, h1, _⟩ | ⟨st, s', R, _, h1, h2, _⟩
    · rw [h1] at hs; cases hs
    · rw [h1] at hs; obtain rfl := Option.some.inj hs; exact h2.proper
  have hlast : ∀ q ∈ reqs, ∃ s l, tl q.zone = some s ∧ s.getLast? = some l := by
    intro q hq
    rcases history_inv hc h q.zone with ⟨h1, _, _⟩ | ⟨st, s', R, _, h1, h2, _⟩
    · exact absurd h1 (hk q hq)
    · obtain ⟨x, xs, rfl, _⟩ := h2.proper.initial
      exact ⟨_, _, h1, List.getLast?_cons⟩
  have hB : ∀ rs : List Req, (∀ q ∈ rs, q ∈ reqs) → ∃ B : Int, ∀ q ∈ rs, ∃ s r l, tl q.zone = some s ∧
      statusOf reqs q.zone = some r ∧ s.getLast? = some l ∧ l.time + 1 ≤ B ∧ l.time + cfg.costs l.count r ≤ B := by
    intro rs
    induction rs with
    | nil => exact fun _ => ⟨0, fun q hq => by cases hq⟩
    | cons q rs ih =>
      intro hrs
      obtain ⟨B, hB⟩ := ih fun x hx => hrs x (List.mem_cons_of_mem _ hx)
      obtain ⟨s, l, h1, h2⟩ := hlast q (hrs q List.mem_cons_self)
      refine ⟨max B (l.time + 1), fun x hx => ?_⟩
      rcases List.mem_cons.mp hx with rfl | hx
      · exact ⟨s, x.status, l, h1, statusOf_mem hn (hrs x List.mem_cons_self), h2, by omega, by rw [hc]; omega⟩
      · obtain ⟨s', r, l', k1, k2, k3, k4, k5⟩ := hB x hx
        exact ⟨s', r, l', k1, k2, k3, by omega, by omega⟩
  obtain ⟨B, hB⟩ := hB reqs fun q hq => hq
  have hnn : ∀ a b, 0 ≤ cfg.costs a b := fun a b => by rw [hc]
  obtain ⟨t, ht⟩ := queueLoop_ends hnn hpp he hB reqs.length ((max B parent - parent).toNat * (reqs.length + 1) + reqs.length)
    reqs [] parent h0 (fun q hq => hq) (by simp) (by simp) (le_refl _)
  obtain ⟨g1, g2⟩ := queueLoop_good hnn hpp he _ reqs [] parent t h0 (by simp) ht
  refine ⟨_, t, ht, g1, update_succeeds hn fun q hq => ?_⟩
  obtain ⟨s, r, k1, k2, _, k4⟩ := g2 q (by simpa using hq)
  rw [statusOf_mem hn hq] at k2
  obtain rfl := Option.some.inj k2
  obtain ⟨l, hl⟩ := (hpp _ _ k1).lastAt_some (t := t) (by omega)
  exact ⟨s, l, k1, hl, k4⟩

/-- Every recorded change of status is to a status required by the work, ends when the work starts and is given the cost of the
change.  (It need not begin after the end of earlier works: `change_too_short`.) -/
theorem transition_recorded_partial {costs : Int → Int → Int} {idx start exec : Int} : ∀ {reqs : List Req} {tl tl' : Timeline}
    {trs : List Transition}, update costs tl idx reqs start exec = some (tl', trs) → ∀ c ∈ trs,
    ⟨c.zone, c.toStatus⟩ ∈ reqs ∧ c.toStatus ≠ 0 ∧ c.fromStatus ≠ c.toStatus ∧ c.finish = start ∧
      c.finish - c.start = costs c.fromStatus c.toStatus
  | [], tl, tl', trs, h, c, hc => by
    have : [] = trs := (Prod.mk.inj (Option.some.inj h)).2
    rw [← this] at hc; cases hc
  | q :: qs, tl, tl', trs, h, c, hc => by
    unfold update at h
    obtain ⟨s, hs, h⟩ := Option.bind_eq_some_iff.mp h
    obtain ⟨l, hl, h⟩ := Option.bind_eq_some_iff.mp h
    by_cases hv : valid start exec q.status s = true
    · rw [if_pos hv] at h
      dsimp only at h
      obtain ⟨r, hr, h⟩ := Option.map_eq_some_iff.mp h
      have htr := (Prod.mk.inj h).2
      rw [← htr] at hc
      rcases List.mem_append.mp hc with hc | hc
      · by_cases hcond : l.count ≠ q.status ∧ q.status ≠ 0
        · rw [if_pos hcond] at hc
          rw [List.mem_singleton.mp hc]
          refine ⟨List.mem_cons_self, hcond.2, hcond.1, rfl, ?_⟩
          have : changeCost costs l.count q.status = costs l.count q.status := by
            unfold changeCost
            rw [if_neg]
            intro hm
            rcases matchStatus_iff.mp hm with hm | hm
            · exact hcond.2 hm
            · exact hcond.1 hm
          dsimp only
          omega
        · rw [if_neg hcond] at hc; cases hc
      · obtain ⟨k1, k2⟩ := transition_recorded_partial (tl' := r.1) (trs := r.2) hr c hc
        exact ⟨List.mem_cons_of_mem _ k1, k2⟩
    · rw [if_neg hv] at h; cases h

/-! ### Examples -/

/-- Zones 0 and 1, opened (status 1) at the beginning. -/
private def demo (costs : Int → Int → Int) : Config := ⟨fun z => if z < 2 then some 1 else none, [], costs⟩

/-- Without costs: a work that closes zone 0 from 4 to 9, then one that needs zone 0 opened and zone 1 closed from 2 on: it is
placed at 9. -/
example : ∃ tl, History (demo fun _ _ => 0) 2 tl [⟨0, 1, 9, 12⟩, ⟨1, 2, 9, 12⟩, ⟨0, 2, 4, 9⟩] :=
  ⟨_, .place 1 [⟨0, 1⟩, ⟨1, 2⟩] 9 3
    (.place 0 [⟨0, 2⟩] 4 5 .fresh (by decide) (by decide) (by decide) (by decide)
      (Or.inl ⟨9, 4, 5, by decide, by decide, by decide +kernel⟩) rfl)
    (by decide) (by decide) (by decide) (by decide) (Or.inl ⟨9, 2, 3, by decide, by decide, by decide +kernel⟩) rfl⟩

/-! ### Where the property does not hold -/

/-- Not proved because false: with costs of changes works that need different statuses may overlap.  Closing a zone costs 3,
opening it 1.  A work that closes the zone is done from 10 to 15, but recorded from 7 to 12.  The next work, which needs the
zone opened and may start from 12 on, gets 13. -/
theorem statuses_overlap : ∃ (cfg : Config) (n : Int) (tl : Timeline) (us : List Use), (∀ a b, 0 ≤ cfg.costs a b) ∧
    History cfg n tl us ∧ ∃ a ∈ us, ∃ b ∈ us, a.Conflicts b ∧ a.Overlaps b := by
  refine ⟨demo fun a _ => if a = 1 then 3 else 1, 2, _, [⟨0, 1, 13, 15⟩, ⟨0, 2, 10, 15⟩], ?_,
    .place 1 [⟨0, 1⟩] 13 2
      (.place 0 [⟨0, 2⟩] 10 5 .fresh (by decide) (by decide) (by decide) (by decide)
        (Or.inl ⟨9, 10, 5, by decide, by decide, by decide +kernel⟩) rfl)
      (by decide) (by decide) (by decide) (by decide) (Or.inl ⟨9, 12, 2, by decide, by decide, by decide +kernel⟩) rfl,
    ⟨0, 1, 13, 15⟩, by decide, ⟨0, 2, 10, 15⟩, by decide, by unfold Use.Conflicts; decide, ⟨13, by decide⟩⟩
  intro a b
  show 0 ≤ (if a = 1 then (3 : Int) else 1)
  split <;> decide

/-- Not proved because false: a change of status may be given less time than it costs, even if works do not overlap.  Opening a
zone costs 3.  The zone is closed from 5 to 10; the next work, which needs it opened, starts at 11. -/
theorem change_too_short : ∃ (cfg : Config) (n : Int) (tl : Timeline) (us : List Use), (∀ a b, 0 ≤ cfg.costs a b) ∧
    History cfg n tl us ∧ ∃ a ∈ us, ∃ b ∈ us, a.Conflicts b ∧ a.finish ≤ b.start ∧
      b.start - a.finish < cfg.costs a.status b.status := by
  refine ⟨demo fun a b => if a = 2 ∧ b = 1 then 3 else 0, 2, _, [⟨0, 1, 11, 31⟩, ⟨0, 2, 5, 10⟩], ?_,
    .place 1 [⟨0, 1⟩] 11 20
      (.place 0 [⟨0, 2⟩] 5 5 .fresh (by decide) (by decide) (by decide) (by decide)
        (Or.inl ⟨9, 5, 5, by decide, by decide, by decide +kernel⟩) rfl)
      (by decide) (by decide) (by decide) (by decide) (Or.inl ⟨9, 0, 20, by decide, by decide, by decide +kernel⟩) rfl,
    ⟨0, 2, 5, 10⟩, by decide, ⟨0, 1, 11, 31⟩, by decide, by unfold Use.Conflicts; decide, by decide, by decide⟩
  intro a b
  show 0 ≤ (if a = 2 ∧ b = 1 then (3 : Int) else 0)
  split <;> decide

/-- Not proved because false: with a final status for any zone the end of scheduling raises an exception. -/
theorem final_statuses_fail (h : cfg.endStatuses ≠ []) : finishStatuses cfg = none := by
  unfold finishStatuses
  rw [if_neg]
  simpa using h

end Sampo.C40
