import Verif.Lemmas.MomentumHistory

/-! # C06: the bookkeeping of a momentum timeline equals capacity minus usage -/

namespace Sampo.C06
open Sampo.Momentum

/-- After any sequence of successful updates, at every moment the number of workers reported as available is the
contractor's number minus the workers of all works running at that moment, and it is not negative. -/
theorem available_eq_capacity_minus_usage (pool : AgentId → Option Int) (tl : Timeline) (ps : List Placement)
    (h : History pool tl ps) (a : AgentId) (cap : Int) (ha : pool a = some cap) (hc : 0 ≤ cap) (t : Int) (ht : 0 ≤ t) :
    ∃ s, tl.states a = some s ∧ available s t = some (cap - busy ps a t) ∧ 0 ≤ cap - busy ps a t := by
  obtain ⟨s, hs, hinv⟩ := history_inv h ha
  have := hinv.room hc t
  exact ⟨s, hs, hinv.exact_ t ht, by omega⟩

/-- No over-allocation, at any moment. -/
theorem capacity_never_exceeded (pool : AgentId → Option Int) (tl : Timeline) (ps : List Placement)
    (h : History pool tl ps) (a : AgentId) (cap : Int) (ha : pool a = some cap) (hc : 0 ≤ cap) (t : Int) :
    busy ps a t ≤ cap := by
  obtain ⟨s, _, hinv⟩ := history_inv h ha
  exact hinv.room hc t

/-- An update succeeds exactly when during the whole interval the team fits beside the running works; otherwise it
raises an error. -/
theorem update_succeeds_iff_room (pool : AgentId → Option Int) (tl : Timeline) (ps : List Placement)
    (h : History pool tl ps) (team : List Worker) (hwf : WellFormedTeam team)
    (cap : AgentId → Int) (hpool : ∀ w ∈ team, pool w.agent = some (cap w.agent))
    (start finish : Int) (h0 : 0 ≤ start) (hlt : start < finish) :
    (∃ tl', update tl finish (finish - start) team = some tl') ↔
      ∀ w ∈ team, ∀ t, start ≤ t → t < finish → busy ps w.agent t + w.count ≤ cap w.agent := by
  have hne : finish - start ≠ 0 := by omega
  have hst : finish - (finish - start) = start := by omega
  have hw : ∀ w ∈ team, ∃ s, tl.states w.agent = some s ∧
      ((∃ s', updateState tl.taskIndex start finish w.count s = some s') ↔
        ∀ t, start ≤ t → t < finish → busy ps w.agent t + w.count ≤ cap w.agent) := by
    intro w hw
    obtain ⟨s, hs, hinv⟩ := history_inv h (hpool w hw)
    refine ⟨s, hs, ?_⟩
    rw [updateState_isSome hinv.toInv h0 hlt (hwf.2 w hw), freeIn_iff hinv h0]
    unfold Free
    rw [show start + (finish - start) = finish by omega]
  unfold update
  simp only [hne, if_false, hst, Option.map_eq_some_iff]
  constructor
  · rintro ⟨tl', f', hf', -⟩ w hwm
    obtain ⟨s, hs, hiff⟩ := hw w hwm
    obtain ⟨s0, s', h1, h2, _⟩ := updateTeam_mem hf' hwf.1 hwm
    rw [hs] at h1; cases h1
    exact hiff.mp ⟨s', h2⟩
  · intro hroom
    obtain ⟨f', hf'⟩ := updateTeam_some (idx := tl.taskIndex) (start := start) (end_ := finish) hwf.1 (f := tl.states) (by
      intro w hwm
      obtain ⟨s, hs, hiff⟩ := hw w hwm
      obtain ⟨s', hs'⟩ := hiff.mpr (hroom w hwm)
      exact ⟨s, s', hs, hs'⟩)
    exact ⟨_, f', hf', rfl⟩

/-- The separate validation (`_validate`) accepts exactly the same intervals. -/
theorem validate_iff_room (pool : AgentId → Option Int) (tl : Timeline) (ps : List Placement)
    (h : History pool tl ps) (team : List Worker)
    (cap : AgentId → Int) (hpool : ∀ w ∈ team, pool w.agent = some (cap w.agent))
    (start finish : Int) (h0 : 0 ≤ start) (hlt : start < finish) :
    validate tl finish (finish - start) team = some () ↔
      ∀ w ∈ team, ∀ t, start ≤ t → t < finish → busy ps w.agent t + w.count ≤ cap w.agent := by
  have hne : finish - start ≠ 0 := by omega
  have hst : finish - (finish - start) = start := by omega
  have hw : ∀ w ∈ team, ((tl.states w.agent).bind (validateState start finish w.count) = some () ↔
      ∀ t, start ≤ t → t < finish → busy ps w.agent t + w.count ≤ cap w.agent) := by
    intro w hw
    obtain ⟨s, hs, hinv⟩ := history_inv h (hpool w hw)
    rw [hs]
    have hfree : FreeIn s w.count start (finish - start) ↔
        ∀ t, start ≤ t → t < finish → busy ps w.agent t + w.count ≤ cap w.agent := by
      rw [freeIn_iff hinv h0]; unfold Free
      rw [show start + (finish - start) = finish by omega]
    rw [← hfree]
    simp only [Option.bind_some, validateState]
    constructor
    · intro hv
      simp only [Option.bind_eq_some_iff] at hv
      obtain ⟨a, ha, hv⟩ := hv
      split at hv
      · rename_i hok
        intro t ht1 ht2
        obtain ⟨l, hl⟩ := hinv.lastAt_isSome (show 0 ≤ t by omega)
        refine ⟨l.count, by simp [available, hl], ?_⟩
        have hm := lastAt_mem hl
        by_cases hls : l.key ≤ start
        · have := lastAt_restrict hl hls ht1 hinv.sorted
          simp [available, this] at ha; omega
        · exact hok.2 l hm.1 (by simp [inside]; omega)
      · simp at hv
    · intro hf
      obtain ⟨v, hv, hle⟩ := hf start (le_refl _) (by omega)
      have := inside_ok hinv.toInv hf
      simp only [hv, Option.bind_some]
      rw [if_pos ⟨hle, this⟩]
  unfold validate
  simp only [hne, if_false, hst]
  clear hpool
  induction team with
  | nil => simp
  | cons w ws ih =>
    have ih := ih (fun v hv => hw v (by simp [hv]))
    have hw0 := hw w (by simp)
    simp only [List.foldlM_cons, List.forall_mem_cons, Option.bind_eq_bind]
    cases hb : (tl.states w.agent).bind (validateState start finish w.count) with
    | none =>
      constructor
      · intro hx; simp at hx
      · intro hx; have := hw0.mpr hx.1; rw [hb] at this; simp at this
    | some u =>
      cases u
      constructor
      · intro hx; exact ⟨hw0.mp hb, ih.mp hx⟩
      · intro hx; exact ih.mpr hx.2

-- a concrete history with overlapping works, a tie of an end and a start, and a refused update
private def exPool : AgentId → Option Int := fun a => if a = (0, 0) then some 5 else none
example : ∃ tl, History exPool tl
      [⟨[⟨0, 0, 2⟩], 4, 8, false⟩, ⟨[⟨0, 0, 2⟩], 10, 15, false⟩, ⟨[⟨0, 0, 3⟩], 0, 10, false⟩] ∧
    update tl 12 6 [⟨0, 0, 1⟩] = none ∧ (update tl 12 4 [⟨0, 0, 2⟩]).isSome := by
  refine ⟨_, .place _ (.place _ (.place _ .fresh (by decide) (by decide) (by decide) rfl) (by decide) (by decide)
    (by decide) rfl) (by decide) (by decide) (by decide) rfl, by rfl, by rfl⟩

end Sampo.C06
