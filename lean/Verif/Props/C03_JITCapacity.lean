import Verif.Lemmas.JITHistory

/-! # C03: the just-in-time timeline never over-allocates workers -/

namespace Sampo.C03
open Sampo.JIT

/-- For every history of placements on a just-in-time timeline, at every moment the number of busy workers of every type
does not exceed the contractor's number. -/
theorem capacity_never_exceeded (pool : AgentId → Option Int) (tl : Timeline) (ps : List Placement)
    (h : History pool tl ps) (a : AgentId) (c : Int) (ha : pool a = some c) (hc : 0 ≤ c) (t : Int) :
    busy ps a t ≤ c := by
  obtain ⟨q, _, hq⟩ := history_inv h ha hc
  have := hq.room t
  have := releasedBy_nonneg hq.nonneg t
  omega

/-- The reported start time leaves enough free workers: from the reported time on, in spite of everything placed so
far, the team fits beside all running works at every moment. -/
theorem reported_start_fits (pool : AgentId → Option Int) (tl : Timeline) (ps : List Placement)
    (h : History pool tl ps) (team : List Worker) (hwf : WellFormedTeam team)
    (from_ r : Int) (hr : findMinStart tl false team from_ = some r)
    (w : Worker) (hw : w ∈ team) (c : Int) (hc : pool w.agent = some c) (hle : w.count ≤ c) (t : Int) (ht : r ≤ t) :
    busy ps w.agent t + w.count ≤ c := by
  obtain ⟨q, a', r', h1, _, h3, h4⟩ := findMinStart_mem hr hw
  obtain ⟨q', hq', hinv⟩ := history_inv h hc (by have := hwf.2 w hw; omega)
  rw [h1] at hq'; cases hq'
  obtain ⟨h5, _⟩ := ask_ordinary hinv.toQInv hle h4
  have := releasedBy_mono hinv.nonneg (show r' ≤ t by omega)
  have := hinv.room t
  omega

-- a concrete history: 5 workers, two overlapping works, then one that has to wait
private def exPool : AgentId → Option Int := fun a => if a = (0, 0) then some 5 else none
example : ∃ tl, History exPool tl
    [⟨[⟨0, 0, 4⟩], 10, 12, false⟩, ⟨[⟨0, 0, 2⟩], 3, 8, false⟩, ⟨[⟨0, 0, 3⟩], 0, 10, false⟩] := by
  have hwp : ∀ n : Int, n ≤ 5 → WithinPool exPool [⟨0, 0, n⟩] := by
    intro n hn w hw; simp at hw; subst hw; exact ⟨5, by simp [exPool, Worker.agent], hn⟩
  exact ⟨_, .place _ 0 10 (.place _ 0 0 (.place _ 0 0 .fresh (by decide) (hwp _ (by decide)) (by rfl) (by decide)
    (by decide) rfl) (by decide) (hwp _ (by decide)) (by rfl) (by decide) (by decide) rfl) (by decide)
    (hwp _ (by decide)) (by rfl) (by decide) (by decide) rfl⟩

end Sampo.C03
