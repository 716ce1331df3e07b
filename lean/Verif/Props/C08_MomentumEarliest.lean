import Verif.Lemmas.MomentumTeam

/-! # C08: the start slot of a momentum timeline is the earliest -/

namespace Sampo.C08
open Sampo.Momentum

/-- In every reachable state, for every team within the pool the search terminates, and at every earlier start (not
before the requested time) some worker type of the team lacks workers at some moment of the execution interval. -/
theorem found_slot_is_earliest (pool : AgentId → Option Int) (tl : Timeline) (ps : List Placement)
    (h : History pool tl ps) (c : Nat) (team : List Worker) (hone : OneContractor c team) (hwf : WellFormedTeam team)
    (hwp : WithinPool pool team) (chain : List ChainWork) (hm : Matches chain team)
    (hserv : chain.all (·.service) = false) (parent exec inf : Int) (hp : 0 ≤ parent) (hexec : 0 ≤ exec) :
    ∃ fuel0 r, (∀ fuel, fuel0 ≤ fuel →
        findMinStart (tl.resources c) chain false parent exec team inf fuel = some (some r)) ∧
      ∀ q, parent ≤ q → q < r →
        ∃ w ∈ team, ∃ cap t, pool w.agent = some cap ∧ q ≤ t ∧ t < q + exec ∧ cap < busy ps w.agent t + w.count := by
  obtain ⟨fuel0, r, h1, _, _, h4⟩ := findMinStart_spec h hone hwf hwp hm hserv (inf := inf) hp hexec
  refine ⟨fuel0, r, h1, ?_⟩
  intro q hq1 hq2
  obtain ⟨w, hw, cap, hc, hnf⟩ := h4 q hq1 hq2
  unfold Free at hnf
  push Not at hnf
  obtain ⟨t, ht1, ht2, ht3⟩ := hnf
  exact ⟨w, hw, cap, t, hc, ht1, ht2, ht3⟩

/-- The search of a slot for one worker type ends on every event list, whatever it contains. -/
theorem slot_search_terminates (s : List Event) (parent exec n : Int) (independent : Bool) :
    ∃ r, findSlot s parent exec n independent = some r := by
  unfold findSlot
  split
  · exact ⟨_, rfl⟩
  · split
    · exact ⟨_, rfl⟩
    · split
      · exact ⟨_, rfl⟩
      · apply slotLoop_total
        have : ∀ (l : List Event) (t : Int), (fromLast l t).length ≤ l.length := by
          intro l t
          induction l with
          | nil => simp [fromLast]
          | cons e es ih =>
            cases es with
            | nil => simp [fromLast]
            | cons e' es => unfold fromLast; split <;> simp at ih ⊢; omega
        have := this s parent
        omega

-- the gap [8, 12) is found for a work of length 4 but not for one of length 5
private def exPool : AgentId → Option Int := fun a => if a = (0, 0) then some 5 else none
example : ∃ tl, History exPool tl [⟨[⟨0, 0, 4⟩], 12, 14, false⟩, ⟨[⟨0, 0, 4⟩], 0, 8, false⟩] ∧
    findMinStart (tl.resources 0) [⟨false, [0]⟩] false 2 4 [⟨0, 0, 2⟩] 1000 20 = some (some 8) ∧
    findMinStart (tl.resources 0) [⟨false, [0]⟩] false 2 5 [⟨0, 0, 2⟩] 1000 20 = some (some 14) := by
  refine ⟨_, .place _ (.place _ .fresh (by decide) (by decide) (by decide) rfl) (by decide) (by decide)
    (by decide) rfl, by rfl, by rfl⟩

end Sampo.C08
