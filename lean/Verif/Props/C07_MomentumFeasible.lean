import Verif.Lemmas.MomentumTeam
import Verif.Props.C06_MomentumBookkeeping

/-! # C07: the start slot of a momentum timeline is feasible -/

namespace Sampo.C07
open Sampo.Momentum

/-- In every reachable state, for every team within the pool: the search ends with a start not before the requested
time; during the whole execution interval every worker type is free in the needed amount; the validation accepts the
interval and placing the work there succeeds. -/
theorem found_slot_is_feasible (pool : AgentId → Option Int) (tl : Timeline) (ps : List Placement)
    (h : History pool tl ps) (c : Nat) (team : List Worker) (hone : OneContractor c team) (hwf : WellFormedTeam team)
    (hwp : WithinPool pool team) (chain : List ChainWork) (hm : Matches chain team)
    (hserv : chain.all (·.service) = false) (parent exec inf : Int) (hp : 0 ≤ parent) (hexec : 0 ≤ exec) :
    ∃ fuel0 r, (∀ fuel, fuel0 ≤ fuel →
        findMinStart (tl.resources c) chain false parent exec team inf fuel = some (some r)) ∧
      parent ≤ r ∧
      (∀ w ∈ team, ∃ cap, pool w.agent = some cap ∧ ∀ t, r ≤ t → t < r + exec → busy ps w.agent t + w.count ≤ cap) ∧
      validate tl (r + exec) exec team = some () ∧
      ∃ tl', update tl (r + exec) exec team = some tl' := by
  obtain ⟨fuel0, r, h1, h2, h3, _⟩ := findMinStart_spec h hone hwf hwp hm hserv (inf := inf) hp hexec
  refine ⟨fuel0, r, h1, h2, h3, ?_⟩
  by_cases he : exec = 0
  · exact ⟨by simp [validate, he], tl, by simp [update, he]⟩
  · have hcap : ∀ w ∈ team, pool w.agent = some ((pool w.agent).getD 0) := by
      intro w hw
      obtain ⟨cap, hc, _⟩ := hwp w hw
      simp [hc]
    have hroom : ∀ w ∈ team, ∀ t, r ≤ t → t < r + exec → busy ps w.agent t + w.count ≤ (pool w.agent).getD 0 := by
      intro w hw t ht1 ht2
      obtain ⟨cap, hc, hf⟩ := h3 w hw
      rw [hc]; exact hf t ht1 ht2
    have hd : r + exec - r = exec := by omega
    have hv := (C06.validate_iff_room pool tl ps h team (fun a => (pool a).getD 0) hcap r (r + exec) (by omega) (by omega)).mpr hroom
    have hu := (C06.update_succeeds_iff_room pool tl ps h team hwf (fun a => (pool a).getD 0) hcap r (r + exec) (by omega) (by omega)).mpr hroom
    rw [hd] at hv hu
    exact ⟨hv, hu⟩

-- two types, both partly occupied: the slot has to satisfy both
private def exPool : AgentId → Option Int := fun a => if a = (0, 0) then some 5 else if a = (0, 1) then some 2 else none
private theorem exHist : ∃ tl, History exPool tl
      [⟨[⟨0, 1, 2⟩], 12, 14, false⟩, ⟨[⟨0, 0, 4⟩], 0, 10, false⟩] ∧
    findMinStart (tl.resources 0) [⟨false, [0, 1]⟩, ⟨true, []⟩] false 2 3 [⟨0, 0, 2⟩, ⟨0, 1, 1⟩] 1000 20 = some (some 14) := by
  refine ⟨_, .place _ (.place _ .fresh (by decide) (by decide) (by decide) rfl) (by decide) (by decide)
    (by decide) rfl, by rfl⟩
example : OneContractor 0 [⟨0, 0, 2⟩, ⟨0, 1, 1⟩] ∧ WellFormedTeam [⟨0, 0, 2⟩, ⟨0, 1, 1⟩] ∧
    WithinPool exPool [⟨0, 0, 2⟩, ⟨0, 1, 1⟩] ∧ Matches [⟨false, [0, 1]⟩, ⟨true, []⟩] [⟨0, 0, 2⟩, ⟨0, 1, 1⟩] := by
  refine ⟨by simp [OneContractor], by decide, ?_, ⟨⟨_, _, rfl, rfl⟩, by simp⟩⟩
  intro w hw
  simp at hw
  rcases hw with rfl | rfl
  · exact ⟨5, rfl, by decide⟩
  · exact ⟨2, rfl, by decide⟩

end Sampo.C07
