import Verif.Lemmas.JITHistory
import Verif.Lemmas.MomentumTeam
import Verif.Props.C06_MomentumBookkeeping

/-! # C49: requests above the pool are rejected

Full statement: on both timeline kinds, in every reachable state, asking for a team with more workers of a type than the
contractor owns yields an error or an infinite time.  It holds for the momentum timeline
(`momentum_rejects_over_demand`), it is false for the just-in-time timeline (`jit_accepts_over_demand`): there only
demands above twice the pool are errors (`jit_rejects_iff_above_double_partial`). -/

namespace Sampo.C49

open Sampo.JIT in
/-- On a just-in-time timeline the statement is false: with 3 workers, a team of 5 gets the start time 0, and placing it
makes 5 of 3 workers busy and records a negative number of workers. -/
theorem jit_accepts_over_demand :
    ∃ (pool : AgentId → Option Int) (team : List Worker) (tl : Timeline),
      WellFormedTeam team ∧ ¬ WithinPool pool team ∧ findMinStart (init pool) false team 0 = some 0 ∧
      update (init pool) 10 false team = some tl ∧ tl (0, 0) = some [⟨0, -2⟩, ⟨10, 5⟩] := by
  refine ⟨fun a => if a = (0, 0) then some 3 else none, [⟨0, 0, 5⟩], _, by decide, ?_, by decide, rfl, by decide⟩
  intro h
  obtain ⟨c, hc, hle⟩ := h ⟨0, 0, 5⟩ (by simp)
  simp [Worker.agent] at hc
  simp at hle; omega

open Sampo.JIT in
/-- What holds instead: a demand is rejected (with an `IndexError`) exactly if it is above twice the recorded workers. -/
theorem jit_rejects_iff_above_double_partial (q : Queue) (hq : NonNeg q) (n acc : Int) (hn : 0 < n) :
    grabWrap q n acc = none ↔ 2 * total q < n := by
  have key : ∀ (l : List Rel) (n acc : Int), (∀ e ∈ l, 0 ≤ e.count) → (grab l n acc = none ↔ total l < n ∧ 0 < n) := by
    intro l
    induction l with
    | nil => intro n acc _; unfold grab; simp [total]
    | cons e es ih =>
      intro n acc hl
      have he := hl e (by simp)
      unfold grab
      by_cases hn : n > 0
      · simp only [hn, if_true]
        rw [ih _ _ (fun x hx => hl x (by simp [hx]))]
        have htot : 0 ≤ total es := by
          have : ∀ l : List Rel, (∀ x ∈ l, 0 ≤ x.count) → 0 ≤ total l := by
            intro l; induction l with
            | nil => simp [total]
            | cons x xs ihx => intro hx; simp [total] at ihx hx ⊢; have := ihx hx.2; omega
          exact this es (fun x hx => hl x (by simp [hx]))
        have hc : total (e :: es) = e.count + total es := by simp [total]
        simp only [hc, and_true]
        split <;> omega
      · simp [hn]
  have h2 : total (q ++ q) = 2 * total q := by simp [total]; omega
  unfold grabWrap
  rw [key (q ++ q) n acc (by intro e he; rcases List.mem_append.mp he with h | h <;> exact hq e h), h2]
  omega

open Sampo.Momentum in
/-- On a momentum timeline, in every reachable state, the search for a team with more workers of some type than the
contractor owns answers "infinite", and both validation and placement fail at every interval. -/
theorem momentum_rejects_over_demand (pool : AgentId → Option Int) (tl : Timeline) (ps : List Placement)
    (h : History pool tl ps) (c : Nat) (team : List Worker) (hone : OneContractor c team) (hwf : WellFormedTeam team)
    (cap : AgentId → Int) (hpool : ∀ w ∈ team, pool w.agent = some (cap w.agent))
    (hover : ∃ w ∈ team, cap w.agent < w.count)
    (chain : List ChainWork) (hm : Matches chain team)
    (hserv : chain.all (·.service) = false) (independent : Bool) (parent exec inf : Int) (fuel : Nat) :
    findMinStart (tl.resources c) chain independent parent exec team inf fuel = some (some inf) ∧
    ∀ start finish, 0 ≤ start → start < finish →
      validate tl finish (finish - start) team = none ∧ update tl finish (finish - start) team = none := by
  have hag : ∀ w ∈ team, w.agent = (c, w.name) := by
    intro w hw; unfold Worker.agent; rw [hone w hw]
  have hst : ∀ w ∈ team, ∃ es, tl.resources c w.name = some (⟨-1, .initial, 0, cap w.agent⟩ :: es) := by
    intro w hw
    obtain ⟨s, h3, h4⟩ := history_inv h (hpool w hw)
    obtain ⟨es, hes, _⟩ := h4.head
    refine ⟨es, ?_⟩
    rw [← hes, ← h3, hag w hw]; rfl
  have hbusy : ∀ w ∈ team, ∀ t, 0 ≤ busy ps w.agent t := by
    intro w hw t
    clear hover hm hserv hst
    induction h with
    | fresh => simp [busy]
    | place p _ hwf' _ _ _ ih =>
      rename_i ps'
      rw [Sampo.JIT.busy_cons]
      have : 0 ≤ teamCount p.team w.agent := by
        unfold teamCount
        have : ∀ l : List Int, (∀ x ∈ l, 0 ≤ x) → 0 ≤ l.sum := by
          intro l; induction l with
          | nil => simp
          | cons x xs ihx => intro hx; simp at hx ⊢; have := ihx hx.2; omega
        apply this
        intro x hx
        obtain ⟨v, hv, rfl⟩ := List.mem_map.mp hx
        exact hwf'.2 v (List.mem_of_mem_filter hv)
      split <;> omega
  obtain ⟨w, hw, hlt⟩ := hover
  have hno : ∀ start finish, 0 ≤ start → start < finish →
      ¬ ∀ w ∈ team, ∀ t, start ≤ t → t < finish → busy ps w.agent t + w.count ≤ cap w.agent := by
    intro start finish _ hsf hall
    have := hall w hw start (le_refl _) hsf
    have := hbusy w hw start
    omega
  constructor
  · unfold findMinStart
    obtain ⟨⟨d, ds, rfl, hdk⟩, _⟩ := hm
    obtain ⟨es, hes⟩ := hst w hw
    have hf : enoughFor (tl.resources c) d.kinds team = some false :=
      enoughFor_false hdk (fun v hv => by obtain ⟨e, he⟩ := hst v hv; exact ⟨_, e, he⟩) ⟨w, hw, _, es, hes, hlt⟩
    simp only [hserv, enoughForChain, hf]
    simp
  · intro start finish h0 hsf
    have hv := C06.validate_iff_room pool tl ps h team cap hpool start finish h0 hsf
    have hu := C06.update_succeeds_iff_room pool tl ps h team hwf cap hpool start finish h0 hsf
    constructor
    · cases hx : validate tl finish (finish - start) team with
      | none => rfl
      | some u => cases u; exact absurd (hv.mp hx) (hno start finish h0 hsf)
    · cases hx : update tl finish (finish - start) team with
      | none => rfl
      | some u => exact absurd (hu.mp ⟨u, hx⟩) (hno start finish h0 hsf)

-- concrete cases meeting the hypotheses
example : JIT.NonNeg [⟨0, 2⟩, ⟨5, 1⟩] ∧ JIT.grabWrap [⟨0, 2⟩, ⟨5, 1⟩] 7 0 = none ∧
    JIT.grabWrap [⟨0, 2⟩, ⟨5, 1⟩] 6 0 = some 5 := by
  refine ⟨?_, by decide, by decide⟩
  intro e he; simp at he; rcases he with rfl | rfl <;> simp
open Sampo.Momentum in
example : ∃ tl, History (fun a => if a = (0, 0) then some 3 else none) tl [⟨[⟨0, 0, 2⟩], 0, 8, false⟩] ∧
    findMinStart (tl.resources 0) [⟨false, [0]⟩] false 2 4 [⟨0, 0, 4⟩] 1000 20 = some (some 1000) ∧
    update tl 30 4 [⟨0, 0, 4⟩] = none := by
  refine ⟨_, .place _ .fresh (by decide) (by decide) (by decide) rfl, by rfl, by rfl⟩

end Sampo.C49
