import Verif.Lemmas.Blocks

/-!
# C60: reported downtime of agents

An agent that wins all auctions reports the time it was idle.  An agent that loses auctions counts the same idle time again
and again (`downtime_counted_twice`).
-/

namespace Sampo.C60

open Blocks

variable {τ : Type}

/-- What happens to an agent in an auction: it wins, and then the offer is confirmed, or another agent wins with a block that
starts at the given time. -/
inductive Event (τ : Type)
  | won (offer : Offer τ)
  | lost (start : Int)

/-- The agent after an auction. -/
def after (a : Agent τ) : Event τ → Agent τ
  | .won o => a.confirm o
  | .lost start => a.updateStat start

/-- An auction is won by the winner, and lost by all other agents, with the start of the block auctioned. -/
theorem auction_events {ρ : Type} {offer : Offering τ ρ} {agents agents' : List (Agent τ)} {block : Nat} {parent : Int} {r r' : ρ}
    {winner : Agent τ} {result : Offer τ} (h : runAuction offer agents block parent r = some (winner, result, agents', r')) :
    agents' = agents.map fun a => after a (if a.name = winner.name then .won result else .lost result.start) := by
  unfold runAuction at h
  dsimp only at h
  obtain ⟨w, _, he⟩ := Option.map_eq_some_iff.mp h
  obtain ⟨rfl, h1⟩ := Prod.mk.inj he
  obtain ⟨h2, h3⟩ := Prod.mk.inj h1
  obtain ⟨rfl, _⟩ := Prod.mk.inj h3
  rw [h2]
  apply List.map_congr_left
  intro a _
  by_cases ha : a.name = w.name
  · rw [if_neg (not_not.mpr ha), if_pos ha]; rfl
  · rw [if_pos ha, if_neg ha]; rfl

/-- The idle time between blocks of an agent that does the blocks (start, finish) one after the other, from `last` on. -/
def idle : Int → List (Int × Int) → Int
  | _, [] => 0
  | last, b :: bs => max 0 (b.1 - last) + idle b.2 bs

private theorem idle_nonneg : ∀ (last : Int) (bs : List (Int × Int)), 0 ≤ idle last bs
  | _, [] => le_refl _
  | last, b :: bs => by
    unfold idle
    have := idle_nonneg b.2 bs
    omega

/-- An agent that wins all auctions reports its idle time.  All times must be in the finite range. -/
theorem downtime_partial : ∀ (os : List (Offer τ)) (a : Agent τ), 0 ≤ a.downtime → 0 ≤ a.last → a.last < TIME_INF →
    (∀ o ∈ os, 0 ≤ o.start ∧ o.start < TIME_INF ∧ 0 ≤ o.finish ∧ o.finish < TIME_INF) →
    a.downtime + idle a.last (os.map fun o => (o.start, o.finish)) < TIME_INF →
    (os.foldl (fun a o => after a (.won o)) a).downtime = a.downtime + idle a.last (os.map fun o => (o.start, o.finish))
  | [], a, _, _, _, _, _ => by simp [idle]
  | o :: os, a, h0, h1, h2, h3, h4 => by
    obtain ⟨k1, k2, k3, k4⟩ := h3 o List.mem_cons_self
    rw [List.map_cons] at h4 ⊢
    unfold idle at h4 ⊢
    dsimp only at h4 ⊢
    have hi := idle_nonneg o.finish (os.map fun o => (o.start, o.finish))
    have hs : tSub o.start a.last = o.start - a.last := mkTime_of_isTime ⟨by omega, by omega⟩
    have hd : tAdd a.downtime (max 0 (o.start - a.last)) = a.downtime + max 0 (o.start - a.last) :=
      mkTime_of_isTime ⟨by unfold TIME_INF; omega, by omega⟩
    have hdown : (after a (.won o)).downtime = a.downtime + max 0 (o.start - a.last) := by
      show tAdd a.downtime (max 0 (tSub o.start a.last)) = _
      rw [hs, hd]
    have hlast : (after a (.won o)).last = o.finish := rfl
    rw [List.foldl_cons, downtime_partial os (after a (.won o)) (by rw [hdown]; omega) (by rw [hlast]; omega)
      (by rw [hlast]; omega) (fun x hx => h3 x (List.mem_cons_of_mem _ hx)) (by rw [hdown, hlast]; omega), hdown, hlast]
    omega

/-- Blocks from 3 to 5 and from 9 to 10: idle for 3 and 4 units. -/
example : (([⟨3, 5, ()⟩, ⟨9, 10, ()⟩] : List (Offer Unit)).foldl (fun a o => after a (.won o))
    ⟨0, none, 0, 0⟩).downtime = 7 ∧ idle 0 [(3, 5), (9, 10)] = 7 := by decide

/-- Not proved because false: an agent that loses two auctions, for blocks starting at 5 and 10, reports a downtime of 15,
although no more than 10 units have passed. -/
theorem downtime_counted_twice : ∃ (events : List (Event Unit)) (now : Int), (∀ e ∈ events, ∃ t, e = .lost t ∧ t ≤ now) ∧
    now < (events.foldl after ⟨0, none, 0, 0⟩).downtime :=
  ⟨[.lost 5, .lost 10], 10, by
    intro e he
    rcases List.mem_cons.mp he with rfl | he
    · exact ⟨5, rfl, by decide⟩
    · rw [List.mem_singleton.mp he]; exact ⟨10, rfl, by decide⟩, by decide⟩

end Sampo.C60
