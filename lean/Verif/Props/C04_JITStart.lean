import Verif.Lemmas.JITHistory

/-! # C04: the reported just-in-time start is exactly when enough workers are released -/

namespace Sampo.C04
open Sampo.JIT

/-- After any history, for every team within the pool: a start time is reported; it is not before the requested one;
by then enough workers of every type have been released; and at no earlier admissible moment that is so. -/
theorem start_is_earliest_release (pool : AgentId → Option Int) (tl : Timeline) (ps : List Placement)
    (h : History pool tl ps) (team : List Worker) (hwf : WellFormedTeam team) (hwp : WithinPool pool team)
    (from_ : Int) :
    ∃ r, findMinStart tl false team from_ = some r ∧ from_ ≤ r ∧
      (∀ w ∈ team, ∃ q, tl w.agent = some q ∧ w.count ≤ releasedBy q r) ∧
      (∀ s, from_ ≤ s → s < r → ∃ w ∈ team, ∃ q, tl w.agent = some q ∧ releasedBy q s < w.count) := by
  have hq : ∀ w ∈ team, ∃ q c, tl w.agent = some q ∧ QInv c q ∧ w.count ≤ c := by
    intro w hw
    obtain ⟨c, hc, hle⟩ := hwp w hw
    obtain ⟨q, hq, hinv⟩ := history_inv h hc (by have := hwf.2 w hw; omega)
    exact ⟨q, c, hq, hinv.toQInv, hle⟩
  have hsome : ∀ (l : List Worker) (acc : Int), (∀ w ∈ l, w ∈ team) → ∃ r, findMinStart tl false l acc = some r := by
    intro l
    induction l with
    | nil => intro acc _; exact ⟨acc, rfl⟩
    | cons w ws ih =>
      intro acc hl
      obtain ⟨q, c, h1, h2, h3⟩ := hq w (hl w (by simp))
      obtain ⟨r, hr⟩ := grab_isSome h2.nonneg acc (show w.count ≤ total q by rw [h2.total_eq]; exact h3)
      obtain ⟨r', hr'⟩ := ih r (fun v hv => hl v (by simp [hv]))
      refine ⟨r', ?_⟩
      unfold findMinStart
      simp [h1, ask, grabWrap, grab_append q hr, hr']
  obtain ⟨r, hr⟩ := hsome team from_ (fun w hw => hw)
  refine ⟨r, hr, findMinStart_le hr, ?_, ?_⟩
  · intro w hw
    obtain ⟨q, a', r', h1, _, h3, h4⟩ := findMinStart_mem hr hw
    obtain ⟨q', c, hq', hinv, hle⟩ := hq w hw
    rw [h1] at hq'; cases hq'
    have := (ask_ordinary hinv hle h4).1
    have := releasedBy_mono hinv.nonneg h3
    exact ⟨q, h1, by omega⟩
  · intro s hs hsr
    rcases findMinStart_attained hr with rfl | ⟨w, hw, q, a', h1, h2, h3, h4⟩
    · omega
    · refine ⟨w, hw, q, h1, ?_⟩
      obtain ⟨q', c, hq', hinv, hle⟩ := hq w hw
      rw [h1] at hq'; cases hq'
      obtain ⟨_, h6⟩ := ask_ordinary hinv hle h4
      have h7 := h6 (max a' s) (by omega) (by omega)
      have := releasedBy_mono hinv.nonneg (show s ≤ max a' s by omega)
      omega

/-- Independent works are reported the latest release among their worker types (and not before the requested time). -/
theorem independent_start_is_latest_release (pool : AgentId → Option Int) (tl : Timeline) (ps : List Placement)
    (h : History pool tl ps) (team : List Worker) (hwf : WellFormedTeam team) (hwp : WithinPool pool team)
    (from_ r : Int) (hr : findMinStart tl true team from_ = some r) :
    from_ ≤ r ∧ (∀ w ∈ team, ∃ q, tl w.agent = some q ∧ ∀ e ∈ q, e.time ≤ r) ∧
      (r = from_ ∨ ∃ w ∈ team, ∃ q, tl w.agent = some q ∧ ∃ e ∈ q, e.time = r) := by
  have hq : ∀ w ∈ team, ∀ q, tl w.agent = some q → ∃ c, QInv c q := by
    intro w hw q hq
    obtain ⟨c, hc, hle⟩ := hwp w hw
    obtain ⟨q', hq', hinv⟩ := history_inv h hc (by have := hwf.2 w hw; omega)
    rw [hq] at hq'; cases hq'
    exact ⟨c, hinv.toQInv⟩
  refine ⟨findMinStart_le hr, ?_, ?_⟩
  · intro w hw
    obtain ⟨q, a', r', h1, _, h3, h4⟩ := findMinStart_mem hr hw
    obtain ⟨c, hc⟩ := hq w hw q h1
    refine ⟨q, h1, fun e he => ?_⟩
    have := (ask_independent hc h4).1 e he
    omega
  · rcases findMinStart_attained hr with h0 | ⟨w, hw, q, a', h1, h2, h3, h4⟩
    · exact Or.inl h0
    · obtain ⟨c, hc⟩ := hq w hw q h1
      rcases (ask_independent hc h4).2 with h5 | h5
      · omega
      · exact Or.inr ⟨w, hw, q, h1, h5⟩

private def exPool : AgentId → Option Int := fun a => if a = (0, 0) then some 5 else if a = (0, 1) then some 2 else none
-- a history in which the start depends on two worker types
private theorem exHist : ∃ tl, History exPool tl
    [⟨[⟨0, 0, 2⟩, ⟨0, 1, 2⟩], 3, 8, false⟩, ⟨[⟨0, 0, 3⟩], 0, 10, false⟩] ∧
    findMinStart tl false [⟨0, 0, 1⟩, ⟨0, 1, 1⟩] 2 = some 8 ∧ findMinStart tl false [⟨0, 0, 4⟩] 2 = some 10 ∧
    findMinStart tl true [⟨0, 1, 1⟩] 2 = some 8 := by
  have hwp : ∀ team : List Worker, (∀ w ∈ team, (w.agent = (0, 0) ∧ w.count ≤ 5) ∨ (w.agent = (0, 1) ∧ w.count ≤ 2)) →
      WithinPool exPool team := by
    intro team ht w hw
    rcases ht w hw with h | h
    · exact ⟨5, by rw [h.1]; rfl, h.2⟩
    · exact ⟨2, by rw [h.1]; rfl, h.2⟩
  exact ⟨_, .place _ 0 0 (.place _ 0 0 .fresh (by decide) (hwp _ (by decide)) (by rfl) (by decide)
    (by decide) rfl) (by decide) (hwp _ (by decide)) (by rfl) (by decide) (by decide) rfl, by decide, by decide, by decide⟩

end Sampo.C04
