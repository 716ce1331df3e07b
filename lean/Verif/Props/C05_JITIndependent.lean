import Verif.Lemmas.JITHistory

/-! # C05: independent works get their worker types exclusively (just-in-time timeline) -/

namespace Sampo.C05
open Sampo.JIT

/-- The placement needs at least one worker of the type. -/
def Uses (p : Placement) (a : AgentId) : Prop := ∃ w ∈ p.team, w.agent = a ∧ 0 < w.count

/-- In every history, if one of two works is independent and both use some worker type of the same contractor, then the
one placed later (`p`, the list is latest first) starts only after the other (`q`) has finished: they never overlap. -/
theorem independent_works_exclusive (pool : AgentId → Option Int) (tl : Timeline) (ps : List Placement)
    (h : History pool tl ps) :
    ps.Pairwise fun p q => (p.independent = true ∨ q.independent = true) →
      ∀ a, Uses p a → Uses q a → q.finish ≤ p.start := by
  induction h with
  | fresh => exact List.Pairwise.nil
  | place p from_ t hh hwf hwp hf hts hsf hu ih =>
    refine List.pairwise_cons.mpr ⟨?_, ih⟩
    rintro q hq hind a ⟨w, hw, hwa, hwc⟩ ⟨v, hv, hva, _⟩
    obtain ⟨c, hc, hle⟩ := hwp w hw
    rw [hwa] at hc
    obtain ⟨ql, hql, hinv⟩ := history_inv hh hc (by omega)
    obtain ⟨q2, a', r', h4, _, h5, h6⟩ := findMinStart_mem hf hw
    rw [hwa, hql] at h4; cases h4
    have hmem : a ∈ q.team.map (·.agent) := hva ▸ List.mem_map_of_mem hv
    cases hpi : p.independent with
    | true =>
      rw [hpi] at h6
      obtain ⟨e, he, hfe⟩ := hinv.latestFinish q hq hmem
      have := (ask_independent hinv.toQInv h6).1 e he
      omega
    | false =>
      rw [hpi] at h6 hind
      have hqi : q.independent = true := by simpa using hind
      obtain ⟨h7, _⟩ := ask_ordinary hinv.toQInv hle h6
      obtain ⟨e, he, het, hec⟩ := exists_released_pos (q := ql) (t := r') (by omega)
      have := hinv.independentFinish q hq hqi hmem e he hec
      omega

-- a history with an independent work between ordinary ones
private def exPool : AgentId → Option Int := fun a => if a = (0, 0) then some 5 else none
example : ∃ tl ps, History exPool tl ps ∧ ps.length = 3 ∧
    ps = [⟨[⟨0, 0, 1⟩], 14, 20, false⟩, ⟨[⟨0, 0, 1⟩], 10, 14, true⟩, ⟨[⟨0, 0, 3⟩], 0, 10, false⟩] := by
  have hwp : ∀ n : Int, n ≤ 5 → WithinPool exPool [⟨0, 0, n⟩] := by
    intro n hn w hw; simp at hw; subst hw; exact ⟨5, by simp [exPool, Worker.agent], hn⟩
  exact ⟨_, _, .place _ 0 14 (.place _ 0 10 (.place _ 0 0 .fresh (by decide) (hwp _ (by decide)) (by rfl) (by decide)
    (by decide) rfl) (by decide) (hwp _ (by decide)) (by rfl) (by decide) (by decide) rfl) (by decide)
    (hwp _ (by decide)) (by rfl) (by decide) (by decide) rfl, rfl, rfl⟩

end Sampo.C05
