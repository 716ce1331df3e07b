import Verif.Lemmas.MomentumSlot
import Verif.Lemmas.JITHistory

/-! # Histories of a momentum timeline -/

namespace Sampo.Momentum

open Sampo.JIT (teamCount_mem teamCount_not_mem busy_cons)

theorem Inv.mono {cap i j : Int} {s : List Event} (h : Inv cap i s) (hij : i ≤ j) : Inv cap j s :=
  ⟨h.sorted, fun e he => by have := h.seq e he; omega, h.head, h.group, h.full⟩

theorem updateTeam_not_mem {idx start end_ : Int} {f f' : AgentId → Option (List Event)} {team : List Worker}
    (h : updateTeam idx start end_ f team = some f') {a : AgentId} (ha : a ∉ team.map (·.agent)) : f' a = f a := by
  induction team generalizing f with
  | nil => simp [updateTeam] at h; rw [h]
  | cons w ws ih =>
    unfold updateTeam at h
    simp only [Option.bind_eq_bind, Option.bind_eq_some_iff] at h
    obtain ⟨s, hs, s', hs', h⟩ := h
    simp at ha
    rw [ih h (by simpa using ha.2)]
    simp [set, ha.1]

theorem updateTeam_mem {idx start end_ : Int} {f f' : AgentId → Option (List Event)} {team : List Worker}
    (h : updateTeam idx start end_ f team = some f') (hnd : (team.map (·.agent)).Nodup) {w : Worker} (hw : w ∈ team) :
    ∃ s s', f w.agent = some s ∧ updateState idx start end_ w.count s = some s' ∧ f' w.agent = some s' := by
  induction team generalizing f with
  | nil => simp at hw
  | cons v vs ih =>
    unfold updateTeam at h
    simp only [Option.bind_eq_bind, Option.bind_eq_some_iff] at h
    obtain ⟨s, hs, s', hs', h⟩ := h
    simp only [List.map_cons, List.nodup_cons] at hnd
    rcases List.mem_cons.mp hw with rfl | hw
    · refine ⟨s, s', hs, hs', ?_⟩
      rw [updateTeam_not_mem h hnd.1]; simp [set]
    · obtain ⟨p, p', h1, h2, h3⟩ := ih h hnd.2 hw
      have hne : w.agent ≠ v.agent := by
        intro heq; exact hnd.1 (heq ▸ List.mem_map_of_mem hw)
      simp [set, hne] at h1
      exact ⟨p, p', h1, h2, h3⟩

theorem updateTeam_some {idx start end_ : Int} {f : AgentId → Option (List Event)} {team : List Worker}
    (hnd : (team.map (·.agent)).Nodup)
    (h : ∀ w ∈ team, ∃ s s', f w.agent = some s ∧ updateState idx start end_ w.count s = some s') :
    ∃ f', updateTeam idx start end_ f team = some f' := by
  induction team generalizing f with
  | nil => exact ⟨f, rfl⟩
  | cons v vs ih =>
    simp only [List.map_cons, List.nodup_cons] at hnd
    obtain ⟨s, s', h1, h2⟩ := h v (by simp)
    obtain ⟨f', hf'⟩ := ih (f := set f v.agent s') hnd.2 (by
      intro w hw
      have hne : w.agent ≠ v.agent := by
        intro heq; exact hnd.1 (heq ▸ List.mem_map_of_mem hw)
      simp only [set, hne, if_false]
      exact h w (by simp [hw]))
    exact ⟨f', by simp [updateTeam, h1, h2, hf']⟩

/-- What is known about one worker type after a history. -/
structure AgentInv (ps : List Placement) (a : AgentId) (cap idx : Int) (s : List Event) : Prop extends Inv cap idx s where
  exact_ : ∀ t, 0 ≤ t → available s t = some (cap - busy ps a t)
  room : 0 ≤ cap → ∀ t, busy ps a t ≤ cap
  past : ∀ t, t < 0 → busy ps a t = 0

theorem history_inv {pool : AgentId → Option Int} {tl : Timeline} {ps : List Placement} (h : History pool tl ps)
    {a : AgentId} {cap : Int} (ha : pool a = some cap) :
    ∃ s, tl.states a = some s ∧ AgentInv ps a cap tl.taskIndex s := by
  induction h with
  | fresh =>
    refine ⟨[⟨-1, .initial, 0, cap⟩], by simp [init, ha], ?_⟩
    refine ⟨inv_init, ?_,
          ?_, ?_⟩
    · intro t ht
      have : Event.key ⟨-1, .initial, 0, cap⟩ ≤ t := by simp [Event.key]; omega
      simp [available, lastAt, this, busy]
    · intro hc t; simpa [busy] using hc
    · intro t _; simp [busy]
  | place p hh hwf h0 hsf hu ih =>
    rename_i tl tl' ps
    obtain ⟨s, hs, hinv⟩ := ih
    unfold update at hu
    split at hu
    · rename_i hz
      cases hu
      have hb : ∀ t, busy (p :: ps) a t = busy ps a t := by
        intro t; rw [busy_cons]
        have : ¬ (p.start ≤ t ∧ t < p.finish) := by omega
        simp [this]
      exact ⟨s, hs, ⟨hinv.toInv, (fun t ht => (by rw [hb]; exact hinv.exact_ t ht)),
          (fun hc t => (by rw [hb]; exact hinv.room hc t)), (fun t ht => (by rw [hb]; exact hinv.past t ht))⟩⟩
    · rename_i hz
      simp only [Option.map_eq_some_iff] at hu
      obtain ⟨f', hf', rfl⟩ := hu
      have hst : p.finish - (p.finish - p.start) = p.start := by omega
      rw [hst] at hf'
      have hpast : ∀ t, t < 0 → busy (p :: ps) a t = 0 := by
        intro t ht
        rw [busy_cons]
        have : ¬ (p.start ≤ t ∧ t < p.finish) := by omega
        simp [this, hinv.past t ht]
      by_cases hmem : a ∈ p.team.map (·.agent)
      · obtain ⟨w, hw, rfl⟩ := List.mem_map.mp hmem
        obtain ⟨s0, s', h1, h2, h3⟩ := updateTeam_mem hf' hwf.1 hw
        rw [hs] at h1; cases h1
        obtain ⟨hinv', href⟩ := updateState_spec hinv.toInv h0 (by omega) (hwf.2 w hw) h2
        have hb : ∀ t, busy (p :: ps) w.agent t =
            (if p.start ≤ t ∧ t < p.finish then w.count else 0) + busy ps w.agent t := by
          intro t; rw [busy_cons, teamCount_mem hwf.1 hw]
        have hex : ∀ t, 0 ≤ t → available s' t = some (cap - busy (p :: ps) w.agent t) ∧
            (p.start ≤ t ∧ t < p.finish → busy (p :: ps) w.agent t ≤ cap) := by
          intro t ht
          obtain ⟨v, hv, hv', hle⟩ := href t ht
          rw [hinv.exact_ t ht] at hv; cases hv
          rw [hb, hv']
          constructor
          · split <;> congr 1 <;> omega
          · intro hin; have := hle hin; simp only [hin, and_self, if_true]; omega
        refine ⟨s', h3, ⟨by exact_mod_cast hinv', fun t ht => (hex t ht).1,
          ?_, hpast⟩⟩
        intro hc t
        by_cases ht : 0 ≤ t
        · by_cases hin : p.start ≤ t ∧ t < p.finish
          · exact (hex t ht).2 hin
          · rw [hb]; simp only [hin, if_false]; have := hinv.room hc t; omega
        · rw [hpast t (by omega)]; exact hc
      · have hb : ∀ t, busy (p :: ps) a t = busy ps a t := by
          intro t; rw [busy_cons, teamCount_not_mem hmem]; simp
        refine ⟨s, by simpa [updateTeam_not_mem hf' hmem] using hs, ?_⟩
        have hm := hinv.toInv.mono (j := (tl.taskIndex : Int) + 1) (by omega)
        exact ⟨by exact_mod_cast hm, (fun t ht => (by rw [hb]; exact hinv.exact_ t ht)),
          (fun hc t => (by rw [hb]; exact hinv.room hc t)), hpast⟩

/-- For a list that follows the placements, "enough available" is "free" in the sense of the specification. -/
theorem freeIn_iff {ps : List Placement} {a : AgentId} {cap idx n q d : Int} {s : List Event}
    (h : AgentInv ps a cap idx s) (hq : 0 ≤ q) : FreeIn s n q d ↔ Free ps a cap n q d := by
  unfold FreeIn Free
  constructor
  · intro hf t h1 h2
    obtain ⟨v, hv, hle⟩ := hf t h1 h2
    rw [h.exact_ t (by omega)] at hv; cases hv; omega
  · intro hf t h1 h2
    exact ⟨_, h.exact_ t (by omega), by have := hf t h1 h2; omega⟩

/-- Every event inside an interval with enough workers passes the check. -/
theorem inside_ok {cap idx n start end_ : Int} {s : List Event} (h : Inv cap idx s)
    (hf : FreeIn s n start (end_ - start)) : ∀ e ∈ s, inside start end_ e = true → n ≤ e.count := by
  intro e he hin
  simp [inside] at hin
  obtain ⟨v, hv, hle⟩ := hf e.key (by omega) (by omega)
  unfold available at hv
  simp only [Option.map_eq_some_iff] at hv
  obtain ⟨l, hl, rfl⟩ := hv
  have h1 := lastAt_max h.sorted hl e he (le_refl _)
  have h2 := (lastAt_mem hl).2
  have := group_last h.group h.sorted hl e he (by omega)
  omega

/-- An update of one list succeeds exactly when the workers are available during the whole interval. -/
theorem updateState_isSome {cap idx n start end_ : Int} {s : List Event} (h : Inv cap idx s) (h0 : 0 ≤ start)
    (hlt : start < end_) (hn : 0 ≤ n) :
    (∃ s', updateState idx start end_ n s = some s') ↔ FreeIn s n start (end_ - start) := by
  constructor
  · rintro ⟨s', hs'⟩ t h1 h2
    obtain ⟨_, href⟩ := updateState_spec h h0 hlt hn hs'
    obtain ⟨v, hv, _, hle⟩ := href t (by omega)
    exact ⟨v, hv, hle ⟨h1, by omega⟩⟩
  · intro hf
    obtain ⟨v, hv, hle⟩ := hf start (le_refl _) (by omega)
    have hd := decrement_some (inside_ok h hf)
    obtain ⟨l, hl⟩ : ∃ l, lastAt (add ⟨idx, .start, start, v - n⟩ (s.map (dec start end_ n))) end_ = some l := by
      have hs1 := sorted_map (dec_key start end_ n) h.sorted
      have hseq : ∀ e ∈ s.map (dec start end_ n), e.seq < idx := by
        intro e he
        obtain ⟨x, hx, rfl⟩ := List.mem_map.mp he
        rw [dec_seq]; exact h.seq x hx
      rw [lastAt_add hs1 (seq_keyLe hseq _ rfl)]
      have : Event.key ⟨idx, .start, start, v - n⟩ ≤ end_ := by simp [Event.key]; omega
      simp only [this, if_true]
      split
      · exact ⟨_, rfl⟩
      · split <;> exact ⟨_, rfl⟩
    exact ⟨_, by simp [updateState, hv, hle, hd, insertPair, hl]; rfl⟩

end Sampo.Momentum
