import Verif.Prelude
import Mathlib.Algebra.Order.Field.Rat
import Mathlib.Tactic.NormNum
import Verif.Model.Deadline

/-! # C30: deadline search returns a schedule meeting the deadline -/

namespace Sampo.C30
open Sampo.Deadline

/-- Execution times are non-negative and finite. -/
def SaneTimes (run : Rat → List Nat → Option Int) : Prop := ∀ k l t, run k l = some t → 0 ≤ t ∧ t < timeInf

private theorem indepLoop_meets {run : Rat → List Nat → Option Int} {deadline : Int} {kMax : Rat} : ∀ {vs indep tries r},
    (∃ t, run kMax indep = some t ∧ t ≤ deadline) → indepLoop run deadline kMax vs indep tries = some r →
    ∃ t, run kMax r = some t ∧ t ≤ deadline := by
  intro vs
  induction vs with
  | nil => intro indep tries r h hr; simp only [indepLoop, Option.some.injEq] at hr; subst hr; exact h
  | cons v vs ih =>
    intro indep tries r h hr
    simp only [indepLoop, Option.bind_eq_some_iff] at hr
    obtain ⟨t, ht, hr⟩ := hr
    split at hr
    · split at hr
      · simp only [Option.some.injEq] at hr; subst hr; exact h
      · exact ih h hr
    · exact ih ⟨t, ht, by omega⟩ hr

/-- What the search state says about the levels probed by the binary search. -/
private def Inv (run : Rat → List Nat → Option Int) (deadline : Int) (ps : List Rat) (s : Search) : Prop :=
  (s.leftFit < timeInf → s.leftM ∈ ps ∧ ∃ t, run s.leftM [] = some t ∧ t ≤ deadline ∧ s.leftFit = deadline - t) ∧
  (s.rightFit < timeInf → s.rightM ∈ ps ∧ ∃ t, run s.rightM [] = some t ∧ deadline < t ∧ s.rightFit = t - deadline) ∧
  ∀ m ∈ ps, ∃ t, run m [] = some t ∧
    (t ≤ deadline → s.leftFit < timeInf ∧ s.leftFit ≤ deadline - t) ∧
    (deadline < t → s.rightFit < timeInf ∧ s.rightFit ≤ t - deadline)

private theorem binLoop_inv {run : Rat → List Nat → Option Int} (hs : SaneTimes run) {deadline : Int} (h0 : 0 ≤ deadline)
    (h1 : deadline < timeInf) (base : List Rat) : ∀ {fuel kMin kMax s s' ps}, Inv run deadline ps s →
    s.probes = ps ++ base → binLoop run deadline fuel kMin kMax s = some (some s') →
    ∃ ps', s'.probes = ps' ++ base ∧ Inv run deadline ps' s' := by
  intro fuel
  induction fuel with
  | zero => intro kMin kMax s s' ps _ _ h; simp [binLoop] at h
  | succ fuel ih =>
    intro kMin kMax s s' ps hi hp h
    simp only [binLoop] at h
    split at h
    · split at h
      · simp at h
      · rename_i t ht
        have hst := hs _ _ _ ht
        obtain ⟨ha, hb, hc⟩ := hi
        split at h
        · rename_i hgt
          have hd : (((t - deadline).natAbs : Nat) : Int) = t - deadline := by omega
          rw [hd] at h
          refine ih (ps := ((kMin + kMax) / 2) :: ps) ?_ ?_ h
          · split
            · refine ⟨fun hl => ?_, fun _ => ⟨by simp, t, ht, by omega, rfl⟩, ?_⟩
              · obtain ⟨a1, a2⟩ := ha hl
                exact ⟨List.mem_cons_of_mem _ a1, a2⟩
              · intro m hm
                rcases List.mem_cons.mp hm with rfl | hm
                · exact ⟨t, ht, fun hh => by omega, fun _ => ⟨by simp only; omega, by simp only; omega⟩⟩
                · obtain ⟨t', e1, e2, e3⟩ := hc m hm
                  refine ⟨t', e1, e2, fun hh => ?_⟩
                  have := e3 hh
                  simp only
                  omega
            · rename_i hnle
              refine ⟨fun hl => ?_, fun hr => ?_, ?_⟩
              · obtain ⟨a1, a2⟩ := ha hl
                exact ⟨List.mem_cons_of_mem _ a1, a2⟩
              · obtain ⟨a1, a2⟩ := hb hr
                exact ⟨List.mem_cons_of_mem _ a1, a2⟩
              · intro m hm
                rcases List.mem_cons.mp hm with rfl | hm
                · exact ⟨t, ht, fun hh => by omega, fun _ => ⟨by simp only; omega, by simp only; omega⟩⟩
                · exact hc m hm
          · split <;> simp [hp]
        · rename_i hle
          have hd : (((t - deadline).natAbs : Nat) : Int) = deadline - t := by omega
          rw [hd] at h
          refine ih (ps := ((kMin + kMax) / 2) :: ps) ?_ ?_ h
          · split
            · refine ⟨fun _ => ⟨by simp, t, ht, by omega, rfl⟩, fun hl => ?_, ?_⟩
              · obtain ⟨a1, a2⟩ := hb hl
                exact ⟨List.mem_cons_of_mem _ a1, a2⟩
              · intro m hm
                rcases List.mem_cons.mp hm with rfl | hm
                · exact ⟨t, ht, fun _ => ⟨by simp only; omega, by simp only; omega⟩, fun hh => by omega⟩
                · obtain ⟨t', e1, e2, e3⟩ := hc m hm
                  refine ⟨t', e1, fun hh => ?_, e3⟩
                  have := e2 hh
                  simp only
                  omega
            · rename_i hnle
              refine ⟨fun hl => ?_, fun hr => ?_, ?_⟩
              · obtain ⟨a1, a2⟩ := ha hl
                exact ⟨List.mem_cons_of_mem _ a1, a2⟩
              · obtain ⟨a1, a2⟩ := hb hr
                exact ⟨List.mem_cons_of_mem _ a1, a2⟩
              · intro m hm
                rcases List.mem_cons.mp hm with rfl | hm
                · exact ⟨t, ht, fun _ => ⟨by simp only; omega, by simp only; omega⟩, fun hh => by omega⟩
                · exact hc m hm
          · split <;> simp [hp]
    · simp only [Option.some.injEq] at h
      subst h
      exact ⟨ps, hp, hi⟩

/-- The binary search ends within 19 rounds. -/
private theorem binLoop_ends {run : Rat → List Nat → Option Int} {deadline : Int} : ∀ {fuel : Nat} {kMin kMax : Rat} {s},
    kMax - kMin ≤ 1 / 20 * 2 ^ fuel → ∃ r, binLoop run deadline (fuel + 1) kMin kMax s = some r := by
  intro fuel
  induction fuel with
  | zero =>
    intro kMin kMax s h
    simp only [binLoop]
    rw [if_neg (by simp at h ⊢; linarith)]
    exact ⟨_, rfl⟩
  | succ fuel ih =>
    intro kMin kMax s h
    rw [binLoop]
    split
    · simp only
      split
      · exact ⟨_, rfl⟩
      · split
        · refine ih ?_
          rw [pow_succ] at h
          linarith
        · refine ih ?_
          rw [pow_succ] at h
          linarith
    · exact ⟨_, rfl⟩

/-- The search always ends (it may end with an error raised by the base scheduler). -/
theorem search_terminates (run : Rat → List Nat → Option Int) (nodes : List Nat) (deadline : Int) :
    ∃ r, search run nodes deadline = some r := by
  unfold search
  split
  · exact ⟨_, rfl⟩
  · split
    · exact ⟨_, rfl⟩
    · obtain ⟨r, hr⟩ := binLoop_ends (run := run) (deadline := deadline) (fuel := 18) (kMin := 1) (kMax := 10000)
        (s := ⟨timeInf, 10000, timeInf, 1, [10000]⟩) (by norm_num)
      rw [hr]
      exact ⟨_, rfl⟩

/-- Which levels the binary search probes: strictly between the borders. -/
private theorem binLoop_probes {run : Rat → List Nat → Option Int} {deadline : Int} {lo hi : Rat} :
    ∀ {fuel : Nat} {kMin kMax : Rat} {s s'}, lo ≤ kMin → kMin ≤ kMax → kMax ≤ hi →
    binLoop run deadline fuel kMin kMax s = some (some s') →
    ∃ ps', s'.probes = ps' ++ s.probes ∧ ∀ m ∈ ps', lo < m ∧ m < hi := by
  intro fuel
  induction fuel with
  | zero => intro kMin kMax s s' _ _ _ h; simp [binLoop] at h
  | succ fuel ih =>
    intro kMin kMax s s' h1 h2 h3 h
    simp only [binLoop] at h
    split at h
    · rename_i hgap
      have hm : lo < (kMin + kMax) / 2 ∧ (kMin + kMax) / 2 < hi := by
        norm_num at hgap
        constructor <;> linarith
      split at h
      · simp at h
      · split at h
        · obtain ⟨ps', e1, e2⟩ := ih h1 (by linarith) (by linarith) h
          refine ⟨ps' ++ [(kMin + kMax) / 2], ?_, ?_⟩
          · rw [e1]; split <;> simp
          · intro m hmm
            rcases List.mem_append.mp hmm with hmm | hmm
            · exact e2 m hmm
            · simp only [List.mem_singleton] at hmm; subst hmm; exact hm
        · obtain ⟨ps', e1, e2⟩ := ih (by linarith) (by linarith) h3 h
          refine ⟨ps' ++ [(kMin + kMax) / 2], ?_, ?_⟩
          · rw [e1]; split <;> simp
          · intro m hmm
            rcases List.mem_append.mp hmm with hmm | hmm
            · exact e2 m hmm
            · simp only [List.mem_singleton] at hmm; subst hmm; exact hm
    · simp only [Option.some.injEq] at h
      subst h
      exact ⟨[], by simp, by simp⟩

private theorem inv_init (run deadline) (a b c d) : Inv run deadline [] ⟨timeInf, a, timeInf, b, c ++ d⟩ := by
  refine ⟨fun h => absurd h (Int.lt_irrefl _), fun h => absurd h (Int.lt_irrefl _), by simp⟩

/-- The outcome (the arguments of the last call of the base scheduler and the levels probed, the first of them 10000)
meets the deadline if the minimum of resources, level 10000, finishes before the deadline, or if some other probed level
meets the deadline.  Missing compared to the full property: at level 10000 finishing exactly at the deadline does not count
(`exact_minimum_lost`). -/
theorem probed_deadline_met_partial (run : Rat → List Nat → Option Int) (hs : SaneTimes run) (nodes : List Nat)
    (deadline : Int) (h0 : 0 ≤ deadline) (h1 : deadline < timeInf) (o : Outcome)
    (h : search run nodes deadline = some (some o))
    (hmet : (∃ t, run 10000 [] = some t ∧ t < deadline) ∨
      ∃ k ∈ o.probes, k ≠ 10000 ∧ ∃ t, run k [] = some t ∧ t ≤ deadline) :
    ∃ t, run o.k o.indep = some t ∧ t ≤ deadline := by
  unfold search at h
  split at h
  · simp at h
  · rename_i t ht
    split at h
    · rename_i hlt
      simp only [Option.some.injEq, Option.map_eq_some_iff] at h
      obtain ⟨indep, hi, rfl⟩ := h
      exact indepLoop_meets ⟨t, ht, by omega⟩ hi
    · rename_i hge
      simp only [Option.map_eq_some_iff] at h
      obtain ⟨r, hr, s, rfl, rfl⟩ := h
      obtain ⟨ps, hps, ha, hb, hc⟩ := binLoop_inv hs h0 h1 [10000] (inv_init run deadline _ _ [] [10000]) rfl hr
      have : s.leftFit < timeInf := by
        rcases hmet with ⟨t', ht', hlt⟩ | ⟨k, hk, hne, t', ht', hle⟩
        · rw [ht] at ht'; cases ht'; omega
        · have hk : k ∈ s.probes := by split at hk <;> exact hk
          rw [hps] at hk
          rcases List.mem_append.mp hk with hk | hk
          · obtain ⟨t'', e1, e2, _⟩ := hc k hk
            rw [ht'] at e1; cases e1
            exact (e2 hle).1
          · simp only [List.mem_singleton] at hk; exact absurd hk hne
      rw [if_pos this]
      obtain ⟨_, t', e1, e2, _⟩ := ha this
      exact ⟨t', e1, e2⟩

/-- In the binary search the outcome is a probed level; it is the one closest to the deadline among the probed levels that
meet it, or, if none does, among all probed ones. -/
theorem outcome_is_closest_probe (run : Rat → List Nat → Option Int) (hs : SaneTimes run) (nodes : List Nat)
    (deadline : Int) (h0 : 0 ≤ deadline) (h1 : deadline < timeInf) (t0 : Int) (ht0 : run 10000 [] = some t0)
    (hge : deadline ≤ t0) (o : Outcome) (h : search run nodes deadline = some (some o)) :
    o.indep = [] ∧ o.k ∈ o.probes ∧ o.k ≠ 10000 ∧ ∃ t, run o.k [] = some t ∧
      ∀ k ∈ o.probes, k ≠ 10000 → ∀ t', run k [] = some t' →
        (t' ≤ deadline → t ≤ deadline ∧ t' ≤ t) ∧ (deadline < t → deadline < t' ∧ t ≤ t') := by
  unfold search at h
  rw [ht0] at h
  simp only at h
  rw [if_neg (by omega)] at h
  simp only [Option.map_eq_some_iff] at h
  obtain ⟨r, hr, s, rfl, rfl⟩ := h
  obtain ⟨ps, hps, ha, hb, hc⟩ := binLoop_inv hs h0 h1 [10000] (inv_init run deadline _ _ [] [10000]) rfl hr
  obtain ⟨ps2, hps2, hne⟩ := binLoop_probes (lo := 1) (hi := 10000) (by norm_num) (by norm_num) (by norm_num) hr
  have : ps2 = ps := List.append_cancel_right (by rw [← hps2, hps])
  subst this
  have hnn : ∀ m ∈ ps2, m ≠ 10000 := fun m hm => by have := (hne m hm).2; intro hh; subst hh; exact absurd this (lt_irrefl _)
  by_cases hl : s.leftFit < timeInf
  · rw [if_pos hl]
    obtain ⟨a1, t, a2, a3, a4⟩ := ha hl
    refine ⟨rfl, ?_, hnn _ a1, t, a2, ?_⟩
    · simp only [hps]; exact List.mem_append_left _ a1
    · intro k hk hk2 t' ht'
      simp only [hps] at hk
      rcases List.mem_append.mp hk with hk | hk
      · obtain ⟨t'', e1, e2, e3⟩ := hc k hk
        rw [ht'] at e1; cases e1
        exact ⟨fun hh => by have := e2 hh; omega, fun hh => by omega⟩
      · simp only [List.mem_singleton] at hk; exact absurd hk hk2
  · rw [if_neg hl]
    -- no probe meets the deadline; there is at least one probe
    have hex : ∃ m, m ∈ ps2 := by
      by_contra hno
      have hnil : ps2 = [] := List.eq_nil_iff_forall_not_mem.mpr fun m hm => hno ⟨m, hm⟩
      subst hnil
      rw [binLoop] at hr
      rw [if_pos (by norm_num)] at hr
      simp only at hr
      split at hr
      · simp at hr
      · split at hr
        · obtain ⟨q, e1, _⟩ := binLoop_probes (lo := 1) (hi := 10000) (by norm_num) (by norm_num) (by norm_num) hr
          rw [hps] at e1
          split at e1 <;>
          · have := congrArg List.length e1
            simp at this
        · obtain ⟨q, e1, _⟩ := binLoop_probes (lo := 1) (hi := 10000) (by norm_num) (by norm_num) (by norm_num) hr
          rw [hps] at e1
          split at e1 <;>
          · have := congrArg List.length e1
            simp at this
    obtain ⟨m, hm⟩ := hex
    obtain ⟨tm, e1, e2, e3⟩ := hc m hm
    have hrf : s.rightFit < timeInf := by
      by_cases hle : tm ≤ deadline
      · exact absurd (e2 hle).1 hl
      · exact (e3 (by omega)).1
    obtain ⟨b1, t, b2, b3, b4⟩ := hb hrf
    refine ⟨rfl, ?_, hnn _ b1, t, b2, ?_⟩
    · simp only [hps]; exact List.mem_append_left _ b1
    · intro k hk hk2 t' ht'
      simp only [hps] at hk
      rcases List.mem_append.mp hk with hk | hk
      · obtain ⟨t'', d1, d2, d3⟩ := hc k hk
        rw [ht'] at d1; cases d1
        refine ⟨fun hh => absurd (d2 hh).1 hl, fun _ => ?_⟩
        by_cases hle : t' ≤ deadline
        · exact absurd (d2 hle).1 hl
        · have := d3 (by omega); omega
      · simp only [List.mem_singleton] at hk; exact absurd hk hk2

/-- More resources are never slower: execution time grows with the level. -/
def Monotone (run : Rat → List Nat → Option Int) : Prop :=
  ∀ k k' t t', k ≤ k' → run k [] = some t → run k' [] = some t' → t ≤ t'

private theorem binLoop_monotone {run : Rat → List Nat → Option Int} (hm : Monotone run)
    {deadline : Int} {k : Rat} {t : Int} (hk : run k [] = some t) (ht : t ≤ deadline) :
    ∀ {fuel : Nat} {kMin kMax : Rat} {s s'}, kMin + 1 / 20 ≤ k → k < kMax →
    binLoop run deadline fuel kMin kMax s = some (some s') →
    ∃ m ∈ s'.probes, m < kMax ∧ ∃ t, run m [] = some t ∧ t ≤ deadline := by
  intro fuel
  induction fuel with
  | zero => intro kMin kMax s s' _ _ h; simp [binLoop] at h
  | succ fuel ih =>
    intro kMin kMax s s' h1 h2 h
    simp only [binLoop] at h
    rw [if_pos (by norm_num at h1 ⊢; linarith)] at h
    split at h
    · simp at h
    · rename_i tm htm
      split at h
      · rename_i hgt
        have hlt : k < (kMin + kMax) / 2 := by
          by_contra hc
          have := hm _ _ _ _ (not_lt.mp hc) htm hk
          omega
        obtain ⟨m, e1, e2, e3⟩ := ih h1 hlt h
        exact ⟨m, e1, by linarith, e3⟩
      · rename_i hle
        obtain ⟨q, e1, _⟩ := binLoop_probes (lo := kMin) (hi := kMax) (by linarith) (by linarith) le_rfl h
        refine ⟨(kMin + kMax) / 2, ?_, by linarith, tm, htm, by omega⟩
        rw [e1]
        exact List.mem_append_right _ (by simp)

/-- If more resources are never slower and some level between 1.05 and 10000 (exclusive) meets the deadline, so does the
outcome. -/
theorem reachable_deadline_met (run : Rat → List Nat → Option Int) (hs : SaneTimes run) (hm : Monotone run)
    (nodes : List Nat) (deadline : Int) (h0 : 0 ≤ deadline) (h1 : deadline < timeInf) (k : Rat) (hk1 : 21 / 20 ≤ k)
    (hk2 : k < 10000) (t : Int) (hk : run k [] = some t) (ht : t ≤ deadline) (o : Outcome)
    (h : search run nodes deadline = some (some o)) :
    ∃ t, run o.k o.indep = some t ∧ t ≤ deadline := by
  refine probed_deadline_met_partial run hs nodes deadline h0 h1 o h ?_
  unfold search at h
  split at h
  · simp at h
  · rename_i t0 ht0
    split at h
    · rename_i hlt
      exact Or.inl ⟨t0, ht0, hlt⟩
    · simp only [Option.map_eq_some_iff] at h
      obtain ⟨r, hr, s, rfl, rfl⟩ := h
      obtain ⟨m, e1, e2, e3⟩ := binLoop_monotone hm hk ht (by norm_num at hk1 ⊢; linarith) hk2 hr
      refine Or.inr ⟨m, ?_, ?_, e3⟩
      · split <;> exact e1
      · intro hh; subst hh; exact absurd e2 (lt_irrefl _)

/-- With a base scheduler that always finds a schedule the search ends without an error. -/
theorem search_succeeds (run : Rat → List Nat → Option Int) (hrun : ∀ k l, ∃ t, run k l = some t) (nodes : List Nat)
    (deadline : Int) : ∃ o, search run nodes deadline = some (some o) := by
  have hbin : ∀ fuel kMin kMax s, binLoop run deadline fuel kMin kMax s ≠ some none := by
    intro fuel
    induction fuel with
    | zero => intro kMin kMax s; simp [binLoop]
    | succ fuel ih =>
      intro kMin kMax s
      simp only [binLoop]
      split
      · split
        · rename_i hn
          obtain ⟨t, ht⟩ := hrun ((kMin + kMax) / 2) []
          rw [ht] at hn; simp at hn
        · split
          · exact ih _ _ _
          · exact ih _ _ _
      · simp
  have hind : ∀ vs indep tries, ∃ r, indepLoop run deadline 10000 vs indep tries = some r := by
    intro vs
    induction vs with
    | nil => intro indep tries; exact ⟨_, rfl⟩
    | cons v vs ih =>
      intro indep tries
      obtain ⟨t, ht⟩ := hrun 10000 (v :: indep)
      simp only [indepLoop, ht, Option.bind_some]
      split
      · split
        · exact ⟨_, rfl⟩
        · exact ih _ _
      · exact ih _ _
  obtain ⟨r, hr⟩ := search_terminates run nodes deadline
  cases r with
  | some o => exact ⟨o, hr⟩
  | none =>
    exfalso
    obtain ⟨t, ht⟩ := hrun 10000 []
    unfold search at hr
    rw [ht] at hr
    simp only at hr
    split at hr
    · obtain ⟨r, hr'⟩ := hind nodes [] 0
      rw [hr'] at hr; simp at hr
    · simp only [Option.map_eq_some_iff, Option.map_eq_none_iff] at hr
      obtain ⟨a, ha, rfl⟩ := hr
      exact hbin _ _ _ _ ha

private def onlyMax (k : Rat) (_ : List Nat) : Option Int := some (if k ≤ 1 then 5 else 10)

private theorem probe_gt_one {run : Rat → List Nat → Option Int} {nodes : List Nat} {deadline t0 : Int}
    (h0 : run 10000 [] = some t0) (hge : deadline ≤ t0) {o : Outcome} (h : search run nodes deadline = some (some o)) :
    ∀ m ∈ o.probes, 1 < m := by
  unfold search at h
  rw [h0] at h
  simp only at h
  rw [if_neg (by omega)] at h
  simp only [Option.map_eq_some_iff] at h
  obtain ⟨r, hb, s, rfl, rfl⟩ := h
  obtain ⟨ps2, hps2, hne⟩ := binLoop_probes (lo := 1) (hi := 10000) (by norm_num) (by norm_num) (by norm_num) hb
  intro m hm
  have hm : m ∈ s.probes := by split at hm <;> exact hm
  rw [hps2] at hm
  rcases List.mem_append.mp hm with hm | hm
  · exact (hne m hm).1
  · simp only [List.mem_singleton] at hm; subst hm; norm_num

/-- Not proved because false: level 1 (all resources) is never tried.  Here more resources are never slower, level 1 meets
the deadline 5, but the outcome takes 10. -/
theorem all_resources_never_tried (nodes : List Nat) :
    onlyMax 1 [] = some 5 ∧ Monotone onlyMax ∧ SaneTimes onlyMax ∧
    ∃ o, search onlyMax nodes 5 = some (some o) ∧ onlyMax o.k o.indep = some 10 := by
  have hs : SaneTimes onlyMax := by
    intro k l t h
    simp only [onlyMax, Option.some.injEq] at h
    subst h
    split <;> decide
  refine ⟨by norm_num [onlyMax], ?_, hs, ?_⟩
  · intro k k' t t' hle h h'
    simp only [onlyMax, Option.some.injEq] at h h'
    subst h; subst h'
    split <;> split <;> first | omega | skip
    rename_i a b
    exact absurd (hle.trans b) a
  · obtain ⟨o, ho⟩ := search_succeeds onlyMax (fun _ _ => ⟨_, rfl⟩) nodes 5
    have h10 : onlyMax 10000 [] = some 10 := by norm_num [onlyMax]
    have hk := (outcome_is_closest_probe onlyMax hs nodes 5 (by norm_num) (by decide) 10 h10 (by norm_num) o ho).2.1
    have := probe_gt_one h10 (by norm_num) ho _ hk
    exact ⟨o, ho, by simp only [onlyMax]; rw [if_neg (not_le.mpr this)]⟩

private def onlyMin (k : Rat) (_ : List Nat) : Option Int := some (if k = 10000 then 10 else 20)

/-- Not proved because false: the minimum of resources finishes exactly at the deadline 10, but the outcome takes 20. -/
theorem exact_minimum_lost (nodes : List Nat) :
    onlyMin 10000 [] = some 10 ∧ ∃ o, search onlyMin nodes 10 = some (some o) ∧ 10000 ∈ o.probes ∧
      onlyMin o.k o.indep = some 20 := by
  have hs : SaneTimes onlyMin := by
    intro k l t h
    simp only [onlyMin, Option.some.injEq] at h
    subst h
    split <;> decide
  obtain ⟨o, ho⟩ := search_succeeds onlyMin (fun _ _ => ⟨_, rfl⟩) nodes 10
  have h10 : onlyMin 10000 [] = some 10 := by simp [onlyMin]
  have hk := (outcome_is_closest_probe onlyMin hs nodes 10 (by norm_num) (by decide) 10 h10 (by norm_num) o ho).2.2.1
  refine ⟨h10, o, ho, ?_, by simp only [onlyMin]; rw [if_neg hk]⟩
  unfold search at ho
  rw [h10] at ho
  simp only at ho
  rw [if_neg (by norm_num)] at ho
  simp only [Option.map_eq_some_iff] at ho
  obtain ⟨r, hb, s, rfl, rfl⟩ := ho
  obtain ⟨ps2, hps2, _⟩ := binLoop_probes (lo := 1) (hi := 10000) (by norm_num) (by norm_num) (by norm_num) hb
  split <;> simp [hps2]

/-- The user's specification has no influence: any two specifications give the same outcome, even if the base scheduler
distinguishes them. -/
theorem specification_is_dropped {σ : Type} (base : List (Nat × σ) → Rat → List Nat → Option Int)
    (spec spec' : List (Nat × σ)) (nodes : List Nat) (deadline : Int) :
    searchWithSpec base spec nodes deadline = searchWithSpec base spec' nodes deadline := by
  have h : ∀ l : List (Nat × σ), (l.filter fun _ => false) = [] := by intro l; simp
  simp only [searchWithSpec, h]

-- hypotheses are met by a base scheduler whose time grows with the level; the search then really uses the binary search
private def demo (k : Rat) (_ : List Nat) : Option Int := some (if k ≤ 100 then 50 else 200)
example : SaneTimes demo ∧ Monotone demo ∧ demo 100 [] = some 50 := by
  refine ⟨?_, ?_, by norm_num [demo]⟩
  · intro k l t h
    simp only [demo, Option.some.injEq] at h
    subst h
    split <;> decide
  · intro k k' t t' hle h h'
    simp only [demo, Option.some.injEq] at h h'
    subst h; subst h'
    split <;> split <;> first | omega | skip
    rename_i a b
    exact absurd (hle.trans b) a
example : ∃ o, search demo [0, 1] 100 = some (some o) ∧ demo o.k o.indep = some 50 := by
  obtain ⟨o, ho⟩ := search_succeeds demo (fun _ _ => ⟨_, rfl⟩) [0, 1] 100
  obtain ⟨t, ht, hle⟩ := reachable_deadline_met demo (by
      intro k l t h
      simp only [demo, Option.some.injEq] at h
      subst h
      split <;> decide) (by
      intro k k' t t' hle h h'
      simp only [demo, Option.some.injEq] at h h'
      subst h; subst h'
      split <;> split <;> first | omega | skip
      rename_i a b
      exact absurd (hle.trans b) a) [0, 1] 100 (by norm_num) (by decide) 100 (by norm_num) (by norm_num) 50
    (by norm_num [demo]) (by norm_num) o ho
  refine ⟨o, ho, ?_⟩
  simp only [demo, Option.some.injEq] at ht ⊢
  split at ht
  · rename_i hh; rw [if_pos hh]
  · omega
-- resources to spare: works are made independent one by one
example : search (fun _ l => some (50 * l.length)) [0, 1, 2, 3] 100 = some (some ⟨10000, [1, 0], [10000]⟩) := by rfl

end Sampo.C30
