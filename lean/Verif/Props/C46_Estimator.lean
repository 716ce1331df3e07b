import Verif.Lemmas.Estimator

/-!
# C46: the default work time estimate

A team of `n` workers of a type of which at most `m` can work together does `n · Σ_{k<n} (1 - (k/m)²)` times the productivity of
one worker (`output`); a work takes as long as the requirement that takes longest.
-/

namespace Sampo.C46

open Estimator

private theorem isWorker_mem {team : List Worker} {k : Nat} {w : Worker} (h : IsWorker team k w) : w ∈ team ∧ w.name = k :=
  workerOf_mem (isWorker_iff.mp h)

private theorem isWorker_unique {team : List Worker} {k : Nat} {w w' : Worker} (h : IsWorker team k w) (h' : IsWorker team k w') :
    w = w' := by
  rw [isWorker_iff] at h h'
  rw [h] at h'
  exact Option.some.inj h'

/-- The estimate is a time from zero to infinity. -/
theorem not_negative {P : Means} {reqs : List Req} {team : List Worker} {t : Int} (h : estimate P reqs team = some t) :
    0 ≤ t ∧ t ≤ TIME_INF := by
  unfold estimate at h
  by_cases ht : team = []
  · rw [if_pos ht] at h; cases h; decide
  · rw [if_neg ht] at h
    exact reqLoop_bounds (by decide) h

/-- An empty team takes no time. -/
theorem empty_team (P : Means) (reqs : List Req) : estimate P reqs [] = some 0 := by
  unfold estimate; rw [if_pos rfl]; rfl

/-- A team of workers with known productivities that has no more workers of a type than the maximum gets an estimate. -/
theorem estimated {P : Means} {reqs : List Req} {team : List Worker} (hk : Known P team) (hs : Sound reqs) (hf : Fits team reqs) :
    ∃ t, estimate P reqs team = some t := by
  unfold estimate
  by_cases ht : team = []
  · rw [if_pos ht]; exact ⟨_, rfl⟩
  · rw [if_neg ht]
    by_cases hm : Meets team reqs
    · exact ⟨_, reqLoop_meets hk hs hm hf (by decide)⟩
    · exact ⟨_, reqLoop_unmet hk hs hm hf⟩

private theorem foldl_max (l : List Int) (t : Int) : t ≤ l.foldl max t ∧ (∀ x ∈ l, x ≤ l.foldl max t) ∧
    (l.foldl max t = t ∨ l.foldl max t ∈ l) := by
  induction l generalizing t with
  | nil => simp
  | cons x xs ih =>
    rw [List.foldl_cons]
    obtain ⟨h1, h2, h3⟩ := ih (max t x)
    refine ⟨by omega, ?_, ?_⟩
    · intro y hy
      rcases List.mem_cons.mp hy with rfl | hy
      · omega
      · exact h2 y hy
    · rcases h3 with h3 | h3
      · rw [h3]
        rcases le_total t x with h | h
        · right; rw [max_eq_right h]; simp
        · left; exact max_eq_left h
      · right; exact List.mem_cons_of_mem _ h3

/-- The time of a team that meets the requirements: the largest of the times the requirements take, and zero if there are none. -/
theorem time_exact {P : Means} {reqs : List Req} {team : List Worker} {t : Int} (hne : team ≠ []) (hk : Known P team) (hs : Sound reqs)
    (hm : Meets team reqs) (hf : Fits team reqs) (h : estimate P reqs team = some t) :
    (∀ r ∈ reqs, 0 < r.minCount → ∃ w p, IsWorker team r.kind w ∧ meanOf P w = some p ∧
      mkTime ⌈(r.volume : ℚ) / (p * output w.count.toNat r.maxCount)⌉ ≤ t) ∧
    (t = 0 ∨ ∃ r ∈ reqs, 0 < r.minCount ∧ ∃ w p, IsWorker team r.kind w ∧ meanOf P w = some p ∧
      t = mkTime ⌈(r.volume : ℚ) / (p * output w.count.toNat r.maxCount)⌉) := by
  unfold estimate at h
  rw [if_neg hne, reqLoop_meets hk hs hm hf (by decide)] at h
  simp only [Option.some.injEq] at h
  subst h
  obtain ⟨h1, h2, h3⟩ := foldl_max (reqs.map (reqTime P team)) (mkTime 0)
  have hreq : ∀ r ∈ reqs, 0 < r.minCount → ∃ w p, IsWorker team r.kind w ∧ meanOf P w = some p ∧
      reqTime P team r = mkTime ⌈(r.volume : ℚ) / (p * output w.count.toNat r.maxCount)⌉ := by
    intro r hr h0
    obtain ⟨w, hw, _⟩ := hm r hr h0
    obtain ⟨p, hp, _⟩ := hk w (workerOf_mem (isWorker_iff.mp hw)).1
    refine ⟨w, p, hw, hp, ?_⟩
    unfold reqTime
    rw [if_neg (by omega), isWorker_iff.mp hw]
    dsimp only
    rw [hp]
  constructor
  · intro r hr h0
    obtain ⟨w, p, hw, hp, heq⟩ := hreq r hr h0
    exact ⟨w, p, hw, hp, by rw [← heq]; exact h2 _ (List.mem_map_of_mem hr)⟩
  · rcases h3 with h3 | h3
    · left; rw [h3]; decide
    · obtain ⟨r, hr, heq⟩ := List.mem_map.mp h3
      by_cases h0 : 0 < r.minCount
      · obtain ⟨w, p, hw, hp, heq'⟩ := hreq r hr h0
        exact Or.inr ⟨r, hr, h0, w, p, hw, hp, by rw [← heq]; exact heq'⟩
      · left
        have hz : r.minCount = 0 := by have := (hs r hr).1; omega
        rw [← heq]
        unfold reqTime
        rw [if_pos hz]

/-- A team takes infinitely long exactly if it does not have the minimum of some type required (the volumes being such that one
worker could do them within the calendar). -/
theorem infinite_iff {P : Means} {reqs : List Req} {team : List Worker} (hne : team ≠ []) (hk : Known P team) (hs : Sound reqs)
    (hf : Fits team reqs) (hv : ∀ r ∈ reqs, ∀ w ∈ team, ∀ p, meanOf P w = some p → (r.volume : ℚ) ≤ (TIME_INF - 1 : Int) * p) :
    estimate P reqs team = some TIME_INF ↔ ¬ ∀ r ∈ reqs, 0 < r.minCount → ∃ w, IsWorker team r.kind w ∧ r.minCount ≤ w.count := by
  constructor
  · intro h hm
    have hm : Meets team reqs := hm
    rcases (time_exact hne hk hs hm hf h).2 with h0 | ⟨r, hr, h0, w, p, hw, hp, heq⟩
    · exact absurd h0 (by decide)
    · obtain ⟨w', hw', hle⟩ := hm r hr h0
      cases isWorker_unique hw hw'
      have hmax := hf r hr w hw
      obtain ⟨p', hp', hpos⟩ := hk w (isWorker_mem hw).1
      rw [hp] at hp'; cases hp'
      have hout := output_ge (m := r.maxCount) (n := w.count.toNat) (by omega) (by omega)
      have hn : (1 : ℚ) ≤ (w.count.toNat : ℚ) := by
        have : 1 ≤ w.count.toNat := by omega
        exact_mod_cast this
      have hvol := hv r hr w (isWorker_mem hw).1 p hp
      have hceil : ⌈(r.volume : ℚ) / (p * output w.count.toNat r.maxCount)⌉ ≤ TIME_INF - 1 := by
        rw [Int.ceil_le, div_le_iff₀ (by nlinarith)]
        have h1 : ((TIME_INF - 1 : Int) : ℚ) * p ≤ ((TIME_INF - 1 : Int) : ℚ) * (p * output w.count.toNat r.maxCount) := by
          have hT : (0 : ℚ) ≤ ((TIME_INF - 1 : Int) : ℚ) := by norm_num [TIME_INF]
          apply mul_le_mul_of_nonneg_left _ hT
          nlinarith
        linarith
      have := mkTime_mono hceil
      rw [← heq] at this
      exact absurd this (by decide)
  · intro h
    unfold estimate
    rw [if_neg hne]
    exact reqLoop_unmet hk hs h hf

/-- More workers, up to the maxima, never take longer.  The workers of a type are of the same contractor, as productivities depend
on the contractor. -/
theorem more_workers {P : Means} {reqs : List Req} {team team' : List Worker} {t t' : Int} (hne : team ≠ []) (hne' : team' ≠ [])
    (hk : Known P team) (hk' : Known P team') (hs : Sound reqs) (hf : Fits team reqs) (hf' : Fits team' reqs)
    (hmore : ∀ r ∈ reqs, ∀ w, IsWorker team r.kind w →
      ∃ w', IsWorker team' r.kind w' ∧ w'.contractor = w.contractor ∧ w.count ≤ w'.count)
    (h : estimate P reqs team = some t) (h' : estimate P reqs team' = some t') : t' ≤ t := by
  by_cases hm : Meets team reqs
  · have hm' : Meets team' reqs := by
      intro r hr h0
      obtain ⟨w, hw, hle⟩ := hm r hr h0
      obtain ⟨w', hw', _, hle'⟩ := hmore r hr w hw
      exact ⟨w', hw', by omega⟩
    rcases (time_exact hne' hk' hs hm' hf' h').2 with h0 | ⟨r, hr, h0, w', p', hw', hp', rfl⟩
    · rw [h0]; exact (not_negative h).1
    · obtain ⟨w, p, hw, hp, hle⟩ := (time_exact hne hk hs hm hf h).1 r hr h0
      refine le_trans (mkTime_mono ?_) hle
      obtain ⟨w1, hw1, hcon, hcount⟩ := hmore r hr w hw
      cases isWorker_unique hw' hw1
      obtain ⟨w2, hw2, hmin⟩ := hm r hr h0
      cases isWorker_unique hw hw2
      have hpp : p' = p := by
        have e1 := (isWorker_mem hw).2
        have e2 := (isWorker_mem hw').2
        unfold meanOf at hp hp'
        rw [hcon, e2] at hp'
        rw [e1] at hp
        rw [hp] at hp'
        cases hp'; rfl
      subst hpp
      have hmax := hf' r hr w' hw'
      obtain ⟨q, hq, hpos⟩ := hk w (isWorker_mem hw).1
      rw [hp] at hq; cases hq
      have h1 := output_mono (m := r.maxCount) (n := w.count.toNat) (n' := w'.count.toNat) (by omega) (by omega) (by omega)
      have h2 := output_ge (m := r.maxCount) (n := w.count.toNat) (by omega) (by omega)
      have hn : (1 : ℚ) ≤ (w.count.toNat : ℚ) := by
        have : 1 ≤ w.count.toNat := by omega
        exact_mod_cast this
      have hvol : (0 : ℚ) ≤ (r.volume : ℚ) := by exact_mod_cast (hs r hr).2
      apply Int.ceil_mono
      apply div_le_div_of_nonneg_left hvol (by nlinarith)
      exact mul_le_mul_of_nonneg_left h1 (le_of_lt hpos)
  · have : t = TIME_INF := by
      unfold estimate at h
      rw [if_neg hne, reqLoop_unmet hk hs hm hf] at h
      cases h; decide
    rw [this]
    exact (not_negative h').2

/-- Two workers are more than twice as fast as one, up to the maximum: the output of a team grows at least with its size. -/
theorem output_at_least {n : Nat} {m : Int} (h1 : 1 ≤ n) (hm : (n : Int) ≤ m) : (n : ℚ) ≤ output n m := output_ge h1 hm

/-- The productivities a user sets are used: for one contractor, or for all contractors without an own value; those of other types and,
if set for one contractor, of other contractors stay. -/
theorem productivity_set {P P' : Means} {mean : ℚ} {w : Worker} {c : Option Nat} (h : setMean P mean w.name c = some P') :
    (c = some w.contractor → meanOf P' w = some mean) ∧
    (c = none → meanOf P' w = some (((P w.name).bind fun p => p.2 w.contractor).getD mean)) ∧
    ∀ v : Worker, v.name ≠ w.name ∨ (∃ d, c = some d ∧ v.contractor ≠ d) → meanOf P' v = meanOf P v := by
  unfold setMean at h
  obtain ⟨p, hp, rfl⟩ := Option.map_eq_some_iff.mp h
  refine ⟨?_, ?_, ?_⟩
  · rintro rfl
    simp [meanOf]
  · rintro rfl
    simp [meanOf, hp]
  · intro v hv
    by_cases hn : v.name = w.name
    · rcases hv with hv | ⟨d, rfl, hd⟩
      · exact absurd hn hv
      · simp [meanOf, hn, hp, Function.update_of_ne hd]
    · simp [meanOf, Function.update_of_ne hn]

/-- Not part of the claim, but worth knowing: beyond the maximum the estimate is wrong.  Ten workers where at most one can work are
done at once (the output is negative), seven where four can take longer than four. -/
theorem beyond_maximum : estimate (initialMeans [0]) [⟨0, 100, 1, 1⟩] [⟨0, 0, 10⟩] = some 0 ∧
    estimate (initialMeans [0]) [⟨0, 100, 1, 4⟩] [⟨0, 0, 4⟩] = some 8 ∧
    estimate (initialMeans [0]) [⟨0, 100, 1, 4⟩] [⟨0, 0, 7⟩] = some 11 := by decide +kernel

/-- Not proved because false: "a team that does not meet the requirements takes infinitely long", for the empty team: it does any
work at once. -/
theorem nobody_is_fast : estimate (initialMeans [0]) [⟨0, 100, 1, 1⟩] [] = some 0 := by decide +kernel

/-- The hypotheses are met: two requirements, of which the second takes longer; one worker more makes the work faster. -/
example : (let P := initialMeans [0, 1]
    let reqs : List Req := [⟨0, 100, 1, 4⟩, ⟨1, 50, 1, 2⟩]
    Sound reqs ∧ Fits [⟨7, 0, 2⟩, ⟨7, 1, 1⟩] reqs ∧ Fits [⟨7, 0, 2⟩, ⟨7, 1, 2⟩] reqs ∧ Meets [⟨7, 0, 2⟩, ⟨7, 1, 1⟩] reqs ∧
    Known P [⟨7, 0, 2⟩, ⟨7, 1, 1⟩] ∧ estimate P reqs [⟨7, 0, 2⟩, ⟨7, 1, 1⟩] = some 50 ∧
    estimate P reqs [⟨7, 0, 2⟩, ⟨7, 1, 2⟩] = some 26 ∧ estimate P reqs [⟨7, 0, 2⟩] = some TIME_INF) := by
  refine ⟨by unfold Sound; decide, ?_, ?_, ?_, ?_, by decide +kernel, by decide +kernel, by decide +kernel⟩
  · intro r hr w hw; rw [isWorker_iff] at hw; simp at hr; rcases hr with rfl | rfl <;> simp [workerOf] at hw <;> subst hw <;> decide
  · intro r hr w hw; rw [isWorker_iff] at hw; simp at hr; rcases hr with rfl | rfl <;> simp [workerOf] at hw <;> subst hw <;> decide
  · intro r hr _; simp at hr; rcases hr with rfl | rfl <;> exact ⟨_, isWorker_iff.mpr rfl, by decide⟩
  · intro w hw; simp at hw; rcases hw with rfl | rfl <;> exact ⟨1, rfl, by norm_num⟩

end Sampo.C46
