import Verif.Lemmas.Pipeline

/-!
# C44: the lag optimization option of the pipeline

Restructuring and the scheduler are any functions.  Switched off and automatic choice are as stated; switched on does nothing.
-/

namespace Sampo.C44

open Pipeline

/-- Switched off, the graph given is scheduled. -/
theorem off_original {γ σ ω : Type} {restructure : γ → Bool → Option γ} {scheduler : Scheduler γ σ ω} {wg : γ} {c : Chosen γ σ ω}
    (h : chooseGraph restructure scheduler wg .off = some c) :
    c.graph = wg ∧ ∃ r, scheduler wg = some r ∧ c.schedules = r.map (·.1) ∧ c.orders = r.map (·.2.2) := by
  unfold chooseGraph at h
  obtain ⟨r, hr, rfl⟩ := Option.map_eq_some_iff.mp h
  exact ⟨rfl, r, hr, rfl, rfl⟩

/-- Automatic choice: both variants are scheduled, the result is one of them - the graph with its own schedules and orders - and no
schedule of the other variant is shorter than the shortest one of the result. -/
theorem auto_smaller {γ σ ω : Type} {restructure : γ → Bool → Option γ} {scheduler : Scheduler γ σ ω} {wg : γ} {c : Chosen γ σ ω}
    (h : chooseGraph restructure scheduler wg .auto = some c) :
    ∃ opt r, restructure wg opt = some c.graph ∧ scheduler c.graph = some r ∧ c.schedules = r.map (·.1) ∧ c.orders = r.map (·.2.2) ∧
      ∃ best ∈ r, ∀ opt' wg' r', restructure wg opt' = some wg' → scheduler wg' = some r' → ∀ s ∈ r', best.2.1 ≤ s.2.1 := by
  unfold chooseGraph at h
  simp only [Option.bind_eq_some_iff] at h
  obtain ⟨wg1, hw1, s1, hs1, t1, ht1, wg2, hw2, s2, hs2, t2, ht2, h⟩ := h
  have hmin : ∀ {s : List (σ × Int × ω)} {t : Int}, (s.map (·.2.1)).min? = some t → (∃ b ∈ s, b.2.1 = t) ∧ ∀ x ∈ s, t ≤ x.2.1 := by
    intro s t ht
    rw [List.min?_eq_some_iff] at ht
    obtain ⟨b, hb, hbt⟩ := List.mem_map.mp ht.1
    exact ⟨⟨b, hb, hbt⟩, fun x hx => ht.2 _ (List.mem_map_of_mem (f := fun y : σ × Int × ω => y.2.1) hx)⟩
  obtain ⟨⟨b1, hb1, hbt1⟩, hall1⟩ := hmin ht1
  obtain ⟨⟨b2, hb2, hbt2⟩, hall2⟩ := hmin ht2
  by_cases hlt : t1 < t2
  · rw [if_pos hlt] at h
    cases h
    refine ⟨false, s1, hw1, hs1, rfl, rfl, b1, hb1, ?_⟩
    intro opt' wg' r' hw' hr' s hs
    cases opt' with
    | false =>
      rw [hw1] at hw'; cases hw'
      rw [hs1] at hr'; cases hr'
      rw [hbt1]; exact hall1 s hs
    | true =>
      rw [hw2] at hw'; cases hw'
      rw [hs2] at hr'; cases hr'
      have := hall2 s hs
      omega
  · rw [if_neg hlt] at h
    cases h
    refine ⟨true, s2, hw2, hs2, rfl, rfl, b2, hb2, ?_⟩
    intro opt' wg' r' hw' hr' s hs
    cases opt' with
    | false =>
      rw [hw1] at hw'; cases hw'
      rw [hs1] at hr'; cases hr'
      have := hall1 s hs
      omega
    | true =>
      rw [hw2] at hw'; cases hw'
      rw [hs2] at hr'; cases hr'
      rw [hbt2]; exact hall2 s hs

/-- Automatic choice fails only if one of its steps does: restructuring, or scheduling, or if there is no schedule at all. -/
theorem auto_succeeds {γ σ ω : Type} {restructure : γ → Bool → Option γ} {scheduler : Scheduler γ σ ω} {wg : γ}
    (h : ∀ opt, ∃ wg' r, restructure wg opt = some wg' ∧ scheduler wg' = some r ∧ r ≠ []) :
    ∃ c, chooseGraph restructure scheduler wg .auto = some c := by
  obtain ⟨wg1, s1, hw1, hs1, hne1⟩ := h false
  obtain ⟨wg2, s2, hw2, hs2, hne2⟩ := h true
  have hmin : ∀ {s : List (σ × Int × ω)}, s ≠ [] → ∃ t, (s.map (·.2.1)).min? = some t := by
    intro s hs
    cases s with
    | nil => exact absurd rfl hs
    | cons x xs => exact ⟨_, rfl⟩
  obtain ⟨t1, ht1⟩ := hmin hne1
  obtain ⟨t2, ht2⟩ := hmin hne2
  show ∃ c, ((restructure wg false).bind _) = some c
  rw [hw1, Option.bind_some, hs1, Option.bind_some, ht1, Option.bind_some, hw2, Option.bind_some, hs2, Option.bind_some, ht2,
    Option.bind_some]
  by_cases hlt : t1 < t2
  · exact ⟨_, if_pos hlt⟩
  · exact ⟨_, if_neg hlt⟩

/-- The whole step of the pipeline: if it is done, the contractors were accepted by the check and the graph was chosen as above; a
refusal means that the contractors cannot do some work. -/
theorem pipeline_done {γ σ ω : Type} {reqsOf : γ → List (List WorkerReq)} {restructure : γ → Bool → Option γ}
    {scheduler : List Contractor → Scheduler γ σ ω} {wg : γ} {given : Given} {lag : Lag} :
    (∀ {cs : List Contractor} {c : Chosen γ σ ω}, schedule reqsOf restructure scheduler wg given lag = .done cs c →
      contractorsOf (reqsOf wg) given = some cs ∧ Feasible cs (reqsOf wg) ∧
        chooseGraph restructure (scheduler cs) wg lag = some c) ∧
    (schedule reqsOf restructure scheduler wg given lag = .refused →
      ∃ cs, contractorsOf (reqsOf wg) given = some cs ∧ ¬ Feasible cs (reqsOf wg)) := by
  unfold schedule
  cases hc : contractorsOf (reqsOf wg) given with
  | none => simp
  | some cs =>
    dsimp only
    cases hp : canPerformGraph cs (reqsOf wg) with
    | none => simp
    | some b =>
      have hb := nodeLoop_some hp
      cases b with
      | false =>
        refine ⟨fun h => by simp at h, fun _ => ⟨cs, rfl, fun hf => ?_⟩⟩
        have := hb.mpr hf
        simp at this
      | true =>
        dsimp only
        cases hg : chooseGraph restructure (scheduler cs) wg lag with
        | none => simp
        | some c' =>
          refine ⟨fun {cs' c} h => ?_, fun h => by simp at h⟩
          simp only [Outcome.done.injEq] at h
          obtain ⟨rfl, rfl⟩ := h
          exact ⟨rfl, hb.mp rfl, hg⟩

/-- Not proved because false: "switched on, the restructured graph is scheduled".  Switched on is the same as switched off, for
every project. -/
theorem on_ignored {γ σ ω : Type} (restructure : γ → Bool → Option γ) (scheduler : Scheduler γ σ ω) (wg : γ) :
    chooseGraph restructure scheduler wg .on = chooseGraph restructure scheduler wg .off := rfl

/-- A project for which this matters: the graph is a number of works, restructuring with lag optimization makes it three and a
schedule takes 10 divided by this number.  Automatic choice takes 3 works and time 3; switched on takes the one work and 10. -/
theorem on_not_restructured : ∃ (restructure : Nat → Bool → Option Nat) (scheduler : Scheduler Nat Nat Nat) (wg : Nat)
    (on auto : Chosen Nat Nat Nat), chooseGraph restructure scheduler wg .on = some on ∧
    chooseGraph restructure scheduler wg .auto = some auto ∧ restructure wg true = some auto.graph ∧ on.graph ≠ auto.graph ∧
    (∀ n ∈ auto.schedules, ∀ k ∈ on.schedules, n < k) :=
  ⟨fun n opt => some (if opt then n + 2 else n), fun n => some [(10 / n, ((10 / n : Nat) : Int), n)], 1, ⟨1, [10], [1]⟩, ⟨3, [3], [3]⟩,
    rfl, rfl, rfl, by decide, by decide⟩

/-- The hypotheses are met: two schedules for each variant, the shortest one for the graph that is not optimized. -/
example : chooseGraph (fun (n : Nat) opt => some (if opt then n + 2 else n))
    (fun n => some [(1, (n : Int) + 5, 0), (2, (n : Int), 7)]) 4 .auto = some ⟨4, [1, 2], [0, 7]⟩ ∧
    chooseGraph (fun (n : Nat) opt => some (if opt then n + 2 else n))
    (fun n => some [(1, (n : Int) + 5, 0), (2, (n : Int), 7)]) 4 .off = some ⟨4, [1, 2], [0, 7]⟩ := ⟨rfl, rfl⟩

/-- A pipeline with generated contractors, and one refused. -/
example : (∃ cs c, schedule (γ := List (List WorkerReq)) (σ := Nat) (ω := Nat) id (fun g _ => some g) (fun _ _ => some [(0, 3, 0)])
      [[⟨1, 2, 4⟩]] (.list [⟨0, [(1, 2)]⟩]) .off = .done cs c) ∧
    schedule (γ := List (List WorkerReq)) (σ := Nat) (ω := Nat) id (fun g _ => some g) (fun _ _ => some [(0, 3, 0)])
      [[⟨1, 2, 4⟩]] (.list [⟨0, [(1, 1)]⟩]) .off = .refused := ⟨⟨_, _, rfl⟩, rfl⟩

end Sampo.C44
