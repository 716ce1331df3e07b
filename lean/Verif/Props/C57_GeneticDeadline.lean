import Verif.Lemmas.GeneticLoop

/-!
# C57: the genetic scheduler with a deadline
-/

namespace Sampo.C57

open GeneticLoop

variable {α : Type*}

/-- The first stage ends with a best time in the hall of fame that is the least of all evaluated times, also present in
the population. -/
private theorem stage1 (time : α → Int) (k : Nat) (hk : 0 < k) (env : Env α) (hsh : ∀ g l, (env.shuffle g l).Perm l)
    (stop : State α → Bool) (maxPlateau generations : Nat) (pop : List α) (hpop : pop ≠ []) :
    Top (fun a => - time a) (loop (fun a => [- time a]) (select (fun a => [- time a]) k) env (fun _ => true) stop maxPlateau
      generations (start (fun a => [- time a]) pop 1)) ∧
    ∀ a ∈ pop, a ∈ (loop (fun a => [- time a]) (select (fun a => [- time a]) k) env (fun _ => true) stop maxPlateau
      generations (start (fun a => [- time a]) pop 1)).seen :=
  loop_inv (fit := fun a => [- time a]) (sel := select (fun a => [- time a]) k) (env := env) (stop := stop)
    (maxPlateau := maxPlateau) (keep := fun _ => true) (fun s => Top (fun a => - time a) s ∧ ∀ a ∈ pop, a ∈ s.seen)
    (fun s hs => ⟨top_step hk hsh hs.1, fun a ha => List.mem_append_left _ (hs.2 a ha)⟩)
    (fun s g hs => ⟨⟨⟨hs.1.elite.pop, hs.1.elite.found, hs.1.elite.incomparable, hs.1.elite.none_better⟩, hs.1.top⟩, hs.2⟩)
    generations (start (fun a => [- time a]) pop 1) ⟨top_start hpop 1, fun a ha => ha⟩

/-- With a deadline the scheduler does not fail and returns at least one individual.  Either all returned individuals meet the
deadline, or no individual evaluated in the first stage, in particular none of the first population, meets it, and all
returned ones have the least time of all evaluated ones.  `sel2` may be any selection of the second stage. -/
theorem deadline_met_if_reachable (time : α → Int) (res : α → List Int) (d : Nat) (hd : ∀ a, (res a).length = d) (k : Nat)
    (hk : 0 < k) (sel2 : List α → List α) (hsel2 : ∀ l, ∀ a ∈ sel2 l, a ∈ l) (env1 env2 : Env α)
    (hsh1 : ∀ g l, (env1.shuffle g l).Perm l) (hsh2 : ∀ g l, (env2.shuffle g l).Perm l) (deadline : Int)
    (fill : List α → Nat → List α) (hfill : ∀ l n, ∀ a ∈ fill l n, a ∈ l) (maxPlateau : Option Nat) (generations size : Nat)
    (pop : List α) (hpop : pop ≠ []) :
    ∃ s, runDeadline time res (select (fun a => [- time a]) k) sel2 env1 env2 deadline fill maxPlateau generations size pop =
        some s ∧ s.hof ≠ [] ∧ Incomparable res s.hof ∧
      ((∀ h ∈ s.hof, time h ≤ deadline) ∨
        (∀ a ∈ pop, a ∈ s.seen) ∧ ∀ a ∈ s.seen, deadline < time a ∧ ∀ h ∈ s.hof, time h ≤ time a) := by
  unfold runDeadline
  have hne := update_ne_nil (fit := fun a => [- time a]) (d := 1) (fun _ => rfl) hpop
  simp only
  rw [if_neg (by simpa using hne)]
  obtain ⟨hT, hP⟩ := stage1 time k hk env1 hsh1
    (fun s => (s.hof.head?.any fun b => decide (time b ≤ deadline)) && s.pop.all fun a => decide (time a ≤ deadline))
    (maxPlateau.getD (generations / 2)) (generations / 2) pop hpop
  generalize loop (fun a => [- time a]) (select (fun a => [- time a]) k) env1 (fun _ => true)
    (fun s => (s.hof.head?.any fun b => decide (time b ≤ deadline)) && s.pop.all fun a => decide (time a ≤ deadline))
    (maxPlateau.getD (generations / 2)) (generations / 2) (start (fun a => [- time a]) pop 1) = s at hT hP ⊢
  obtain ⟨he, b0, hb0, hb0'⟩ := hT
  obtain ⟨b, hb, hbb⟩ := he.none_better b0 (he.pop b0 hb0)
  have hl := single_front he.incomparable
  have hs : s.hof = [b] := by
    match hh : s.hof, hl, hb with
    | [c], _, hb => rw [List.mem_singleton] at hb; rw [hb]
    | _ :: _ :: _, hl, _ => simp at hl
  have heq : time b0 = time b := by
    have h1 := (atLeast_single (f := fun a => - time a) b b0).1 hbb
    have h2 := hb0' b (he.found b hb)
    omega
  have hmin : ∀ a ∈ s.seen, time b ≤ time a := by
    intro a ha
    have := hb0' a ha
    omega
  rw [hs]
  simp only [List.head?_cons]
  by_cases hc : deadline < time b
  · rw [if_pos hc]
    have hp2 : (s.pop.filter fun a => decide (time a = time b)) ≠ [] :=
      List.ne_nil_of_mem (List.mem_filter.2 ⟨hb0, by simpa using heq⟩)
    obtain ⟨u1, u2, _⟩ := update_spec hd (s.pop.filter fun a => decide (time a = time b)) (hof := []) (by simp [Incomparable])
    refine ⟨_, rfl, update_ne_nil hd hp2, u1, .inr ⟨hP, ?_⟩⟩
    intro a ha
    refine ⟨lt_of_lt_of_le hc (hmin a ha), ?_⟩
    intro h hh
    have := (u2 h hh).resolve_left (by simp)
    rw [List.mem_filter, decide_eq_true_eq] at this
    rw [this.2]
    exact hmin a ha
  · rw [if_neg hc]
    have hp2 : (s.pop.filter fun a => decide (time a ≤ deadline)) ≠ [] :=
      List.ne_nil_of_mem (List.mem_filter.2 ⟨hb0, by simp only [decide_eq_true_eq]; omega⟩)
    have hmem : ∀ a ∈ s.pop.filter fun a => decide (time a ≤ deadline), time a ≤ deadline := by
      intro a ha
      rw [List.mem_filter, decide_eq_true_eq] at ha
      exact ha.2
    generalize s.pop.filter (fun a => decide (time a ≤ deadline)) = pop2 at hp2 hmem ⊢
    have hne2 := update_ne_nil hd hp2
    rw [if_neg (by simpa [start] using hne2)]
    have hE0 := elite_start hd pop2 s.generation
    set full := if pop2.length < size then pop2 ++ fill pop2 (size - pop2.length) else pop2 with hfull
    have hfm : ∀ a ∈ full, a ∈ pop2 := by
      intro a ha
      rw [hfull] at ha
      split at ha
      · rcases List.mem_append.1 ha with h | h
        · exact h
        · exact hfill _ _ a h
      · exact ha
    have hinv := loop_inv (fit := res) (sel := sel2) (env := env2) (stop := fun _ => false)
      (maxPlateau := maxPlateau.getD (generations - s.generation + 1)) (keep := fun a => decide (time a ≤ deadline))
      (fun s => Elite res pop2 s ∧ ∀ a ∈ s.seen, time a ≤ deadline)
      (fun s hs => ⟨elite_step hd hsel2 hsh2 hs.1, fun a ha => by
        rcases List.mem_append.1 ha with h | h
        · exact hs.2 a h
        · exact of_decide_eq_true (List.mem_filter.1 h).2⟩)
      (fun s g hs => ⟨⟨hs.1.pop, hs.1.found, hs.1.incomparable, hs.1.none_better⟩, hs.2⟩)
      (generations + 1 - s.generation) { start res pop2 s.generation with pop := full }
      ⟨⟨fun a ha => hfm a ha, hE0.found, hE0.incomparable, hE0.none_better⟩, hmem⟩
    refine ⟨_, rfl, ?_, hinv.1.incomparable, .inl fun h hh => hinv.2 h (hinv.1.found h hh)⟩
    obtain ⟨x, hx⟩ := List.exists_mem_of_ne_nil pop2 hp2
    obtain ⟨c, hc, _⟩ := hinv.1.none_better x hx
    exact List.ne_nil_of_mem hc

/-- In particular: if some individual of the first population meets the deadline, so do all returned ones. -/
theorem first_meets_deadline (time : α → Int) (res : α → List Int) (d : Nat) (hd : ∀ a, (res a).length = d) (k : Nat)
    (hk : 0 < k) (sel2 : List α → List α) (hsel2 : ∀ l, ∀ a ∈ sel2 l, a ∈ l) (env1 env2 : Env α)
    (hsh1 : ∀ g l, (env1.shuffle g l).Perm l) (hsh2 : ∀ g l, (env2.shuffle g l).Perm l) (deadline : Int)
    (fill : List α → Nat → List α) (hfill : ∀ l n, ∀ a ∈ fill l n, a ∈ l) (maxPlateau : Option Nat) (generations size : Nat)
    (pop : List α) (a : α) (ha : a ∈ pop) (hm : time a ≤ deadline) :
    ∃ s, runDeadline time res (select (fun a => [- time a]) k) sel2 env1 env2 deadline fill maxPlateau generations size pop =
        some s ∧ s.hof ≠ [] ∧ ∀ h ∈ s.hof, time h ≤ deadline := by
  obtain ⟨s, h1, h2, _, h | h⟩ := deadline_met_if_reachable time res d hd k hk sel2 hsel2 env1 env2 hsh1 hsh2 deadline fill hfill
    maxPlateau generations size pop (List.ne_nil_of_mem ha)
  · exact ⟨s, h1, h2, h⟩
  · have := (h.2 a (h.1 a ha)).1
    omega

/-! Individuals are pairs (time, amount of resources). -/

private def demoEnv : Env (Int × Int) := ⟨fun _ l => l, fun _ l => l.map fun a => (a.1 - 1, a.2 + 3), fun _ => true⟩
private def demoEnv2 : Env (Int × Int) := ⟨fun _ l => l, fun _ l => l.map fun a => (a.1 + 1, a.2 - 1), fun _ => true⟩

/-- A reachable deadline: both stages run. -/
example : (runDeadline (fun a : Int × Int => a.1) (fun a => [- a.2]) (select (fun a => [- a.1]) 4) (select (fun a => [- a.2]) 4)
    demoEnv demoEnv2 8 (fun l n => l.take n) none 6 4 [(10, 5), (12, 3)]).map (fun s => (s.hof, s.pop)) =
    some ([(8, 11)], [(8, 11), (8, 11), (8, 11), (8, 13)]) := by decide

/-- A deadline that is not reached: the fastest is returned. -/
example : (runDeadline (fun a : Int × Int => a.1) (fun a => [- a.2]) (select (fun a => [- a.1]) 4) (select (fun a => [- a.2]) 4)
    demoEnv demoEnv2 1 (fun l n => l.take n) none 6 4 [(10, 5), (12, 3)]).map (fun s => (s.hof, s.pop)) =
    some ([(7, 14)], [(7, 14)]) := by decide

/-- Not claimed because false: the first stage selects by time only, so an individual of the first population that meets the
deadline with fewer resources than the returned one can be lost. -/
theorem cheap_individual_can_be_lost :
    ∃ (env : Env (Int × Int)) (pop : List (Int × Int)), (∀ g l, (env.shuffle g l).Perm l) ∧ (10, 1) ∈ pop ∧
      (runDeadline (fun a => a.1) (fun a => [- a.2]) (select (fun a => [- a.1]) 2) (select (fun a => [- a.2]) 2)
        env env 10 (fun l n => l.take n) none 2 2 pop).map (·.hof) = some [(8, 6)] :=
  ⟨⟨fun _ l => l, fun _ l => l.map fun a => (a.1, a.2), fun _ => true⟩, [(10, 1), (8, 6), (9, 7)], fun _ _ => .refl _,
    by decide, by decide⟩

end Sampo.C57
