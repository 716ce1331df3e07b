import Verif.Lemmas.GeneticLoop

/-!
# C56: the genetic algorithm returns the best individuals it has seen
-/

namespace Sampo.C56

open GeneticLoop

variable {α : Type*}

/-- For every selection operator, number of objectives, way of making offspring, shuffling and time limit: the returned individuals
are evaluated ones, none of them is at least as good as another one, and every individual of the first population has a
returned one that is at least as good in all objectives. -/
theorem never_worse_than_first (fit : α → List Int) (d : Nat) (hd : ∀ a, (fit a).length = d) (sel : List α → List α)
    (hsel : ∀ l, ∀ a ∈ sel l, a ∈ l) (env : Env α) (hsh : ∀ g l, (env.shuffle g l).Perm l) (maxPlateau : Option Nat)
    (generations : Nat) (pop : List α) (hpop : pop ≠ []) :
    ∃ s, runFree fit sel env maxPlateau generations pop = some s ∧ (∀ h ∈ s.hof, h ∈ s.seen) ∧ Incomparable fit s.hof ∧
      NoneBetter fit s.hof pop := by
  unfold runFree
  have hne := update_ne_nil hd hpop
  rw [if_neg (by simpa using hne)]
  have h := loop_inv (stop := fun _ => false) (maxPlateau := maxPlateau.getD generations) (keep := fun _ => true) (Elite fit pop)
    (fun s hs => elite_step hd hsel hsh hs) (fun s g hs => ⟨hs.pop, hs.found, hs.incomparable, hs.none_better⟩) generations
    (start fit pop 1) (elite_start hd pop 1)
  exact ⟨_, rfl, h.found, h.incomparable, h.none_better⟩

/-- With one objective and `select_new_population` there is exactly one returned individual, and no individual evaluated in any
generation is better. -/
theorem best_of_all_evaluated (f : α → Int) (k : Nat) (hk : 0 < k) (env : Env α) (hsh : ∀ g l, (env.shuffle g l).Perm l)
    (maxPlateau : Option Nat) (generations : Nat) (pop : List α) (hpop : pop ≠ []) :
    ∃ s b, runFree (fun a => [f a]) (select (fun a => [f a]) k) env maxPlateau generations pop = some s ∧ s.hof = [b] ∧
      b ∈ s.seen ∧ (∀ a ∈ pop, a ∈ s.seen) ∧ ∀ a ∈ s.seen, f a ≤ f b := by
  unfold runFree
  have hne := update_ne_nil (fit := fun a => [f a]) (d := 1) (fun _ => rfl) hpop
  rw [if_neg (by simpa using hne)]
  have h := loop_inv (fit := fun a => [f a]) (sel := select (fun a => [f a]) k) (env := env) (stop := fun _ => false)
    (maxPlateau := maxPlateau.getD generations) (keep := fun _ => true) (fun s => Top f s ∧ ∀ a ∈ pop, a ∈ s.seen)
    (fun s hs => ⟨top_step hk hsh hs.1, fun a ha => List.mem_append_left _ (hs.2 a ha)⟩)
    (fun s g hs => ⟨⟨⟨hs.1.elite.pop, hs.1.elite.found, hs.1.elite.incomparable, hs.1.elite.none_better⟩, hs.1.top⟩, hs.2⟩)
    generations (start (fun a => [f a]) pop 1) ⟨top_start hpop 1, fun a ha => ha⟩
  generalize loop (fun a => [f a]) (select (fun a => [f a]) k) env (fun _ => true) (fun _ => false) (maxPlateau.getD generations)
    generations (start (fun a => [f a]) pop 1) = s at h ⊢
  obtain ⟨⟨he, b0, hb0, hb0'⟩, hp⟩ := h
  obtain ⟨b, hb, hbb⟩ := he.none_better b0 (he.pop b0 hb0)
  have hl := single_front he.incomparable
  have hs : s.hof = [b] := by
    match hh : s.hof, hl, hb with
    | [c], _, hb => rw [List.mem_singleton] at hb; rw [hb]
    | _ :: _ :: _, hl, _ => simp at hl
  refine ⟨s, b, rfl, hs, he.found b hb, hp, ?_⟩
  intro a ha
  exact le_trans (hb0' a ha) ((atLeast_single b b0).1 hbb)

/-- An empty first population makes the scheduler fail. -/
theorem empty_population_fails (fit : α → List Int) (sel : List α → List α) (env : Env α) (maxPlateau : Option Nat)
    (generations : Nat) : runFree fit sel env maxPlateau generations [] = none := by simp [runFree, update]

/-! A run: individuals are numbers, an offspring is the difference of neighbours, the objective is to be small. -/

private def demoEnv : Env Nat where
  shuffle _ l := l.reverse
  offspring _ l := (l.zip l.tail).map fun p => p.1 - p.2
  inTime _ := true

example : ∀ g l, (demoEnv.shuffle g l).Perm l := fun _ l => List.reverse_perm l

example : (runFree (fun a : Nat => [-(a : Int)]) (select (fun a : Nat => [-(a : Int)]) 3) demoEnv none 4 [40, 27, 33, 12]).map
    (fun s => (s.hof, s.pop)) = some ([0], [0, 0, 0]) := by decide

example : (runFree (fun a : Nat => [-(a : Int)]) (select (fun a : Nat => [-(a : Int)]) 3) demoEnv none 1 [40, 27, 33, 12]).map
    (fun s => (s.hof, s.pop)) = some ([0], [0, 0, 6]) := by decide

/-- Two objectives. -/
example : (runFree (fun a : Int × Int => [a.1, a.2]) id ⟨fun _ l => l, fun _ l => l.map fun a => (a.1 - 1, a.2 + 2), fun _ => true⟩
    none 1 [(3, 1), (2, 4), (1, 1)]).map (·.hof) = some [(3, 1), (2, 4), (1, 6)] := by decide

end Sampo.C56
