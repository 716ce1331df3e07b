import Verif.Lemmas.Hybrid
import Verif.Lemmas.GeneticLoop

/-!
# C63. The hybrid scheduler

Full statement: for every starting scheduler and every cycle of schedulers of populations a run of the hybrid scheduler ends and
returns a chromosome none of the populations it has seen has a better one than.

This is proved for cycles of schedulers that keep the best (genetic schedulers do, heuristic ones do not) and one objective.  Without
these conditions it is false: `heuristic_forgets`, `swings_forever`, `two_objectives_wrong`.
-/

namespace Sampo.C63

open Hybrid

variable {C : Type} {f : C → Int}

/-- If no scheduler of the cycle makes the best worse, the run ends. -/
theorem ends_partial {cycle : List (Pop C)} (hk : ∀ s ∈ cycle, Keeps f s) {maxPlateau : Nat} (hm : 0 < maxPlateau) {low : Int}
    (hlow : ∀ c, low ≤ f c) {start : List C → Option (List C)} {first : List C} (hs : start [] = some first) (hne : first ≠ []) :
    ∃ steps, ∀ fuel, steps ≤ fuel → ∃ c, run (fun c => [f c]) start cycle maxPlateau fuel = some (some c) := by
  obtain ⟨b, hb, hbf⟩ := bestFitness_of_ne (f := f) hne
  obtain ⟨pop', hst, hne', hk'⟩ := step_keeps (round := 0) hk hne
  refine ⟨(f b - low).toNat * maxPlateau + maxPlateau + 1, ?_⟩
  intro fuel hfuel
  unfold run
  rw [hs]
  dsimp only
  cases fuel with
  | zero => omega
  | succ fuel =>
    unfold loop
    rw [hbf]
    dsimp only
    rw [if_neg (by simp), hst]
    dsimp only
    rw [if_neg (by simp)]
    obtain ⟨d, hd, hdb⟩ := hk' b hb.1
    exact loop_ends hk hm hlow fuel 1 0 (f b) pop' hne' ⟨d, hd, hdb⟩ (hlow b) hm (by omega)

/-- For every cycle: a returned chromosome is a best one of the last population, and for as many rounds as the plateau is long the best
fitness was the same. -/
theorem result {cycle : List (Pop C)} {maxPlateau fuel : Nat} {start : List C → Option (List C)} {first : List C}
    (hs : start [] = some first) {c : C} (h : run (fun c => [f c]) start cycle maxPlateau fuel = some (some c)) :
    ∃ n pops, Rounds cycle first n pops ∧ Best f (pops n) c ∧ maxPlateau ≤ n ∧
      ∀ j ≤ maxPlateau, ∃ b, Best f (pops (n - j)) b ∧ f b = f c := by
  unfold run at h
  rw [hs] at h
  dsimp only at h
  obtain ⟨n, pops, -, hr⟩ := loop_result fuel 0 none 0 (fun _ => first)
    ⟨⟨rfl, fun m hm => absurd hm (Nat.not_lt_zero m)⟩, fun _ => ⟨rfl, rfl⟩, fun v hv => by simp at hv⟩ h
  exact ⟨n, pops, hr⟩

private theorem rounds_keep {cycle : List (Pop C)} (hk : ∀ s ∈ cycle, Keeps f s) {first : List C} (hne : first ≠ []) {n : Nat}
    {pops : Nat → List C} (hr : Rounds cycle first n pops) : ∀ m k, m + k ≤ n → pops m ≠ [] ∧ ∀ a ∈ pops m, ∃ b ∈ pops (m + k), f b ≤ f a := by
  have hmid : ∀ m (mid : Nat → List C), (∀ i (h : i < cycle.length), cycle[i] m (mid i) = some (mid (i + 1))) → mid 0 ≠ [] →
      ∀ i ≤ cycle.length, mid i ≠ [] ∧ ∀ a ∈ mid 0, ∃ b ∈ mid i, f b ≤ f a := by
    intro m mid hstep h0 i
    induction i with
    | zero => intro _; exact ⟨h0, fun a ha => ⟨a, ha, le_refl _⟩⟩
    | succ i ih =>
      intro hi
      obtain ⟨h1, h2⟩ := ih (by omega)
      obtain ⟨p, hp, hpk⟩ := hk _ (List.getElem_mem (show i < cycle.length by omega)) m (mid i) h1
      rw [hstep i (by omega), Option.some.injEq] at hp
      subst hp
      obtain ⟨x, hx⟩ := List.exists_mem_of_ne_nil _ h1
      obtain ⟨y, hy, -⟩ := hpk x hx
      refine ⟨List.ne_nil_of_mem hy, ?_⟩
      intro a ha
      obtain ⟨b, hb, hba⟩ := h2 a ha
      obtain ⟨d, hd, hdb⟩ := hpk b hb
      exact ⟨d, hd, le_trans hdb hba⟩
  have hne' : ∀ m ≤ n, pops m ≠ [] := by
    intro m
    induction m with
    | zero => intro _; rw [hr.1]; exact hne
    | succ m ih =>
      intro hm
      obtain ⟨mid, h0, hl, hstep⟩ := hr.2 m (by omega)
      rw [← hl]
      exact (hmid m mid hstep (by rw [h0]; exact ih (by omega)) cycle.length (le_refl _)).1
  intro m k
  induction k with
  | zero => intro hle; exact ⟨hne' m (by omega), fun a ha => ⟨a, ha, le_refl _⟩⟩
  | succ k ih =>
    intro hle
    obtain ⟨h1, h2⟩ := ih (by omega)
    refine ⟨h1, ?_⟩
    intro a ha
    obtain ⟨b, hb, hba⟩ := h2 a ha
    obtain ⟨mid, h0, hl, hstep⟩ := hr.2 (m + k) (by omega)
    obtain ⟨d, hd, hdb⟩ := (hmid (m + k) mid hstep (by rw [h0]; exact hne' _ (by omega)) cycle.length (le_refl _)).2 b (by rw [h0]; exact hb)
    exact ⟨d, by rw [← Nat.add_assoc, ← hl]; exact hd, le_trans hdb hba⟩

/-- If no scheduler of the cycle makes the best worse, no population before any round has a chromosome better than the returned one. -/
theorem best_seen_partial {cycle : List (Pop C)} (hk : ∀ s ∈ cycle, Keeps f s) {maxPlateau fuel : Nat} {start : List C → Option (List C)}
    {first : List C} (hs : start [] = some first) (hne : first ≠ []) {c : C}
    (h : run (fun c => [f c]) start cycle maxPlateau fuel = some (some c)) :
    ∃ n pops, Rounds cycle first n pops ∧ c ∈ pops n ∧ (∀ a ∈ first, f c ≤ f a) ∧ ∀ m ≤ n, ∀ a ∈ pops m, f c ≤ f a := by
  obtain ⟨n, pops, hr, hb, -, -⟩ := result hs h
  have hall : ∀ m ≤ n, ∀ a ∈ pops m, f c ≤ f a := by
    intro m hm a ha
    obtain ⟨b, hbm, hba⟩ := (rounds_keep hk hne hr m (n - m) (by omega)).2 a ha
    rw [show m + (n - m) = n by omega] at hbm
    exact le_trans (hb.2 b hbm) hba
  exact ⟨n, pops, hr, hb.1, fun a ha => hall 0 (Nat.zero_le n) a (by rw [hr.1]; exact ha), hall⟩

/-- A genetic scheduler with the same objective keeps the best. -/
theorem genetic_keeps {size : Nat} (hsize : 0 < size) {env : Nat → GeneticLoop.Env C}
    (hsh : ∀ r g l, ((env r).shuffle g l).Perm l) (maxPlateau : Option Nat) (generations : Nat) :
    Keeps f (genetic (fun c => [- f c]) size env maxPlateau generations) := by
  intro round pop hpop
  unfold genetic GeneticLoop.runFree
  have hne := GeneticLoop.update_ne_nil (fit := fun a => [- f a]) (d := 1) (fun _ => rfl) hpop
  rw [if_neg (by simpa using hne)]
  have h := GeneticLoop.loop_inv (fit := fun a => [- f a]) (sel := GeneticLoop.select (fun a => [- f a]) size) (env := env round)
    (stop := fun _ => false) (maxPlateau := maxPlateau.getD generations) (keep := fun _ => true)
    (fun s => GeneticLoop.Top (fun a => - f a) s ∧ ∀ a ∈ pop, a ∈ s.seen)
    (fun s hs => ⟨GeneticLoop.top_step hsize (hsh round) hs.1, fun a ha => List.mem_append_left _ (hs.2 a ha)⟩)
    (fun s g hs => ⟨⟨⟨hs.1.elite.pop, hs.1.elite.found, hs.1.elite.incomparable, hs.1.elite.none_better⟩, hs.1.top⟩, hs.2⟩)
    generations (GeneticLoop.start (fun a => [- f a]) pop 1) ⟨GeneticLoop.top_start hpop 1, fun a ha => ha⟩
  obtain ⟨⟨-, b, hb, hb'⟩, hp⟩ := h
  refine ⟨_, rfl, ?_⟩
  intro a ha
  exact ⟨b, hb, by have := hb' a (hp a ha); omega⟩

/-- A run from heuristic schedules with genetic schedulers in the cycle ends with a schedule not worse than any of the heuristic ones. -/
theorem improves_heuristics {size : Nat} (hsize : 0 < size) {env : Nat → GeneticLoop.Env C}
    (hsh : ∀ r g l, ((env r).shuffle g l).Perm l) (plateau : Option Nat) (generations : Nat) {maxPlateau : Nat} (hm : 0 < maxPlateau)
    (hpos : ∀ c, 0 ≤ f c) {first : List C} (hne : first ≠ []) : ∃ fuel c,
      run (fun c => [f c]) (heuristic (some first) 0) [genetic (fun c => [- f c]) size env plateau generations] maxPlateau fuel = some (some c) ∧
      ∀ a ∈ first, f c ≤ f a := by
  have hk : ∀ s ∈ [genetic (fun c => [- f c]) size env plateau generations], Keeps f s := by
    intro s hs
    rw [List.mem_singleton] at hs
    subst hs
    exact genetic_keeps hsize hsh _ _
  obtain ⟨N, hN⟩ := ends_partial hk hm hpos (start := heuristic (some first) 0) rfl hne
  obtain ⟨c, hc⟩ := hN N (le_refl _)
  obtain ⟨n, pops, -, -, hfirst, -⟩ := best_seen_partial hk (start := heuristic (some first) 0) rfl hne hc
  exact ⟨N, c, hc, hfirst⟩

/-- A genetic scheduler cannot be the starting one: without a population it fails. -/
theorem genetic_start_fails (weighted fit : C → List Int) (size : Nat) (env : Nat → GeneticLoop.Env C) (plateau : Option Nat)
    (generations : Nat) (cycle : List (Pop C)) (maxPlateau fuel : Nat) :
    run fit (genetic weighted size env plateau generations 0) cycle maxPlateau fuel = some none := by
  simp [run, genetic, GeneticLoop.runFree, GeneticLoop.update]

/-- With a maximal plateau of 0 the run never ends. -/
theorem no_plateau_never_ends {cycle : List (Pop C)} (hk : ∀ s ∈ cycle, Keeps f s) {start : List C → Option (List C)} {first : List C}
    (hs : start [] = some first) (hne : first ≠ []) (fuel : Nat) : run (fun c => [f c]) start cycle 0 fuel = none := by
  have key : ∀ (fuel n : Nat) (cur : Option (List Int)) (k : Nat) (pop : List C), pop ≠ [] →
      loop (fun c => [f c]) cycle 0 fuel n cur k pop = none := by
    intro fuel
    induction fuel with
    | zero => intro n cur k pop _; rfl
    | succ fuel ih =>
      intro n cur k pop hp
      obtain ⟨b, hb, hbf⟩ := bestFitness_of_ne (f := f) hp
      obtain ⟨pop', hst, hne', -⟩ := step_keeps (round := n) hk hp
      unfold loop
      rw [hbf]
      dsimp only
      rw [if_neg (by rintro ⟨h1, h2⟩; rw [if_pos h1] at h2; omega), hst]
      exact ih _ _ _ _ hne'
  unfold run
  rw [hs]
  exact key fuel 0 none 0 first hne

/-! ### Concrete runs -/

private def env : Nat → GeneticLoop.Env Nat := fun _ => ⟨fun _ l => l.reverse, fun _ l => l.map fun a => a - 3, fun _ => true⟩

example : ∀ r g l, ((env r).shuffle g l).Perm l := fun _ _ l => List.reverse_perm l

example : run (fun c : Nat => [(c : Int)]) (heuristic (some [9, 7]) 0) [genetic (fun c : Nat => [-(c : Int)]) 2 env none 1] 2 20 =
    some (some 0) := by decide +kernel

/-- Not proved because false: no seen population has a better chromosome.  A heuristic scheduler after a genetic one throws its
population away: 4 is found in every round, 7 is returned. -/
theorem heuristic_forgets :
    genetic (fun c : Nat => [-(c : Int)]) 2 env none 1 0 [9, 7] = some [4, 6] ∧
    run (fun c : Nat => [(c : Int)]) (heuristic (some [9, 7]) 0)
      [genetic (fun c : Nat => [-(c : Int)]) 2 env none 1, heuristic (some [9, 7])] 2 20 = some (some 7) := by decide +kernel

/-- Not proved because false: every run ends.  Schedulers that give another best fitness in every round keep the loop going. -/
theorem swings_forever (fuel : Nat) :
    run (fun c : Nat => [(c : Int)]) (heuristic (some [0]) 0) [fun _ pop => some (pop.map fun a => 1 - a)] 2 fuel = none := by
  have key : ∀ (fuel n : Nat) (x : Nat) (cur : Option (List Int)), x ≤ 1 → cur ≠ some [(x : Int)] →
      loop (fun c : Nat => [(c : Int)]) [fun _ pop => some (pop.map fun a => 1 - a)] 2 fuel n cur 0 [x] = none := by
    intro fuel
    induction fuel with
    | zero => intro n x cur _ _; rfl
    | succ fuel ih =>
      intro n x cur hx hcur
      unfold loop
      have hb : bestFitness (fun c : Nat => [(c : Int)]) [x] = some [(x : Int)] := by simp [bestFitness]
      have hst : step [fun _ pop => some (pop.map fun a => 1 - a)] n [x] = some [1 - x] := rfl
      rw [hb]
      dsimp only
      rw [if_neg (fun h => hcur h.1), hst, if_neg hcur]
      refine ih (n + 1) (1 - x) (some [(x : Int)]) (by omega) ?_
      intro h
      simp only [Option.some.injEq, List.cons.injEq, and_true] at h
      omega
  exact key fuel 0 0 none (by omega) (by simp)

/-- Not proved because false: the best chromosome is returned for more objectives.  `numpy.argmin` counts in the flattened array: of
two chromosomes with time and resources (4, 1) and (10, 3) the one that is worse in both is returned, of (4, 9) and (10, 3) none. -/
theorem two_objectives_wrong :
    bestIndividual (fun c : Int × Int => [c.1, c.2]) [(4, 1), (10, 3)] = some (10, 3) ∧
    bestIndividual (fun c : Int × Int => [c.1, c.2]) [(4, 9), (10, 3)] = none := by decide +kernel

end Sampo.C63
