import Verif.Lemmas.GeneticFull
import Verif.Lemmas.GeneticFullDemo

/-!
# C112: the genetic scheduler as a whole

From the project to the schedules returned, without a deadline: heuristic schedules (validated), their conversion, the first
population, all generations, the decoding.
-/

namespace Sampo.C112

open GeneticRun GeneticFull
open Genetic (Ind Problem)
open GeneticLoop (Sample urn counts select)

variable {σ : Type} {T : Job σ} {m : Nat} {L D : Int}

private theorem decode_all (h : Ready T m L D) {heads : List Nat} {P : Problem} (hp : prepare T.J = some (heads, P)) {optimize : Bool} :
    ∀ (hof : List Ind), (∀ i ∈ hof, Good P optimize i) → ∃ (N : Nat) (Ls : List (Decode.Loop σ)), Ls.length = hof.length ∧
      (∀ Lp ∈ Ls, (∃ fuel, ∃ i ∈ hof, schedule T.site T.J heads T.B T.inf T.env fuel i = some (some Lp)) ∧
        Feasible T.J.graph T.J.nodes (LFT.agents T.J.contractors) (Serves T.J) Lp.st.sched ∧
        ∀ e ∈ Lp.st.sched, e.2.finish ≤ T.B.parentTime + T.J.nodes.length * (2 * L + D + 1)) ∧
      ∀ fuel, N ≤ fuel → all (hof.map fun i => schedule T.site T.J heads T.B T.inf T.env fuel i) = some (some Ls)
  | [], _ => ⟨0, [], rfl, by simp, fun _ _ => rfl⟩
  | i :: hof, hg => by
    obtain ⟨N, Ls, h1, h2, h3⟩ := decode_all h hp hof fun j hj => hg j (List.mem_cons_of_mem _ hj)
    obtain ⟨f, Lp, hL, hF, hB⟩ := C92.decoding_completes h.project.sound h.project.plain hp (hg i List.mem_cons_self) T.site T.B h.site.steady
      L D T.inf (roomy h) T.env
    refine ⟨max N f, Lp :: Ls, by simp [h1], ?_, fun fuel hf => ?_⟩
    · intro L' hL'
      rcases List.mem_cons.1 hL' with rfl | hL'
      · exact ⟨⟨f, i, List.mem_cons_self, hL⟩, hF, hB⟩
      · obtain ⟨⟨f', j, hj, e⟩, h5⟩ := h2 L' hL'
        exact ⟨⟨f', j, List.mem_cons_of_mem _ hj, e⟩, h5⟩
    · simp only [List.map_cons, all, schedule_mono hL fuel (by omega), h3 fuel (by omega), andThen]

private theorem returns (h : Ready T m L D) (d : Draws) (hd : d.Possible) (R : Randomness)
    (hR : ∀ heads P, prepare T.J = some (heads, P) → R.Possible P) (optimize : Bool) (fit : Ind → List Int) (dim : Nat)
    (hdim : ∀ i, (fit i).length = dim) (sel : List Ind → List Ind) (hsel : ∀ l, ∀ a ∈ sel l, a ∈ l) (maxPlateau : Option Nat)
    (generations : Nat) (lftOnly : Bool) (n : Nat) (hn : 0 < n) (weights : Option (List Nat)) (ws : List Nat)
    (hws : Backend.schedulerWeights weights = some ws) (hpos : ∀ w ∈ ws, 0 < w) (hk : Sample n (urn (counts n ws)) d.kinds) :
    ∃ (N : Nat) (Ls : List (Decode.Loop σ)), Ls ≠ [] ∧
      (∀ fuelIn fuel, N ≤ fuelIn → N ≤ fuel →
        run T d R optimize fit sel maxPlateau generations lftOnly n weights fuelIn fuel = some (some Ls)) ∧
      (∀ Lp ∈ Ls, Feasible T.J.graph T.J.nodes (LFT.agents T.J.contractors) (Serves T.J) Lp.st.sched ∧
        ∃ heads f i, schedule T.site T.J heads T.B T.inf T.env f i = some (some Lp)) ∧
      ∀ Lp ∈ Ls, ∀ e ∈ Lp.st.sched, e.2.finish ≤ T.B.parentTime + T.J.nodes.length * (2 * L + D + 1) := by
  obtain ⟨heads, P, hp⟩ := prepare_some h.project.sound
  obtain ⟨N, xs, inds, pop, -, -, -, hne, hc, -, hpop⟩ := population_fine h hp hd (weights_length hws) hpos hn hk.1 lftOnly
  obtain ⟨s, hs, -, -, hnb⟩ := C56.never_worse_than_first fit dim hdim sel hsel (stage P optimize R) (hR heads P hp).shuffle maxPlateau
    generations pop hne
  have hgood := C92.free_hall_valid h.project.sound hp optimize R (hR heads P hp) fit sel hsel maxPlateau generations pop hc s hs
  obtain ⟨M, Ls, h1, h2, h3⟩ := decode_all h hp s.hof hgood
  refine ⟨N + M + 1, Ls, ?_, fun fuelIn fuel hi hf => ?_, fun Lp hL => ?_, fun Lp hL => (h2 Lp hL).2.2⟩
  · obtain ⟨a, ha⟩ := List.exists_mem_of_ne_nil pop hne
    obtain ⟨b, hb, -⟩ := hnb a ha
    intro h0
    rw [h0] at h1
    have := List.length_pos_of_mem hb
    simp at h1
    omega
  · simp only [run, hp, hws, hpop fuelIn fuel (by omega) (by omega), andThen, hs]
    exact h3 fuel (by omega)
  · obtain ⟨⟨f, i, -, hi⟩, hF, -⟩ := h2 Lp hL
    exact ⟨hF, heads, f, i, hi⟩

/-- The genetic scheduler raises no exception, and all schedules it returns (there is at least one) are valid and contain all works; for
any fitness, any selection, any number of generations, whatever is drawn. -/
theorem returns_valid_schedules (h : Ready T m L D) (d : Draws) (hd : d.Possible) (R : Randomness)
    (hR : ∀ heads P, prepare T.J = some (heads, P) → R.Possible P) (optimize : Bool) (fit : Ind → List Int) (dim : Nat)
    (hdim : ∀ i, (fit i).length = dim) (sel : List Ind → List Ind) (hsel : ∀ l, ∀ a ∈ sel l, a ∈ l) (maxPlateau : Option Nat)
    (generations : Nat) (lftOnly : Bool) (n : Nat) (hn : 0 < n) (weights : Option (List Nat)) (ws : List Nat)
    (hws : Backend.schedulerWeights weights = some ws) (hpos : ∀ w ∈ ws, 0 < w) (hk : Sample n (urn (counts n ws)) d.kinds) :
    ∃ (N : Nat) (Ls : List (Decode.Loop σ)), Ls ≠ [] ∧
      (∀ fuelIn fuel, N ≤ fuelIn → N ≤ fuel →
        run T d R optimize fit sel maxPlateau generations lftOnly n weights fuelIn fuel = some (some Ls)) ∧
      ∀ Lp ∈ Ls, Feasible T.J.graph T.J.nodes (LFT.agents T.J.contractors) (Serves T.J) Lp.st.sched ∧
        ∀ e ∈ Lp.st.sched, e.2.finish ≤ T.B.parentTime + T.J.nodes.length * (2 * L + D + 1) := by
  obtain ⟨N, Ls, h0, h1, h2, h3⟩ := returns h d hd R hR optimize fit dim hdim sel hsel maxPlateau generations lftOnly n hn weights ws hws hpos hk
  exact ⟨N, Ls, h0, h1, fun Lp hL => ⟨(h2 Lp hL).1, h3 Lp hL⟩⟩

/-- With `validate=True` nothing changes: the validator raises nothing, if service works are not parts of inseparable chains. -/
theorem validation_changes_nothing (h : Ready T m L D) (ha : ServiceApart T) (d : Draws) (hd : d.Possible) (R : Randomness)
    (hR : ∀ heads P, prepare T.J = some (heads, P) → R.Possible P) (optimize : Bool) (fit : Ind → List Int) (dim : Nat)
    (hdim : ∀ i, (fit i).length = dim) (sel : List Ind → List Ind) (hsel : ∀ l, ∀ a ∈ sel l, a ∈ l) (maxPlateau : Option Nat)
    (generations : Nat) (lftOnly : Bool) (n : Nat) (hn : 0 < n) (weights : Option (List Nat)) (ws : List Nat)
    (hws : Backend.schedulerWeights weights = some ws) (hpos : ∀ w ∈ ws, 0 < w) (hk : Sample n (urn (counts n ws)) d.kinds) :
    ∃ N : Nat, ∀ fuelIn fuel, N ≤ fuelIn → N ≤ fuel →
      (run T d R optimize fit sel maxPlateau generations lftOnly n weights fuelIn fuel).join.isSome ∧
      runValidated T d R optimize fit sel maxPlateau generations lftOnly n weights fuelIn fuel =
        run T d R optimize fit sel maxPlateau generations lftOnly n weights fuelIn fuel := by
  obtain ⟨N, Ls, -, hrun, hfeas, -⟩ := returns h d hd R hR optimize fit dim hdim sel hsel maxPlateau generations lftOnly n hn weights ws hws hpos hk
  refine ⟨N, fun fuelIn fuel hi hf => ⟨by simp [hrun fuelIn fuel hi hf], ?_⟩⟩
  have : (Ls.all fun Lp => ok T (Lp.st.sched, [])) = true := by
    rw [List.all_eq_true]
    intro Lp hL
    obtain ⟨h1, heads, f, i, h2⟩ := hfeas Lp hL
    exact decoded_ok h ha h2 h1
  simp only [runValidated, hrun fuelIn fuel hi hf, andThen, this, if_true]

/-- With one objective `f` (for the finish time: minus the finish time of the decoded schedule) and a population of at least nine: one schedule is
returned, and it is made of a chromosome that is at least as good as those of LFT, of HEFT on both timelines and of HEFT with the four
shares of the maximal numbers of workers. -/
theorem not_worse_than_heuristics (h : Ready T m L D) (d : Draws) (hd : d.Possible) (R : Randomness)
    (hR : ∀ heads P, prepare T.J = some (heads, P) → R.Possible P) (optimize : Bool) (f : Ind → Int) (maxPlateau : Option Nat)
    (generations : Nat) (n : Nat) (hn : 9 ≤ n) (weights : Option (List Nat)) (ws : List Nat)
    (hws : Backend.schedulerWeights weights = some ws) (hpos : ∀ w ∈ ws, 0 < w) (hk : Sample n (urn (counts n ws)) d.kinds)
    (heads : List Nat) (P : Problem) (hp : prepare T.J = some (heads, P)) :
    ∃ (N : Nat) (b : Ind) (Lb : Decode.Loop σ) (xs : List (Sched × List Nat)), xs.length = 7 ∧ ∀ fuelIn fuel, N ≤ fuelIn → N ≤ fuel →
      run T d R optimize (fun i => [f i]) (select (fun i => [f i]) n) maxPlateau generations false n weights fuelIn fuel = some (some [Lb]) ∧
      schedule T.site T.J heads T.B T.inf T.env fuel b = some (some Lb) ∧
      heuristics T fuelIn fuel = xs.map (fun x => some (some (some x))) ∧
      ∀ x ∈ xs, ∃ i, chromosome T heads x = some i ∧ f i ≤ f b := by
  obtain ⟨N, xs, inds, pop, hl, hheur, hchr, hne, hc, hin, hpop⟩ := population_fine h hp hd (weights_length hws) hpos (by omega) hk.1 false
  obtain ⟨s, b, hs, hhof, -, hseen, hbest⟩ := C56.best_of_all_evaluated f n (by omega) (stage P optimize R) (hR heads P hp).shuffle maxPlateau
    generations pop hne
  have hgood := C92.free_hall_valid h.project.sound hp optimize R (hR heads P hp) (fun i => [f i]) (select (fun i => [f i]) n)
    (fun l => GeneticLoop.select_subset _ n l) maxPlateau generations pop hc s hs
  obtain ⟨M, Ls, h1, h2, h3⟩ := decode_all h hp s.hof hgood
  rw [hhof] at h1 h2 h3
  obtain ⟨Lb, rfl⟩ : ∃ Lb, Ls = [Lb] := List.length_eq_one_iff.1 h1
  have hinc := C58.all_initial_schedules_included n ws (by
    intro h0
    have := weights_length hws
    rw [h0] at this
    simp at this) hpos (by rw [weights_length hws]; omega) d.kinds hk
  obtain ⟨⟨fb, i, hi, hsb⟩, -⟩ := h2 Lb (List.mem_singleton_self _)
  rw [List.mem_singleton] at hi
  subst hi
  refine ⟨N + M + fb + 1, i, Lb, xs, ?_, fun fuelIn fuel hi' hf => ⟨?_, schedule_mono hsb fuel (by omega), hheur fuelIn fuel (by omega) (by omega), ?_⟩⟩
  · have := congrArg List.length hchr
    rw [List.length_map, List.length_map] at this
    omega
  · simp only [run, hp, hws, hpop fuelIn fuel (by omega) (by omega), andThen, hs, hhof]
    exact h3 fuel (by omega)
  · intro x hx
    obtain ⟨k, hk', rfl⟩ := List.getElem_of_mem hx
    have hlen : xs.length = inds.length := by
      have := congrArg List.length hchr
      rwa [List.length_map, List.length_map] at this
    have hck : chromosome T heads xs[k] = some inds[k] := by
      have := congrArg (fun l => l[k]?) hchr
      simpa [List.getElem?_map, List.getElem?_eq_getElem hk', List.getElem?_eq_getElem (hlen ▸ hk')] using this
    refine ⟨inds[k], hck, hbest _ (hseen _ (hin rfl k _ (List.getElem?_eq_getElem (hlen ▸ hk')) (hinc k ?_)))⟩
    rw [weights_length hws]
    omega

/-! ### A concrete project -/

open GeneticFullDemo

-- a population of nine over ten generations
example : ∃ (N : Nat) (Ls : List (Decode.Loop Unit)), Ls ≠ [] ∧ (∀ fuelIn fuel, N ≤ fuelIn → N ≤ fuel →
      run task draws still true (fun i => [i.res.amount 0 0, 1]) (fun l => l.take 5) none 10 false 9 none fuelIn fuel = some (some Ls)) ∧
    ∀ Lp ∈ Ls, Feasible C22.demo GeneticDemo.works (LFT.agents GeneticDemo.J.contractors) (Serves GeneticDemo.J) Lp.st.sched ∧
      ∀ e ∈ Lp.st.sched, e.2.finish ≤ 230 :=
  returns_valid_schedules ready draws draws_possible still (fun _ P _ => still_possible P) true _ 2 (fun _ => rfl) _
    (fun l a ha => List.mem_of_mem_take ha) none 10 false 9 (by decide) none _ rfl (by decide) ⟨rfl, by decide⟩

-- the first and the last work are service works, and they are not parts of the chain
example : ∃ N : Nat, ∀ fuelIn fuel, N ≤ fuelIn → N ≤ fuel →
      (run task draws still true (fun i => [i.res.amount 0 0, 1]) (fun l => l.take 5) none 10 false 9 none fuelIn fuel).join.isSome ∧
      runValidated task draws still true (fun i => [i.res.amount 0 0, 1]) (fun l => l.take 5) none 10 false 9 none fuelIn fuel =
        run task draws still true (fun i => [i.res.amount 0 0, 1]) (fun l => l.take 5) none 10 false 9 none fuelIn fuel :=
  validation_changes_nothing ready
    ⟨fun v u hv => by
      have hv : v = 0 ∨ v = 4 := by simpa [task, site, service] using hv
      exact ⟨fun h => by have := follows h; omega, fun h => by have := follows h; omega⟩, fun v t _ h => by simp [task, base] at h⟩
    draws draws_possible still (fun _ P _ => still_possible P) true _ 2 (fun _ => rfl) _ (fun l a ha => List.mem_of_mem_take ha) none 10 false 9
    (by decide) none _ rfl (by decide) ⟨rfl, by decide⟩

-- the same with one objective
example (heads : List Nat) (P : Problem) (hp : prepare task.J = some (heads, P)) :=
  not_worse_than_heuristics ready draws draws_possible still (fun _ P _ => still_possible P) true (fun i => - (i.res.amount 0 0 : Int)) none 10
    9 (by decide) none _ rfl (by decide) ⟨rfl, by decide⟩ heads P hp

end Sampo.C112
