import Verif.Spec.GeneticFull
import Verif.Lemmas.Checked
import Verif.Lemmas.Instant
import Verif.Props.C58_FirstPopulation
import Verif.Props.C111_Validated

/-!
# Lemmas: the genetic scheduler as a whole
-/

namespace Sampo.GeneticFull

open GeneticRun Scheduler Validate
open Genetic (Ind Problem)

variable {σ α β : Type}

theorem all_map (l : List α) : all (l.map fun a => some (some a)) = some (some l) := by
  induction l with
  | nil => rfl
  | cons a l ih => simp only [List.map_cons, all, ih, andThen]

theorem all_eq {l : List (Option (Option α))} {l' : List α} (h : l = l'.map fun a => some (some a)) : all l = some (some l') := by
  rw [h, all_map]

/-- The optimizer answers with counts between the borders. -/
def Fair {S : Type} (opt : S → Nat → Contractor → Optimizer) : Prop := ∀ st v c, StaysWithin (opt st v c) ∧ Answers (opt st v c)

theorem scan_fair {S : Type} (f : S → Nat → Contractor → List Int → Int) : Fair fun st v c => Optimize.fullScan (f st v c) := fun st v c =>
  ⟨(C16.optimizers_stay_within (f st v c)).2.1, (C54.optimizers_answer (f st v c)).2.1⟩

theorem share_fair {S : Type} {kn kd : Int} (h0 : 0 < kd) (h1 : kd ≤ kn) : Fair fun (_ : S) (_ : Nat) (_ : Contractor) => Optimize.averageReq kn kd :=
  fun _ _ _ => ⟨(C16.optimizers_stay_within fun _ => 0).2.2 kn kd h0 h1, (C54.optimizers_answer fun _ => 0).2.2 kn kd h0 h1⟩

/-- A schedule and its order that suit the algorithm. -/
structure Fine (T : Job σ) (x : Sched × List Nat) : Prop where
  feasible : Feasible T.J.graph T.J.nodes (LFT.agents T.J.contractors) (C89.Staffs T.J.contractors T.J.spec T.J.reqs) x.1
  order : C89.GoodOrder T.J.graph T.J.nodes x.2
  sorted : ByPriority T.J.prio x.2
  instant : Instant T.site.service x.1

variable {T : Job σ} {m : Nat} {L D : Int}

theorem regular (h : Ready T m L D) : C111.Regular T.J.graph T.J.nodes T.J.contractors T.J.spec T.J.reqs where
  graph := h.project.sound.graph
  works := h.project.sound.works
  lags v e he := (h.project.lags v e he).1
  contractors := h.project.sound.contractors.sound
  counts := h.project.sound.contractors.counts
  sound v := (h.project.sound.reqs v).1
  kinds v := (h.project.sound.reqs v).2.1
  uniform k v _ hc := by
    obtain ⟨h1, h2⟩ := h.project.alike k v hc
    rw [h1, h2]
    refine ⟨fun r hr => hr, ?_⟩
    by_cases he : (T.J.spec k).contractors = []
    · exact .inl he
    · exact .inr ⟨he, fun c hc => hc⟩

theorem fine_ok (h : Ready T m L D) {x : Sched × List Nat} (hx : Fine T x) : ok T x = true :=
  C111.valid_schedule_passes_partial (regular h) T.site.service x.1 hx.feasible hx.instant T.sort (h.sort _)

theorem fine_chromosome (h : Ready T m L D) {heads : List Nat} {P : Problem} (hp : prepare T.J = some (heads, P)) {x : Sched × List Nat}
    (hx : Fine T x) : ∃ i, chromosome T heads x = some i ∧ C92.Converted T.J heads i := by
  obtain ⟨i, hi, -⟩ := C91.feasible_schedule_converts h.project.sound hp T.first h.first _ x.1 hx.feasible x.2 hx.order hx.sorted
  exact ⟨i, hi, T.first, _, x.1, x.2, h.first, hx.feasible, hx.order, hx.sorted, hi⟩

theorem setup_sound {S : Type} (h : Ready T m L D) {opt : S → Nat → Contractor → Optimizer} (ho : Fair opt) : Generic.Sound (setup T opt) where
  contractors := h.project.sound.contractors.sound
  reqs v := (h.project.sound.reqs v).1
  kinds v := (h.project.sound.reqs v).2.1
  free := h.project.plain.counts
  opt := ho
  able := h.project.able
  start := Int.le_refl 0

theorem busy_service (h : Ready T m L D) (v : Nat) (hv : T.J.reqs v ≠ []) : T.site.service v = false := by
  cases hs : T.site.service v with
  | false => rfl
  | true => exact absurd (h.site.service v hs).1 hv

theorem same_kinds (h : Ready T m L D) (k v : Nat) (hc : T.J.graph.InChain k v) : T.site.kinds v = T.site.kinds k ∨ T.site.kinds v = [] := by
  left
  rw [h.site.kinds, h.site.kinds, (h.project.alike k v hc).1]

theorem staffable (h : Ready T m L D) (v : Nat) : C54.Staffable T.J.contractors (T.J.spec v) (T.J.reqs v) := by
  obtain ⟨c, hc, ha, hab⟩ := h.project.able v
  have hn := h.project.plain.counts v
  refine ⟨(h.project.sound.reqs v).1, (h.project.sound.reqs v).2.1, ?_, c, hc, ha, fun r hr => ?_⟩
  · intro r _ n hl
    rw [hn] at hl
    cases hl
  · obtain ⟨n, h1, h2⟩ := hab r hr
    refine ⟨n, h1, h2, fun k hl => ?_⟩
    rw [hn] at hl
    cases hl

theorem jit_fine (h : Ready T m L D) {rule : Rule} (hg : C89.GivesGoodOrders rule T.J.graph T.J.nodes)
    (hs : ∀ order, orderWorks rule T.J.graph T.J.nodes = some order → ByPriority T.J.prio order)
    (ha : ∃ order, orderWorks rule T.J.graph T.J.nodes = some order) {opt : JIT.State σ → Nat → Contractor → Optimizer} (ho : Fair opt) :
    ∃ x, Fine T x ∧ ∀ fuel, 1 ≤ fuel → onJIT T rule opt fuel = some (some x) := by
  obtain ⟨order, horder⟩ := ha
  obtain ⟨st, h1, h2, -⟩ := C89.generic_jit_schedules h.project.sound.graph h.project.plain.dependencies
    (fun v e he _ => (h.project.lags v e he).1) T.site h.site.limits h.site.early rule hg ⟨order, horder⟩ (setup T opt) (setup_sound h ho) L D
    h.project.bound h.site.bound h.site.durations (fun v e he => (h.project.lags v e he).2)
    (by have := h.half; simpa [setup] using this) T.env
  refine ⟨(st.sched, order), ⟨h2, hg order horder, hs order horder, ?_⟩, fun fuel hf => ?_⟩
  · have hr := h1 1 (Nat.le_refl 1)
    unfold scheduleJIT at hr
    rw [horder] at hr
    exact (JIT.buildFrom_zero (zero := T.site.service) (E := onGraph T.site T.J.graph T.J.nodes) (fun v team hv => (h.site.service v hv).2 team) (fun _ => rfl)
      (by simp [Zero]) hr).instant
  · have hr := h1 fuel hf
    simp only [setup] at hr
    simp only [onJIT, setup, hr, horder, Option.map_some, Option.bind_some]

theorem generic_fine (h : Ready T m L D) {rule : Rule} (hg : C89.GivesGoodOrders rule T.J.graph T.J.nodes)
    (hs : ∀ order, orderWorks rule T.J.graph T.J.nodes = some order → ByPriority T.J.prio order)
    (ha : ∃ order, orderWorks rule T.J.graph T.J.nodes = some order) {opt : Momentum.State σ → Nat → Contractor → Optimizer} (ho : Fair opt) :
    ∃ N x, Fine T x ∧ ∀ fuelIn fuel, N ≤ fuelIn → 1 ≤ fuel → onMomentum T rule
      (Generic.planMomentum (onGraph T.site T.J.graph T.J.nodes) (setup T opt) T.inf fuelIn fuel) fuelIn fuel = some (some x) := by
  obtain ⟨order, horder⟩ := ha
  obtain ⟨N, st, h1, h2, -, -⟩ := C89.generic_momentum_schedules h.project.sound.graph h.project.plain.dependencies h.project.chains
    T.site h.site.limits L D h.project.bound h.site.bound h.site.durations (fun v e he => (h.project.lags v e he).2) rule hg ⟨order, horder⟩
    (setup T opt) (setup_sound h ho) T.inf (by have := h.half; simpa [setup] using this) (by have := h.late; simpa [setup] using this)
    h.site.kinds (busy_service h) (same_kinds h) T.env
  refine ⟨N, (st.sched, order), ⟨h2, hg order horder, hs order horder, ?_⟩, fun fuelIn fuel hN hf => ?_⟩
  · have hr := h1 N 1 (Nat.le_refl N) (Nat.le_refl 1)
    unfold scheduleMomentum at hr
    rw [horder] at hr
    exact (Momentum.buildFrom_zero (zero := T.site.service) (E := onGraph T.site T.J.graph T.J.nodes) (fun v team hv => (h.site.service v hv).2 team) (fun _ => rfl)
      (by simp [Zero]) hr).instant
  · have hr := h1 fuelIn fuel hN hf
    simp only [setup] at hr
    simp only [onMomentum, setup, hr, horder, Option.map_some, Option.bind_some]

theorem lft_fine (h : Ready T m L D) {rule : Rule} (hg : C89.GivesGoodOrders rule T.J.graph T.J.nodes)
    (hs : ∀ order, orderWorks rule T.J.graph T.J.nodes = some order → ByPriority T.J.prio order)
    (ha : ∃ order, orderWorks rule T.J.graph T.J.nodes = some order) {index : Nat → Nat → Nat} (hi : ∀ v n, 0 < n → index v n < n) :
    ∃ N x, Fine T x ∧ ∀ fuelIn fuel, N ≤ fuelIn → 1 ≤ fuel → onMomentum T rule (lftPlan T index) fuelIn fuel = some (some x) := by
  obtain ⟨order, horder⟩ := ha
  obtain ⟨N, st, h1, h2, -⟩ := C89.lft_momentum_schedules h.project.sound.graph h.project.plain.dependencies h.project.chains
    T.site h.site.limits L D h.project.bound h.site.bound h.site.durations (fun v e he => (h.project.lags v e he).2) rule hg ⟨order, horder⟩
    T.J.contractors h.project.sound.contractors.sound T.J.spec (fun v k n hl => by rw [h.project.plain.counts v] at hl; cases hl) T.J.reqs
    index hi T.independent 0 T.inf (Int.le_refl 0) (by have := h.late; simpa using this) T.env
    h.site.kinds (busy_service h) (same_kinds h) (staffable h)
  refine ⟨N, (st.sched, order), ⟨h2, hg order horder, hs order horder, ?_⟩, fun fuelIn fuel hN hf => ?_⟩
  · have hr := h1 N 1 (Nat.le_refl N) (Nat.le_refl 1)
    unfold scheduleMomentum at hr
    rw [horder] at hr
    exact (Momentum.buildFrom_zero (zero := T.site.service) (E := onGraph T.site T.J.graph T.J.nodes) (fun v team hv => (h.site.service v hv).2 team) (fun _ => rfl)
      (by simp [Zero]) hr).instant
  · have hr := h1 fuelIn fuel hN hf
    simp only [onMomentum, lftPlan, hr, horder, Option.map_some, Option.bind_some]

/-- The seven heuristics. -/
theorem heuristics_fine (h : Ready T m L D) : ∃ (N : Nat) (xs : List (Sched × List Nat)), xs.length = 7 ∧ (∀ x ∈ xs, Fine T x) ∧
    ∀ fuelIn fuel, N ≤ fuelIn → 1 ≤ fuel → heuristics T fuelIn fuel = xs.map fun x => some (some (some x)) := by
  have hw := h.project.sound.graph
  have hac := h.project.sound.acyclic
  obtain ⟨a1, a2, -, -⟩ := C89.rules_answer hw hac T.cost T.dur T.J.prio
  have hheft := C89.heft_order hw T.cost h.cost T.J.prio h.project.sound.prios
  have hsorted : ∀ order, orderWorks (heftRule T.cost T.J.prio) T.J.graph T.J.nodes = some order → ByPriority T.J.prio order :=
    fun order ho => C90.schedulers hw T.cost T.dur T.J.prio id (fun l => List.Perm.refl l) order (.inl ho)
  obtain ⟨N0, x0, f0, e0⟩ := lft_fine h (C89.lft_order hw T.dur h.dur T.J.prio h.project.sound.prios)
    (fun order ho => C90.schedulers hw T.cost T.dur T.J.prio id (fun l => List.Perm.refl l) order (.inr (.inl ho))) a2 h.index
  obtain ⟨x1, f1, e1⟩ := jit_fine h hheft hsorted a1 (scan_fair T.finishEnd)
  obtain ⟨N2, x2, f2, e2⟩ := generic_fine h hheft hsorted a1 (scan_fair T.finishBetween)
  obtain ⟨x3, f3, e3⟩ := jit_fine h hheft hsorted a1 (share_fair (kn := 8) (kd := 1) (by decide) (by decide))
  obtain ⟨x4, f4, e4⟩ := jit_fine h hheft hsorted a1 (share_fair (kn := 4) (kd := 1) (by decide) (by decide))
  obtain ⟨x5, f5, e5⟩ := jit_fine h hheft hsorted a1 (share_fair (kn := 4) (kd := 3) (by decide) (by decide))
  obtain ⟨x6, f6, e6⟩ := jit_fine h hheft hsorted a1 (share_fair (kn := 8) (kd := 7) (by decide) (by decide))
  refine ⟨max N0 N2, [x0, x1, x2, x3, x4, x5, x6], rfl, ?_, fun fuelIn fuel hN hf => ?_⟩
  · intro x hx
    simp only [List.mem_cons, List.not_mem_nil, or_false] at hx
    rcases hx with rfl | rfl | rfl | rfl | rfl | rfl | rfl <;> assumption
  · simp only [heuristics, lft, e0 fuelIn fuel (by omega) hf, e1 fuel hf, e2 fuelIn fuel (by omega) hf, e3 fuel hf, e4 fuel hf, e5 fuel hf,
      e6 fuel hf, caught, checked, andThen, Option.map_some, Option.bind_some, fine_ok h f0, fine_ok h f1, fine_ok h f2, fine_ok h f3,
      fine_ok h f4, fine_ok h f5, fine_ok h f6, if_true, List.map_cons, List.map_nil]

theorem topological_fine (h : Ready T m L D) {heads : List Nat} {P : Problem} (hp : prepare T.J = some (heads, P)) {d : Draws}
    (hd : d.Possible) (i : Nat) : ∃ N ind, C92.Converted T.J heads ind ∧
    ∀ fuelIn fuel, N ≤ fuelIn → 1 ≤ fuel → topological T d heads fuelIn fuel i = some (some ind) := by
  have hw := h.project.sound.graph
  obtain ⟨-, -, a3, -⟩ := C89.rules_answer hw h.project.sound.acyclic T.cost T.dur T.J.prio
  obtain ⟨N, x, f, e⟩ := generic_fine h (C89.topological_order hw T.J.prio h.project.sound.prios (d.shuffle i) (hd.shuffle i))
    (fun order ho => C90.schedulers hw T.cost T.dur T.J.prio (d.shuffle i) (hd.shuffle i) order (.inr (.inr ho)))
    (a3 h.project.sound.prios _ (hd.shuffle i)) (share_fair (kn := 2) (kd := 1) (by decide) (by decide))
  obtain ⟨ind, h1, h2⟩ := fine_chromosome h hp f
  refine ⟨N, ind, h2, fun fuelIn fuel hN hf => ?_⟩
  simp only [topological, e fuelIn fuel hN hf, andThen, h1]

theorem randomLft_fine (h : Ready T m L D) {heads : List Nat} {P : Problem} (hp : prepare T.J = some (heads, P)) {d : Draws}
    (hd : d.Possible) (i : Nat) : ∃ N ind, C92.Converted T.J heads ind ∧
    ∀ fuelIn fuel, N ≤ fuelIn → 1 ≤ fuel → randomLft T d heads fuelIn fuel i = some (some ind) := by
  have hw := h.project.sound.graph
  obtain ⟨-, -, -, a4⟩ := C89.rules_answer hw h.project.sound.acyclic T.cost T.dur T.J.prio
  obtain ⟨N, x, f, e⟩ := lft_fine h (C89.random_lft_order hw T.J.prio (d.pick i) T.J.nodes.length)
    (fun order ho => C90.randomized_scheduler hw T.J.prio h.project.sound.prios h.project.source (d.pick i) _ order ho)
    (a4 h.project.source (d.pick i) _ (Nat.le_refl _)) (hd.index i)
  obtain ⟨ind, h1, h2⟩ := fine_chromosome h hp f
  refine ⟨N, ind, h2, fun fuelIn fuel hN hf => ?_⟩
  simp only [randomLft, e fuelIn fuel hN hf, andThen, h1]

theorem weights_length {weights : Option (List Nat)} {ws : List Nat} (h : Backend.schedulerWeights weights = some ws) : ws.length = 7 := by
  unfold Backend.schedulerWeights at h
  split at h
  · cases h; rfl
  · split at h
    · cases h; rw [List.length_take]; omega
    · cases h

theorem mapM_some {γ : Type} {f : α → Option β} {g : γ → β} {e : γ → α} : ∀ (l : List γ), (∀ x ∈ l, f (e x) = some (g x)) →
    (l.map e).mapM f = some (l.map g)
  | [], _ => rfl
  | x :: l, h => by
    rw [List.map_cons, List.mapM_cons, h x List.mem_cons_self, mapM_some l fun y hy => h y (List.mem_cons_of_mem _ hy)]
    rfl

theorem all_some {c : α → Option β} {Q : β → Prop} : ∀ (xs : List α), (∀ x ∈ xs, ∃ i, c x = some i ∧ Q i) →
    ∃ is : List β, xs.map c = is.map some ∧ ∀ i ∈ is, Q i
  | [], _ => ⟨[], rfl, by simp⟩
  | x :: xs, h => by
    obtain ⟨i, h1, h2⟩ := h x List.mem_cons_self
    obtain ⟨is, h3, h4⟩ := all_some xs fun y hy => h y (List.mem_cons_of_mem _ hy)
    refine ⟨i :: is, by rw [List.map_cons, List.map_cons, h1, h3], fun j hj => ?_⟩
    rcases List.mem_cons.1 hj with rfl | hj
    · exact h2
    · exact h4 j hj

theorem zip_some (T : Job σ) (heads : List Nat) : ∀ (xs : List (Sched × List Nat)) (is : List Ind) (ws : List Nat),
    xs.map (chromosome T heads) = is.map some → ((xs.map some).zip ws).mapM (weighted T heads) = some ((is.zip ws).map some)
  | [], [], ws, _ => by simp
  | [], _ :: _, ws, h => by simp at h
  | _ :: _, [], ws, h => by simp at h
  | x :: xs, i :: is, [], _ => by simp
  | x :: xs, i :: is, w :: ws, h => by
    rw [List.map_cons, List.map_cons, List.cons.injEq] at h
    have ih := zip_some T heads xs is ws h.2
    rw [List.map_cons, List.zip_cons_cons, List.zip_cons_cons, List.mapM_cons, ih]
    simp only [weighted, h.1]
    rfl

/-- The converted heuristic schedules. -/
theorem initial_fine (h : Ready T m L D) {heads : List Nat} {P : Problem} (hp : prepare T.J = some (heads, P)) (ws : List Nat) :
    ∃ (N : Nat) (xs : List (Sched × List Nat)) (inds : List Ind), inds.length = 7 ∧
    (∀ fuelIn fuel, N ≤ fuelIn → 1 ≤ fuel → heuristics T fuelIn fuel = xs.map fun x => some (some (some x))) ∧
    xs.map (chromosome T heads) = inds.map some ∧ (∀ i ∈ inds, C92.Converted T.J heads i) ∧
    ∀ fuelIn fuel, N ≤ fuelIn → 1 ≤ fuel → initial T heads ws fuelIn fuel = some (some ((inds.zip ws).map some)) := by
  obtain ⟨N, xs, hl, hx, e⟩ := heuristics_fine h
  obtain ⟨inds, hm, hc⟩ := all_some (c := chromosome T heads) (Q := C92.Converted T.J heads) xs fun x hx' => fine_chromosome h hp (hx x hx')
  refine ⟨N, xs, inds, ?_, e, hm, hc, fun fuelIn fuel hN hf => ?_⟩
  · have := congrArg List.length hm
    rw [List.length_map, List.length_map] at this
    omega
  · rw [initial, e fuelIn fuel hN hf]
    rw [show (xs.map fun x => some (some (some x))) = (xs.map some).map fun a => some (some a) by rw [List.map_map]; rfl, all_map]
    simp only [andThen]
    exact congrArg some (zip_some T heads xs inds ws hm)

private theorem bound_all {p : Nat → Nat → Prop} (h : ∀ i, ∃ N, p i N) (n : Nat) (hm : ∀ i N N', p i N → N ≤ N' → p i N') :
    ∃ N, ∀ i < n, p i N := by
  induction n with
  | zero => exact ⟨0, fun i hi => absurd hi (Nat.not_lt_zero i)⟩
  | succ n ih =>
    obtain ⟨N, hN⟩ := ih
    obtain ⟨N', hN'⟩ := h n
    refine ⟨max N N', fun i hi => ?_⟩
    by_cases hin : i = n
    · subst hin
      exact hm _ _ _ hN' (Nat.le_max_right _ _)
    · exact hm _ _ _ (hN i (by omega)) (Nat.le_max_left _ _)

/-- The first population. -/
theorem population_fine (h : Ready T m L D) {heads : List Nat} {P : Problem} (hp : prepare T.J = some (heads, P)) {d : Draws}
    (hd : d.Possible) {ws : List Nat} (hws : ws.length = 7) (hpos : ∀ w ∈ ws, 0 < w) {n : Nat} (hn : 0 < n) (hk : d.kinds.length = n)
    (lftOnly : Bool) : ∃ (N : Nat) (xs : List (Sched × List Nat)) (inds pop : List Ind), inds.length = 7 ∧
    (∀ fuelIn fuel, N ≤ fuelIn → 1 ≤ fuel → heuristics T fuelIn fuel = xs.map fun x => some (some (some x))) ∧
    xs.map (chromosome T heads) = inds.map some ∧ pop ≠ [] ∧ (∀ i ∈ pop, C92.Converted T.J heads i) ∧
    (lftOnly = false → ∀ (k : Nat) (i : Ind), inds[k]? = some i → k ∈ d.kinds → i ∈ pop) ∧
    ∀ fuelIn fuel, N ≤ fuelIn → 1 ≤ fuel → population T d heads lftOnly n ws fuelIn fuel = some (some pop) := by
  obtain ⟨N, xs, inds, hl, e, hm, hc, hini⟩ := initial_fine h hp ws
  choose NT t ht1 ht2 using fun i => topological_fine h hp hd i
  choose NR r hr1 hr2 using fun i => randomLft_fine h hp hd i
  obtain ⟨M, hM⟩ := bound_all (p := fun i N => NT i ≤ N ∧ NR i ≤ N) (fun i => ⟨max (NT i) (NR i), by omega, by omega⟩) n
    (fun i a b h1 h2 => ⟨by omega, by omega⟩)
  have hget : ∀ y : Ind × Nat → Option (Option Ind) × Nat, ((inds.zip ws).map some).map (fun x => x.map y) = ((inds.zip ws).map fun x => some (y x)) := by
    intro y
    rw [List.map_map]
    rfl
  cases lftOnly with
  | true =>
    obtain ⟨i0, inds', rfl⟩ : ∃ a l, inds = a :: l := by
      cases inds with
      | nil => simp at hl
      | cons a l => exact ⟨a, l, rfl⟩
    obtain ⟨w0, ws', rfl⟩ : ∃ a l, ws = a :: l := by
      cases ws with
      | nil => simp at hws
      | cons a l => exact ⟨a, l, rfl⟩
    refine ⟨max N M, xs, i0 :: inds', (List.range (n - 1)).map r ++ [i0], hl, fun a b ha hb => e a b (by omega) hb, hm, by simp, ?_,
      by simp, fun fuelIn fuel hN hf => ?_⟩
    · intro i hi
      rcases List.mem_append.1 hi with hi | hi
      · obtain ⟨j, -, rfl⟩ := List.mem_map.1 hi
        exact hr1 j
      · rw [List.mem_singleton] at hi
        subst hi
        exact hc _ List.mem_cons_self
    · rw [population, hini fuelIn fuel (by omega) hf]
      simp only [andThen, Backend.firstDefault, if_true, List.zip_cons_cons, List.map_cons, List.head?_cons, Option.bind_some, Option.map_some]
      refine all_eq ?_
      rw [List.map_append, List.map_map, List.map_cons, List.map_nil]
      congr 1
      refine List.map_congr_left fun j hj => ?_
      rw [List.mem_range] at hj
      exact hr2 j fuelIn fuel (by have := (hM j (by omega)).2; omega) hf
  | false =>
    refine ⟨max N M, xs, inds, d.kinds.mapIdx fun i k => if k < 7 then (inds[k]?).getD (t i) else if k = 7 then t i else r i, hl,
      fun a b ha hb => e a b (by omega) hb, hm, ?_, ?_, ?_, fun fuelIn fuel hN hf => ?_⟩
    · intro hnil
      have := congrArg List.length hnil
      rw [List.length_mapIdx] at this
      simp at this
      rw [this] at hk
      simp at hk
      omega
    · intro i hi
      obtain ⟨j, hj, rfl⟩ := List.mem_mapIdx.1 hi
      split
      · rename_i hlt
        rw [List.getElem?_eq_getElem (by omega), Option.getD_some]
        exact hc _ (List.getElem_mem _)
      · split
        · exact ht1 j
        · exact hr1 j
    · intro _ k i hki hmem
      obtain ⟨j, hj, rfl⟩ := List.getElem_of_mem hmem
      refine List.mem_mapIdx.2 ⟨j, hj, ?_⟩
      have hlt : d.kinds[j] < inds.length := by
        rw [List.getElem?_eq_some_iff] at hki
        exact hki.1
      rw [if_pos (by omega), hki, Option.getD_some]
    · rw [population, hini fuelIn fuel (by omega) hf]
      have hid : ((inds.zip ws).map fun x => some ((some (some x.1) : Option (Option Ind)), x.2)).mapM id =
          some ((inds.zip ws).map fun x => ((some (some x.1) : Option (Option Ind)), x.2)) := mapM_some _ (fun _ _ => rfl)
      have hzip : (inds.zip ws).length = 7 := by rw [List.length_zip]; omega
      have hsum : ((inds.zip ws).map fun x => x.2).sum ≠ 0 := by
        rw [List.map_snd_zip (by omega)]
        intro h0
        rw [List.sum_eq_zero_iff] at h0
        obtain ⟨w, ws', rfl⟩ : ∃ a l, ws = a :: l := by
          cases ws with
          | nil => simp at hws
          | cons a l => exact ⟨a, l, rfl⟩
        have := hpos w List.mem_cons_self
        have := h0 w List.mem_cons_self
        omega
      have hne : inds.zip ws ≠ [] := by
        intro h0
        rw [h0] at hzip
        simp at hzip
      simp only [andThen, Backend.firstDefault, hget, hid, Option.bind_some, List.map_eq_nil_iff, List.map_map, Function.comp_def,
        hne, hsum, or_self, if_false, Bool.false_eq_true, List.length_map, hzip]
      refine all_eq ?_
      refine List.ext_getElem (by simp) fun j h1 h2 => ?_
      have hjn : j < n := by rw [List.length_mapIdx] at h1; omega
      simp only [List.getElem_mapIdx, List.getElem_map]
      split
      · rename_i hlt
        rw [List.getElem?_map, List.getElem?_eq_getElem (by omega), List.getElem_zip, List.getElem?_eq_getElem (by omega)]
        rfl
      · split
        · exact ht2 j fuelIn fuel (by have := (hM j hjn).1; omega) hf
        · exact hr2 j fuelIn fuel (by have := (hM j hjn).2; omega) hf

theorem schedule_mono {site : Env σ} {J : Project} {heads : List Nat} {B : Decode.Input σ} {inf : Int} {env : σ} {fuel : Nat} {i : Ind}
    {r : Option (Decode.Loop σ)} (h : schedule site J heads B inf env fuel i = some r) (n : Nat) (hn : fuel ≤ n) :
    schedule site J heads B inf env n i = some r := by
  induction n, hn using Nat.le_induction with
  | base => exact h
  | succ n _ ih =>
    unfold schedule Decode.parallel at ih ⊢
    split at ih
    · exact ih
    · exact Decode.loop_mono ih

theorem roomy (h : Ready T m L D) : Roomy T.J T.site T.B L D T.inf where
  limits := h.site.limits
  allowed := h.site.allowed
  lag0 := h.project.bound
  lags v e he := (h.project.lags v e he).2
  time0 := h.site.bound
  times u _ _ _ team _ _ := (h.site.durations u team).2
  given := h.site.given
  room := h.room

/-! ### Service works in decoded schedules -/

theorem execTimes_single {share : Int → Int → Int → Int} {x t : Int} : Assigned.execTimes share [x] t = [t] := by
  simp only [Assigned.execTimes, Assigned.loop]
  split <;> simp

/-- Marked works are alone in their chains. -/
def Single (zero : Nat → Bool) (E : Env σ) : Prop := ∀ v, ∀ u ∈ E.chain v, zero u = true → v = u ∧ E.chain v = [u]

theorem place_zero {zero : Nat → Bool} {I : Decode.Input σ} {E : Env σ} (hs : Single zero E) (he : ∀ v team, zero v = true → E.estimate v team = 0)
    {st : JIT.State σ} {it : Decode.Item} {t : Int} {r : JIT.State σ × Int} (hit : zero it.node = true → it.exec = 0)
    (hz : Zero zero st.sched) (h : Decode.place I E st it t = some r) : Zero zero r.1.sched := by
  simp only [Decode.place, JIT.scheduleAt, Option.bind_eq_some_iff, Option.map_eq_some_iff] at h
  obtain ⟨team, -, es, -, st', ⟨p, hp, tl', -, env', -, rfl⟩, rfl⟩ := h
  refine JIT.placeChain_zero (fun v hv => ?_) hz hp
  unfold Decode.chainTimes
  by_cases hm : v ∈ E.chain it.node
  · obtain ⟨h1, h2⟩ := hs it.node v hm hv
    rw [h2, List.map_singleton, execTimes_single]
    simp [hit (h1 ▸ hv)]
  · have : List.lookup v ((E.chain it.node).zip (Assigned.execTimes I.share ((E.chain it.node).map I.volume) it.exec)) = none := by
      rw [List.lookup_eq_none_iff]
      intro p hp
      have := (List.of_mem_zip (a := p.1) (b := p.2) hp).1
      rw [bne_iff_ne]
      rintro rfl
      exact hm this
    rw [this]
    exact he v team hv

theorem pass_zero {zero : Nat → Bool} {I : Decode.Input σ} {E : Env σ} (hs : Single zero E) (he : ∀ v team, zero v = true → E.estimate v team = 0)
    {t : Int} : ∀ {its : List Decode.Item} {st : JIT.State σ} {ev : List Int} {r : List Decode.Item × JIT.State σ × List Int},
    (∀ it ∈ its, zero it.node = true → it.exec = 0) → Zero zero st.sched → Decode.pass I E t its st ev = some r →
    Zero zero r.2.1.sched ∧ ∀ it ∈ r.1, it ∈ its
  | [], st, ev, r, _, hz, h => by
    simp only [Decode.pass, Option.some.injEq] at h
    subst h
    exact ⟨hz, fun _ h => h⟩
  | it :: its, st, ev, r, hi, hz, h => by
    simp only [Decode.pass, Option.bind_eq_some_iff] at h
    obtain ⟨ok, -, h⟩ := h
    split at h
    · rw [Option.bind_eq_some_iff] at h
      obtain ⟨q, hq, h⟩ := h
      obtain ⟨h1, h2⟩ := pass_zero hs he (fun x hx => hi x (List.mem_cons_of_mem _ hx))
        (place_zero hs he (hi it List.mem_cons_self) hz hq) h
      exact ⟨h1, fun x hx => List.mem_cons_of_mem _ (h2 x hx)⟩
    · rw [Option.map_eq_some_iff] at h
      obtain ⟨q, hq, rfl⟩ := h
      obtain ⟨h1, h2⟩ := pass_zero hs he (fun x hx => hi x (List.mem_cons_of_mem _ hx)) hz hq
      refine ⟨h1, fun x hx => ?_⟩
      rcases List.mem_cons.1 hx with rfl | hx
      · exact List.mem_cons_self
      · exact List.mem_cons_of_mem _ (h2 x hx)

theorem loop_zero {zero : Nat → Bool} {I : Decode.Input σ} {E : Env σ} (hs : Single zero E) (he : ∀ v team, zero v = true → E.estimate v team = 0)
    {inf : Int} : ∀ {fuel : Nat} {L L' : Decode.Loop σ}, (∀ it ∈ L.items, zero it.node = true → it.exec = 0) → Zero zero L.st.sched →
    Decode.loop I E inf fuel L = some (some L') → Zero zero L'.st.sched
  | 0, _, _, _, _, h => by simp [Decode.loop] at h
  | fuel + 1, L, L', hi, hz, h => by
    have adv : ∀ {t prev : Int} {M : Decode.Loop σ}, Decode.advance I E t prev L = some M →
        (∀ it ∈ M.items, zero it.node = true → it.exec = 0) ∧ Zero zero M.st.sched := by
      intro t prev M hM
      simp only [Decode.advance, Option.map_eq_some_iff] at hM
      obtain ⟨r, hr, rfl⟩ := hM
      obtain ⟨h1, h2⟩ := pass_zero hs he hi hz hr
      exact ⟨fun it hit => hi it (h2 it hit), h1⟩
    simp only [Decode.loop] at h
    split at h
    · simp only [Option.some.injEq] at h
      exact h ▸ hz
    · split at h
      · split at h
        · exact loop_zero hs he (L := { L with ckpt := L.ckpt + 1, start := _ }) hi hz h
        · split at h
          · simp only [Option.some.injEq] at h
            exact h ▸ hz
          · split at h
            · simp at h
            · rename_i hM
              exact loop_zero hs he (adv hM).1 (adv hM).2 h
      · split at h
        · simp at h
        · rename_i hM
          exact loop_zero hs he (adv hM).1 (adv hM).2 h

theorem decodeAll_exec {zero : Nat → Bool} {I : Decode.Input σ} {E : Env σ} (hs : ∀ v, zero v = true → E.chain v = [v])
    (he : ∀ v team, zero v = true → E.estimate v team = 0) (ha : ∀ v t, zero v = true → I.assignedTime v = some t → t = 0) :
    ∀ {is : List Nat} {idx : Nat} {its : List Decode.Item}, Decode.decodeAll I E idx is = some its → ∀ it ∈ its, zero it.node = true → it.exec = 0
  | [], _, its, h, it, hit, _ => by
    simp only [Decode.decodeAll, Option.some.injEq] at h
    subst h
    cases hit
  | i :: is, idx, its, h, it, hit, hz => by
    simp only [Decode.decodeAll, Option.bind_eq_some_iff, Option.map_eq_some_iff] at h
    obtain ⟨x, hx, rest, hr, rfl⟩ := h
    rcases List.mem_cons.1 hit with rfl | hit
    · simp only [Decode.decode, Option.map_eq_some_iff] at hx
      obtain ⟨team, -, rfl⟩ := hx
      dsimp only at hz ⊢
      cases h2 : I.assignedTime (I.node i) with
      | some t => exact ha _ _ hz h2
      | none =>
        simp only [Option.getD_none, Decode.cascade]
        split
        · rfl
        · rw [hs _ hz]
          simp [he _ _ hz]
    · exact decodeAll_exec hs he ha hr it hit hz

theorem single (h : Ready T m L D) (ha : ServiceApart T) : Single T.site.service (Scheduler.onGraph T.site T.J.graph T.J.nodes) ∧
    ∀ v, T.site.service v = true → (Scheduler.onGraph T.site T.J.graph T.J.nodes).chain v = [v] := by
  have hlink := h.project.sound.graph.ok.linked
  have hone : ∀ v, T.site.service v = true → (Scheduler.onGraph T.site T.J.graph T.J.nodes).chain v = [v] := by
    intro v hv
    show T.J.graph.chainWithSelf T.J.nodes.length v = [v]
    unfold Graph.chainWithSelf
    rw [(Graph.insepSon_none hlink v).2 fun a => (ha.apart v a hv).1]
    rfl
  refine ⟨fun v u hu hz => ?_, hone⟩
  have hc : T.J.graph.InChain v u := by
    change u ∈ T.J.graph.chainWithSelf T.J.nodes.length v at hu
    unfold Graph.chainWithSelf at hu
    split at hu
    · exact (Graph.chainFrom_pairwise hlink _ v).1 u hu
    · rw [List.mem_singleton.1 hu]
      exact .refl
  have hvu : v = u := by
    rcases Relation.ReflTransGen.cases_tail hc with rfl | ⟨b, -, hb⟩
    · rfl
    · exact absurd hb (ha.apart u b hz).2
  subst hvu
  exact ⟨rfl, hone v hz⟩

theorem decoded_zero (h : Ready T m L D) (ha : ServiceApart T) {heads : List Nat} {i : Ind} {fuel : Nat} {Lp : Decode.Loop σ}
    (hL : schedule T.site T.J heads T.B T.inf T.env fuel i = some (some Lp)) : Instant T.site.service Lp.st.sched := by
  obtain ⟨h1, h2⟩ := single h ha
  have he : ∀ v team, T.site.service v = true → (Scheduler.onGraph T.site T.J.graph T.J.nodes).estimate v team = 0 :=
    fun v team hv => (h.site.service v hv).2 team
  simp only [schedule, Decode.parallel, Decode.begin_] at hL
  split at hL
  · simp at hL
  · rename_i L0 hL0
    rw [Option.map_eq_some_iff] at hL0
    obtain ⟨its, hits, rfl⟩ := hL0
    refine Zero.instant (loop_zero h1 he ?_ (fun e he => by cases he) hL)
    exact decodeAll_exec (I := input T.J heads T.B i) h2 he ha.times hits

theorem decoded_ok (h : Ready T m L D) (ha : ServiceApart T) {heads : List Nat} {i : Ind} {fuel : Nat} {Lp : Decode.Loop σ}
    (hL : schedule T.site T.J heads T.B T.inf T.env fuel i = some (some Lp))
    (hf : Feasible T.J.graph T.J.nodes (LFT.agents T.J.contractors) (Serves T.J) Lp.st.sched) : ok T (Lp.st.sched, []) = true := by
  have hr := regular h
  refine feasible_passes hr.graph hr.works hr.lags hr.contractors hr.counts hr.kinds hr.uniform ?_ hf (decoded_zero h ha hL) (h.sort _)
  rintro k team c ⟨c', hc, hid, had, -, hw, -⟩
  refine ⟨c', hc, hid, had, fun w hm => ?_⟩
  obtain ⟨w1, w2, ⟨n, w3, -⟩, w4⟩ := hw w hm
  exact ⟨w1, Int.le_of_lt w2, ⟨n, w3⟩, w4⟩

end Sampo.GeneticFull
