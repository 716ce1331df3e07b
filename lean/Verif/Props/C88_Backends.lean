import Verif.Model.Backend
import Verif.Props.C27_ChromosomeChecks
import Mathlib.Algebra.BigOperators.Group.List.Basic
import Mathlib.Algebra.BigOperators.Ring.List

/-!
# C88: computational backends
-/

namespace Sampo.C88

open Backend StochasticEstimator

variable {P G C S F : Type}

/-! ### Fitness values -/

/-- The schedule of a chromosome for a task and settings: that of its decoding with the task's estimator, or none if it is not correct. -/
def scheduleOf (valid : Toolbox P G → C → Bool) (decode : Toolbox P G → C → S) (t : Job P) (g : Settings G) (c : C) : Option S :=
  let tb : Toolbox P G := ⟨t.problem, t.estimator.getD .new, g.params, g.parentTime.getD 0⟩
  if valid tb c then some (decode tb c) else none

/-- The right values for a sequence of operations: each chromosome is evaluated for the task and the settings given last. -/
inductive Right (valid : Toolbox P G → C → Bool) (decode : Toolbox P G → C → S) :
    Option (Job P) → Option (Settings G) → List (Op P G C S F) → List (List F) → Prop
  | nil {t g} : Right valid decode t g [] []
  | task {t0 g t ops r} : Right valid decode (some t) g ops r → Right valid decode t0 g (.task t :: ops) r
  | settings {t g0 g ops r} : Right valid decode t (some g) ops r → Right valid decode t g0 (.settings g :: ops) r
  | compute {t g fitness cs ops r} : Right valid decode (some t) (some g) ops r →
      Right valid decode (some t) (some g) (.compute fitness cs :: ops)
        (cs.map (fun c => fitness (scheduleOf valid decode t g) c) :: r)
  | population {t g ops r} : Right valid decode (some t) (some g) ops r → Right valid decode (some t) (some g) (.population :: ops) r

/-- The toolbox in use is of the current task and settings. -/
private def Fresh (s : State P G) : Prop := ∀ tb, s.toolbox = some tb → ∃ t g, s.task = some t ∧ s.settings = some g ∧
  tb = ⟨t.problem, t.estimator.getD .new, g.params, g.parentTime.getD 0⟩

private theorem ensure_spec {s : State P G} (hs : Fresh s) {s' : State P G} : s.ensureToolbox = some s' ↔
    ∃ t g, s.task = some t ∧ s.settings = some g ∧
      s' = { s with toolbox := some ⟨t.problem, t.estimator.getD .new, g.params, g.parentTime.getD 0⟩ } := by
  obtain ⟨ta, gs, tb, pl⟩ := s
  unfold State.ensureToolbox
  cases tb with
  | some tb =>
    obtain ⟨t, g, h1, h2, h3⟩ := hs tb rfl
    dsimp only at h1 h2
    subst h1 h2 h3
    constructor
    · intro h
      cases h
      exact ⟨t, g, rfl, rfl, rfl⟩
    · rintro ⟨t', g', h1, h2, rfl⟩
      cases h1; cases h2
      rfl
  | none =>
    dsimp only
    cases ta <;> cases gs <;> simp [eq_comm]

/-- The default backend gives values exactly when the task and the settings were given before they were needed, and these are the right ones:
whatever was evaluated before, for whatever tasks and settings. -/
theorem default_right (valid : Toolbox P G → C → Bool) (decode : Toolbox P G → C → S) (ops : List (Op P G C S F)) (r : List (List F)) :
    run (State.stepDefault valid decode) .new ops = some r ↔ Right valid decode none none ops r := by
  suffices h : ∀ (ops : List (Op P G C S F)) (s : State P G) (r : List (List F)), Fresh s →
      (run (State.stepDefault valid decode) s ops = some r ↔ Right valid decode s.task s.settings ops r) from
    h ops .new r (fun _ h => by cases h)
  intro ops
  induction ops with
  | nil =>
    intro s r _
    obtain ⟨ta, gs, tb0, pl⟩ := s
    constructor
    · intro h; cases h; exact .nil
    · intro h; cases h; rfl
  | cons op ops ih =>
    intro s r hs
    obtain ⟨ta, gs, tb0, pl⟩ := s
    dsimp only
    unfold run
    cases op with
    | task t =>
      have := ih ⟨some t, gs, none, pl⟩ r (fun _ h => by cases h)
      simp only [State.stepDefault, Option.bind_some, List.nil_append, Option.map_id']
      rw [this]
      exact ⟨.task, fun h => by cases h; assumption⟩
    | settings g =>
      have := ih ⟨ta, some g, none, pl⟩ r (fun _ h => by cases h)
      simp only [State.stepDefault, Option.bind_some, List.nil_append, Option.map_id']
      rw [this]
      exact ⟨.settings, fun h => by cases h; assumption⟩
    | compute fitness cs =>
      simp only [State.stepDefault, Option.bind_eq_some_iff, Option.map_eq_some_iff]
      constructor
      · rintro ⟨_, ⟨s', he, tb, htb, rfl⟩, r', hr', rfl⟩
        obtain ⟨t, g, ht, hg, rfl⟩ := (ensure_spec hs).1 he
        cases htb
        dsimp only at ht hg
        subst ht hg
        refine .compute ((ih ⟨some t, some g, some _, pl⟩ _ ?_).1 hr')
        intro tb h
        cases h
        exact ⟨t, g, rfl, rfl, rfl⟩
      · intro h
        cases h with
        | @compute t g _ _ _ r' h =>
          refine ⟨_, ⟨_, (ensure_spec hs).2 ⟨t, g, rfl, rfl, rfl⟩, _, rfl, rfl⟩, r', ?_, rfl⟩
          refine (ih _ _ ?_).2 h
          intro tb h
          cases h
          exact ⟨t, g, rfl, rfl, rfl⟩
    | population =>
      simp only [State.stepDefault, Option.bind_eq_some_iff, Option.map_eq_some_iff]
      constructor
      · rintro ⟨_, ⟨s', he, rfl⟩, r', hr', rfl⟩
        obtain ⟨t, g, ht, hg, rfl⟩ := (ensure_spec hs).1 he
        dsimp only at ht hg
        subst ht hg
        refine .population ((ih ⟨some t, some g, some _, pl⟩ _ ?_).1 hr')
        intro tb h
        cases h
        exact ⟨t, g, rfl, rfl, rfl⟩
      · intro h
        cases h with
        | @population t g _ r' h =>
          refine ⟨_, ⟨_, (ensure_spec hs).2 ⟨t, g, rfl, rfl, rfl⟩, rfl⟩, r, ?_, rfl⟩
          refine (ih _ _ ?_).2 h
          intro tb h
          cases h
          exact ⟨t, g, rfl, rfl, rfl⟩

/-- A sequence the multiprocessing backend accepts: tasks come with an estimator, and no settings with initial schedules before the first task. -/
inductive Accepted : Bool → List (Op P G C S F) → Prop
  | nil {b} : Accepted b []
  | task {b t ops} : t.estimator.isSome = true → Accepted true ops → Accepted b (.task t :: ops)
  | settings {b g ops} : (g.initial = true → b = true) → Accepted b ops → Accepted b (.settings g :: ops)
  | compute {b fitness cs ops} : Accepted b ops → Accepted b (.compute fitness cs :: ops)
  | population {b ops} : Accepted b ops → Accepted b (.population :: ops)

/-- The estimators of all tasks are as new ones: no productivity and no mode was set. -/
def PlainEstimators (ops : List (Op P G C S F)) : Prop := ∀ t, Op.task t ∈ ops → ∀ e, t.estimator = some e → e = .new

private def FreshPool (s : State P G) : Prop := ∀ tb, s.pool = some tb → ∃ t g, s.task = some t ∧ s.settings = some g ∧
  tb = ⟨t.problem, .new, g.params, g.parentTime.getD 0⟩

private theorem ensurePool_spec {s : State P G} (hs : FreshPool s) {s' : State P G}
    (he : ∀ t, s.task = some t → t.estimator = some .new) : s.ensurePool = some s' ↔
    ∃ t g, s.task = some t ∧ s.settings = some g ∧ s' = { s with pool := some ⟨t.problem, .new, g.params, g.parentTime.getD 0⟩ } := by
  obtain ⟨ta, gs, tb, pl⟩ := s
  unfold State.ensurePool
  cases pl with
  | some tb =>
    obtain ⟨t, g, h1, h2, h3⟩ := hs tb rfl
    dsimp only at h1 h2
    subst h1 h2 h3
    constructor
    · intro h
      cases h
      exact ⟨t, g, rfl, rfl, rfl⟩
    · rintro ⟨t', g', h1, h2, rfl⟩
      cases h1; cases h2
      rfl
  | none =>
    dsimp only
    cases ta with
    | none => simp
    | some t => cases gs <;> simp [he t rfl, recreate, eq_comm]

/-- The multiprocessing backend gives the right values, and the same as the default one, for every sequence of operations it accepts, if nothing was set on the
estimators. -/
theorem multi_right_partial (valid : Toolbox P G → C → Bool) (decode : Toolbox P G → C → S) (ops : List (Op P G C S F))
    (hacc : Accepted false ops) (hplain : PlainEstimators ops) (r : List (List F)) :
    (run (State.stepMulti valid decode) .new ops = some r ↔ Right valid decode none none ops r) ∧
      run (State.stepMulti valid decode) .new ops = run (State.stepDefault valid decode) .new ops := by
  suffices h : ∀ (ops : List (Op P G C S F)) (s : State P G) (r : List (List F)), Accepted s.task.isSome ops → PlainEstimators ops →
      (∀ t, s.task = some t → t.estimator = some .new) → Fresh s → FreshPool s →
      (run (State.stepMulti valid decode) s ops = some r ↔ Right valid decode s.task s.settings ops r) by
    have h1 : ∀ r, run (State.stepMulti valid decode) .new ops = some r ↔ Right valid decode none none ops r := fun r =>
      h ops .new r hacc hplain (fun _ h => by cases h) (fun _ h => by cases h) (fun _ h => by cases h)
    refine ⟨h1 r, Option.ext fun r => ?_⟩
    rw [h1, default_right]
  clear hacc hplain r ops
  intro ops
  induction ops with
  | nil =>
    intro s r _ _ _ _ _
    obtain ⟨ta, gs, tb0, pl⟩ := s
    constructor
    · intro h; cases h; exact .nil
    · intro h; cases h; rfl
  | cons op ops ih =>
    intro s r hacc hp he hs hsp
    obtain ⟨ta, gs, tb0, pl⟩ := s
    dsimp only at hacc he ⊢
    have hp' : PlainEstimators ops := fun t ht => hp t (List.mem_cons_of_mem _ ht)
    unfold run
    cases hacc with
    | @task _ t _ het hacc =>
      have := ih ⟨some t, gs, none, none⟩ r hacc hp' (fun t' h => by
        cases h
        obtain ⟨e, he⟩ := Option.isSome_iff_exists.1 het
        rw [he, hp _ (List.mem_cons_self ..) e he]) (fun _ h => by cases h) (fun _ h => by cases h)
      simp only [State.stepMulti, Option.bind_some, List.nil_append, Option.map_id']
      rw [this]
      exact ⟨.task, fun h => by cases h; assumption⟩
    | @settings _ g _ hg hacc =>
      have := ih ⟨ta, some g, none, none⟩ r hacc hp' he (fun _ h => by cases h) (fun _ h => by cases h)
      have hno : ¬ (g.initial = true ∧ ta.isNone = true) := by
        rintro ⟨h1, h2⟩
        have := hg h1
        cases ta <;> simp_all
      simp only [State.stepMulti, if_neg hno, Option.bind_some, List.nil_append, Option.map_id']
      rw [this]
      exact ⟨.settings, fun h => by cases h; assumption⟩
    | @compute _ fitness cs _ hacc =>
      simp only [State.stepMulti, Option.bind_eq_some_iff, Option.map_eq_some_iff]
      have hval : ∀ t g, ta = some t → evaluate valid decode ⟨t.problem, .new, g.params, g.parentTime.getD 0⟩ = scheduleOf valid decode t g :=
        fun t g ht => by
          funext c
          unfold evaluate scheduleOf
          rw [he t ht]
          rfl
      constructor
      · rintro ⟨_, ⟨s', hen, tb, htb, rfl⟩, r', hr', rfl⟩
        obtain ⟨t, g, ht, hg, rfl⟩ := (ensurePool_spec hsp he).1 hen
        cases htb
        dsimp only at ht hg
        subst ht hg
        rw [hval t g rfl]
        refine .compute ((ih ⟨some t, some g, tb0, some _⟩ _ hacc hp' he hs ?_).1 hr')
        intro tb h
        cases h
        exact ⟨t, g, rfl, rfl, rfl⟩
      · intro h
        cases h with
        | @compute t g _ _ _ r' h =>
          refine ⟨_, ⟨_, (ensurePool_spec hsp he).2 ⟨t, g, rfl, rfl, rfl⟩, _, rfl, rfl⟩, r', ?_, by rw [hval t g rfl]; rfl⟩
          refine (ih ⟨some t, some g, tb0, some _⟩ _ hacc hp' he hs ?_).2 h
          intro tb h
          cases h
          exact ⟨t, g, rfl, rfl, rfl⟩
    | @population _ _ hacc =>
      simp only [State.stepMulti, Option.bind_eq_some_iff, Option.map_eq_some_iff]
      constructor
      · rintro ⟨_, ⟨s1, hen1, s', hen, rfl⟩, r', hr', rfl⟩
        obtain ⟨t, g, ht, hg, rfl⟩ := (ensure_spec hs).1 hen1
        obtain ⟨t', g', ht', hg', rfl⟩ := (ensurePool_spec (s := ⟨_, _, some _, pl⟩) hsp he).1 hen
        dsimp only at ht hg ht' hg'
        subst ht hg
        cases ht'
        cases hg'
        refine .population ((ih ⟨some t, some g, some _, some _⟩ _ hacc hp' he ?_ ?_).1 hr')
        · intro tb h
          cases h
          exact ⟨t, g, rfl, rfl, rfl⟩
        · intro tb h
          cases h
          exact ⟨t, g, rfl, rfl, rfl⟩
      · intro h
        cases h with
        | @population t g _ r' h =>
          refine ⟨_, ⟨_, (ensure_spec hs).2 ⟨t, g, rfl, rfl, rfl⟩, _,
            (ensurePool_spec (s := ⟨_, _, some _, pl⟩) hsp he).2 ⟨t, g, rfl, rfl, rfl⟩, rfl⟩, r, ?_, rfl⟩
          refine (ih _ _ hacc hp' he ?_ ?_).2 h
          · intro tb h
            cases h
            exact ⟨t, g, rfl, rfl, rfl⟩
          · intro tb h
            cases h
            exact ⟨t, g, rfl, rfl, rfl⟩

/-- A project of one work by one worker of kind 0, done by workers of contractor 0; the finish time is the estimated time. -/
private def demoTime (tb : Toolbox Unit Unit) (_ : Unit) : Option Int :=
  estimateWith tb.est.mode tb.est.table (fun _ => ⟨0, 0⟩) [⟨0, 8, 1, 1⟩] [⟨0, 0, 1⟩]

/-- An estimator with productivity 2 of kind 0. -/
private def demoEst : Est := ⟨.static, fun k => if k = 0 then some (.gaussian 2 0 none none, fun _ => none) else none⟩

private def demoOps (e : Option Est) : List (Op Unit Unit Unit (Option Int) (Option Int)) :=
  [.task ⟨(), e⟩, .settings ⟨(), none, true⟩, .compute (fun ev c => (ev c).join) [()], .population, .compute (fun ev c => (ev c).join) [(), ()]]

example : Accepted false (demoOps (some .new)) ∧ PlainEstimators (demoOps (some .new)) ∧
    Right (fun _ _ => true) demoTime none none (demoOps (some .new)) [[some 8], [some 8, some 8]] := by
  refine ⟨.task rfl (.settings (fun _ => rfl) (.compute (.population (.compute .nil)))), ?_, ?_⟩
  · intro t ht e he
    simp only [demoOps, List.mem_cons, List.not_mem_nil, or_false, Op.task.injEq, reduceCtorEq] at ht
    subst ht
    cases he
    rfl
  · rw [← default_right]
    decide +kernel

/-- Not proved because false: the multiprocessing backend gives the values of the default one.  Productivities set on the estimator do not reach its processes: a
work that takes 4 is evaluated as taking 8. -/
theorem set_productivity_lost :
    run (State.stepDefault (fun _ _ => true) demoTime) .new (demoOps (some demoEst)) = some [[some 4], [some 4, some 4]] ∧
    run (State.stepMulti (fun _ _ => true) demoTime) .new (demoOps (some demoEst)) = some [[some 8], [some 8, some 8]] := by
  constructor <;> decide +kernel

/-- Whatever was set on the estimator, the multiprocessing backend computes with a new one: two tasks that differ in their estimators only get the same values. -/
theorem estimator_ignored (valid : Toolbox P G → C → Bool) (decode : Toolbox P G → C → S) (p : P) (e e' : Est) (g : Settings G)
    (fitness : (C → Option S) → C → F) (cs : List C) :
    run (State.stepMulti valid decode) .new [.task ⟨p, some e⟩, .settings g, .compute fitness cs] =
      run (State.stepMulti valid decode) .new [.task ⟨p, some e'⟩, .settings g, .compute fitness cs] := by
  simp [run, State.stepMulti, State.ensurePool, recreate]

/-- Without an estimator the default backend takes a new one, the multiprocessing backend raises. -/
theorem no_estimator (valid : Toolbox P G → C → Bool) (decode : Toolbox P G → C → S) (p : P) (g : Settings G)
    (fitness : (C → Option S) → C → F) (cs : List C) :
    run (State.stepDefault valid decode) .new [.task ⟨p, none⟩, .settings g, .compute fitness cs] =
      some [cs.map (fitness (scheduleOf valid decode ⟨p, some .new⟩ g))] ∧
    run (State.stepMulti valid decode) .new [.task ⟨p, none⟩, .settings g, .compute fitness cs] = none := by
  constructor
  · rfl
  · simp [run, State.stepMulti, State.ensurePool, State.new]

/-! ### First populations -/

/-- The first population of the default backend: as many individuals as drawn, each an initial schedule or a randomized one. -/
theorem default_population (initial : List (Option (C × Nat))) (topological lft : Nat → C) (n : Nat) (picked : List Nat) (pop : List C)
    (h : firstDefault false initial topological lft n picked = some pop) : pop.length = picked.length ∧
      (∀ i (hi : i < pop.length) k, picked[i]? = some k →
        (∀ c w, initial[k]? = some (some (c, w)) → pop[i] = c) ∧ (k = initial.length → pop[i] = topological i) ∧
        (initial.length < k → pop[i] = lft i)) := by
  unfold firstDefault at h
  simp only [Bool.false_eq_true, if_false, Option.bind_eq_some_iff] at h
  obtain ⟨ini, hini, h⟩ := h
  split at h
  · exact absurd h (by simp)
  cases h
  have hmap : initial = ini.map some := by
    clear * - hini
    induction initial generalizing ini with
    | nil => simp at hini; subst hini; rfl
    | cons a l ih =>
      rw [List.mapM_cons] at hini
      simp only [id, Option.bind_eq_bind, Option.bind_eq_some_iff, Option.pure_def, Option.some.injEq] at hini
      obtain ⟨x, rfl, l', hl', rfl⟩ := hini
      rw [ih l' hl', List.map_cons]
  subst hmap
  refine ⟨by simp, fun i hi k hk => ?_⟩
  have hi' : i < picked.length := by simpa using hi
  rw [List.getElem?_eq_getElem hi', Option.some.injEq] at hk
  rw [List.getElem_mapIdx, hk]
  refine ⟨fun c w hc => ?_, fun hk' => ?_, fun hk' => ?_⟩
  · rw [List.getElem?_map, Option.map_eq_some_iff] at hc
    obtain ⟨x, hx, hx'⟩ := hc
    cases hx'
    have hlt : k < ini.length := by
      by_contra hc
      rw [List.getElem?_eq_none (by omega)] at hx
      exact absurd hx (by simp)
    rw [if_pos hlt, hx]
    rfl
  · rw [List.length_map] at hk'
    rw [if_neg (by omega), if_pos hk']
  · rw [List.length_map] at hk'
    rw [if_neg (by omega), if_neg (by omega)]

/-- With LFT initialization only: randomized LFT individuals and, last, the one of LFT; as many as asked for, if any are asked for. -/
theorem lft_population (c : C × Nat) (initial : List (Option (C × Nat))) (topological lft : Nat → C) (n : Nat) (hn : 0 < n) (picked : List Nat) :
    ∃ pop, firstDefault true (some c :: initial) topological lft n picked = some pop ∧ pop.length = n ∧ pop.getLast? = some c.1 ∧
      ∀ x ∈ pop, x = c.1 ∨ ∃ i, x = lft i := by
  refine ⟨(List.range (n - 1)).map lft ++ [c.1], rfl, by simp; omega, by simp, fun x hx => ?_⟩
  rcases List.mem_append.1 hx with hx | hx
  · obtain ⟨i, _, rfl⟩ := List.mem_map.1 hx
    exact .inr ⟨i, rfl⟩
  · exact .inl (List.mem_singleton.1 hx)

/-- Not proved because false: a heuristic that finds no schedule is left out of the first population.  No population is made then, whatever the others found. -/
theorem failed_heuristic_raises (before after : List (Option (C × Nat))) (topological lft : Nat → C) (n : Nat) (picked : List Nat) :
    firstDefault false (before ++ none :: after) topological lft n picked = none := by
  unfold firstDefault
  have : (before ++ none :: after).mapM id = none := by
    induction before with
    | nil => simp
    | cons a l ih =>
      rw [List.cons_append, List.mapM_cons, ih]
      cases a <;> rfl
  simp [this]

private theorem multiCounts_six (n : Nat) (ws : List Nat) (hlen : ws.length = 6) (hpos : 0 < ws.sum) :
    ∃ counts, multiCounts n ws = some counts ∧ counts.length = 7 ∧ n ≤ counts.sum := by
  unfold multiCounts
  rw [hlen]
  set c := if 0 < n / 3 / 6 then n / 3 / 6 else 1 with hc
  have hc0 : 0 < c := by rw [hc]; split <;> omega
  have hsum : (ws.map fun w => c * w).sum = c * ws.sum := by
    rw [List.sum_map_mul_left, List.map_id']
  dsimp only
  have hcs : 0 < c * ws.sum := Nat.mul_pos hc0 hpos
  rw [hsum, if_neg (by omega)]
  refine ⟨_, rfl, by simp [hlen], ?_⟩
  rw [List.sum_append, List.sum_map_mul_right, List.map_id', hsum, List.sum_singleton]
  have hdiv : c * 6 ≤ c * ws.sum * ((c * 6 + c * ws.sum - 1) / (c * ws.sum)) := by
    have h1 := Nat.div_add_mod (c * 6 + c * ws.sum - 1) (c * ws.sum)
    have h2 := Nat.mod_lt (c * 6 + c * ws.sum - 1) hcs
    omega
  split <;> omega

/-- Six weights, not all zero, or none at all: the kinds of the first population of the multiprocessing backend can be drawn, for every size. -/
theorem multi_population_drawn (n : Nat) (weights : Option (List Nat))
    (h : ∀ ws, weights = some ws → ws = [] ∨ ws.length = 6 ∧ 0 < ws.sum) : ∃ urn, multiUrn n weights = some urn := by
  have : ∃ counts, multiCounts n (multiWeights weights) = some counts ∧ counts.length = 7 ∧ n ≤ counts.sum := by
    rcases weights with _ | ws
    · exact multiCounts_six n _ rfl (by decide)
    · rcases h ws rfl with rfl | ⟨h6, hpos⟩
      · exact multiCounts_six n _ rfl (by decide)
      · have : multiWeights (some ws) = ws := by cases ws <;> simp_all [multiWeights]
        rw [this]
        exact multiCounts_six n ws h6 hpos
  obtain ⟨counts, hc, hl, hs⟩ := this
  exact ⟨_, by unfold multiUrn; rw [hc, Option.bind_some, if_pos ⟨hl, hs⟩]⟩

/-- Not proved because false: weights the genetic scheduler accepts can be used with the multiprocessing backend.  The scheduler needs seven, the backend six. -/
theorem own_weights_raise (n : Nat) (ws used : List Nat) (h : schedulerWeights (some ws) = some used) : multiUrn n (some ws) = none := by
  unfold schedulerWeights at h
  dsimp only at h
  split at h
  · rename_i h7
    have hw : multiWeights (some ws) = ws := by cases ws <;> simp_all [multiWeights]
    unfold multiUrn
    rw [hw]
    unfold multiCounts
    set c := if 0 < n / 3 / ws.length then n / 3 / ws.length else 1
    dsimp only
    split
    · rfl
    · rw [Option.bind_some, if_neg]
      simp only [List.length_append, List.length_map, List.length_singleton]
      omega
  · exact absurd h (by simp)

/-- Not proved because false: the individuals made from heuristics by the multiprocessing backend can be decoded.  Their works are in reverse order: if the order of
the heuristic is correct and some work in it has a predecessor, the individual is not correct and has no schedule. -/
theorem heuristic_individuals_incorrect (parents : Nat → List Nat) (hself : ∀ v, v ∉ parents v) (prio : Nat → Int)
    (heuristic : Nat → Option (List Nat)) (randomized : List Nat) (kind : Nat) (hk : kind < 6) (order : List Nat) (ho : heuristic kind = some order)
    (hnd : order.Nodup) (hok : GeneticRes.orderCorrect parents prio order = true) {v p : Nat} (hv : v ∈ order) (hp : p ∈ parents v) :
    ∃ found, multiOrder heuristic randomized kind = some found ∧ GeneticRes.orderCorrect parents prio found = false := by
  refine ⟨order.reverse, by unfold multiOrder; rw [if_pos hk, ho]; rfl, ?_⟩
  rw [Bool.eq_false_iff]
  intro hrev
  rw [C27.order_check_exact parents hself] at hok hrev
  obtain ⟨a, b, hab⟩ := List.append_of_mem hv
  have h1 := (hok a v b hab p hp).1
  have h2 := (hrev b.reverse v a.reverse (by rw [hab]; simp) p hp).1
  rw [hab] at hnd
  have := List.nodup_append.1 hnd
  exact this.2.2 p h1 p (List.mem_cons_of_mem _ (List.mem_reverse.1 h2)) rfl

/-- A population of the multiprocessing backend has an individual for every kind drawn; a heuristic that found no schedule makes it raise if it is drawn, and only then. -/
theorem multi_population (heuristic : Nat → Option (List Nat)) (randomized : Nat → List Nat) (picked : List Nat) :
    (∃ pop, firstMulti heuristic randomized picked = some pop ∧ pop.length = picked.length) ∨
      firstMulti heuristic randomized picked = none ∧ ∃ k ∈ picked, k < 6 ∧ heuristic k = none := by
  suffices h : ∀ (l : List (Option (List Nat))), (∃ pop, l.mapM id = some pop ∧ pop.length = l.length) ∨ l.mapM id = none ∧ none ∈ l by
    rcases h (picked.mapIdx fun i k => multiOrder heuristic (randomized i) k) with ⟨pop, hp, hl⟩ | ⟨hn, hm⟩
    · exact .inl ⟨pop, hp, by rw [hl, List.length_mapIdx]⟩
    · refine .inr ⟨hn, ?_⟩
      obtain ⟨i, hi, he⟩ := List.mem_mapIdx.1 hm
      refine ⟨picked[i], List.getElem_mem hi, ?_⟩
      unfold multiOrder at he
      split at he
      · exact ⟨by assumption, by simpa using he⟩
      · exact absurd he (by simp)
  intro l
  induction l with
  | nil => exact .inl ⟨[], rfl, rfl⟩
  | cons a l ih =>
    rw [List.mapM_cons]
    cases a with
    | none => exact .inr ⟨rfl, List.mem_cons_self ..⟩
    | some a =>
      rcases ih with ⟨pop, hp, hl⟩ | ⟨hn, hm⟩
      · exact .inl ⟨a :: pop, by rw [hp]; rfl, by simp [hl]⟩
      · exact .inr ⟨by rw [hn]; rfl, List.mem_cons_of_mem _ hm⟩

/-- Two works, the second after the first: the order of the heuristic is correct, that of the individual is not. -/
example : GeneticRes.orderCorrect (fun v => if v = 1 then [0] else []) (fun _ => 0) [0, 1] = true ∧
    multiOrder (fun _ => some [0, 1]) [0, 1] 0 = some [1, 0] ∧
    GeneticRes.orderCorrect (fun v => if v = 1 then [0] else []) (fun _ => 0) [1, 0] = false ∧
    multiOrder (fun _ => some [0, 1]) [0, 1] 6 = some [0, 1] := by decide

example : multiUrn 9 none = some [0, 0, 1, 1, 2, 3, 4, 5, 6, 6, 6] ∧ schedulerWeights (some [1, 1, 1, 1, 1, 1, 1]) = some [1, 1, 1, 1, 1, 1, 1] ∧
    multiUrn 9 (some [1, 1, 1, 1, 1, 1, 1]) = none ∧
    firstDefault false [some (10, 2), some (11, 1)] (fun _ => 12) (fun _ => 13) 6 [0, 3, 2, 1, 3, 3] = some [10, 13, 12, 11, 13, 13] := by decide +kernel

end Sampo.C88
