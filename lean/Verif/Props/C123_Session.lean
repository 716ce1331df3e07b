import Verif.Spec.Session
import Mathlib.Data.List.Infix

/-!
# C123: a pipeline object that is used more than once
-/

namespace Sampo.C123
open Session Pipeline

variable {γ σ ω α S L E : Type} {reqsOf : γ → List (List WorkerReq)} {restructure : γ → Bool → Option γ}

private theorem latest_cons {κ β : Type} (f : κ → Option β) (d : β) (c : κ) (cs : List κ) :
    latest f d (c :: cs) = latest f ((f c).getD d) cs := by
  unfold latest
  cases h : f c with
  | none => rw [List.filterMap_cons_none h]; rfl
  | some x =>
    rw [List.filterMap_cons_some h, List.getLast?_cons]
    rfl

/-- All fields but the contractors and the orders, which are set by settings only. -/
private structure Same (s : Input γ ω α S L E) (d : Input γ ω α S L E) (calls : List (Call γ ω α S L E)) : Prop where
  wg : s.wg = latest Call.wg? d.wg calls
  landscape : s.landscape = latest Call.landscape? d.landscape calls
  spec : s.spec = latest Call.spec? d.spec calls
  shift : s.shift = latest Call.timeShift? d.shift calls
  lag : s.lag = latest Call.lag? d.lag calls
  stack : s.stack = d.stack ++ calls.filterMap Call.optimizer?

private theorem schedule_keeps (m : Method γ σ ω α S L) (s : Input γ ω α S L E) :
    (s.schedule reqsOf restructure m).1.wg = s.wg ∧ (s.schedule reqsOf restructure m).1.landscape = s.landscape ∧
    (s.schedule reqsOf restructure m).1.spec = s.spec ∧ (s.schedule reqsOf restructure m).1.shift = s.shift ∧
    (s.schedule reqsOf restructure m).1.lag = s.lag ∧ (s.schedule reqsOf restructure m).1.stack = s.stack := by
  unfold Input.schedule
  repeat' split
  all_goals exact ⟨rfl, rfl, rfl, rfl, rfl, rfl⟩

private theorem same (h : List (Step γ σ ω α S L E)) (d : Input γ ω α S L E) : Same (after reqsOf restructure d h) d (settings h) := by
  induction h generalizing d with
  | nil => exact ⟨rfl, rfl, rfl, rfl, rfl, (List.append_nil _).symm⟩
  | cons x h ih =>
    cases x with
    | schedule m =>
      obtain ⟨h1, h2, h3, h4, h5, h6⟩ := schedule_keeps (reqsOf := reqsOf) (restructure := restructure) m d
      obtain ⟨i1, i2, i3, i4, i5, i6⟩ := ih (d.schedule reqsOf restructure m).1
      rw [h1] at i1; rw [h2] at i2; rw [h3] at i3; rw [h4] at i4; rw [h5] at i5; rw [h6] at i6
      exact ⟨i1, i2, i3, i4, i5, i6⟩
    | set c =>
      obtain ⟨i1, i2, i3, i4, i5, i6⟩ := ih (d.set c)
      have hs : settings (Step.set c :: h : List (Step γ σ ω α S L E)) = c :: settings h := rfl
      refine ⟨?_, ?_, ?_, ?_, ?_, ?_⟩
      · rw [hs, latest_cons, after, i1]; cases c <;> rfl
      · rw [hs, latest_cons, after, i2]; cases c <;> rfl
      · rw [hs, latest_cons, after, i3]; cases c <;> rfl
      · rw [hs, latest_cons, after, i4]; cases c <;> rfl
      · rw [hs, latest_cons, after, i5]; cases c <;> rfl
      · rw [hs, after, i6, List.filterMap_cons]
        cases c with
        | optimizeLocal a => exact List.append_assoc _ _ _
        | _ => rfl

/-- A call of `schedule` is the intended one for the graph and contractors of the object. -/
private theorem outcome (m : Method γ σ ω α S L) (s : Input γ ω α S L E) : (s.schedule reqsOf restructure m).2 =
    match s.wg with
    | none => .error
    | some g => Pipeline.schedule reqsOf restructure (m ⟨s.spec, s.landscape, s.shift, s.stack⟩) g s.contractors s.lag := by
  unfold Input.schedule Pipeline.schedule
  cases s.wg with
  | none => rfl
  | some g =>
    dsimp only
    cases contractorsOf (reqsOf g) s.contractors with
    | none => rfl
    | some cs =>
      dsimp only
      cases canPerformGraph cs (reqsOf g) with
      | none => rfl
      | some b =>
        cases b with
        | false => rfl
        | true =>
          dsimp only
          cases chooseGraph restructure (m ⟨s.spec, s.landscape, s.shift, s.stack⟩ cs) g s.lag <;> rfl

private theorem run (spec : S) (landscape : L) (estimator : E) (h : List (Step γ σ ω α S L E)) (m : Method γ σ ω α S L)
    (hc : (after reqsOf restructure (new spec landscape estimator) h).contractors =
      latest Call.contractors? (.generate .avg 1 1) (settings h)) :
    ((after reqsOf restructure (new spec landscape estimator) h).schedule reqsOf restructure m).2 =
      intended reqsOf restructure spec landscape (settings h) m := by
  obtain ⟨h1, h2, h3, h4, h5, h6⟩ := same (reqsOf := reqsOf) (restructure := restructure) h (new spec landscape estimator)
  rw [outcome, h1, h2, h3, h4, h5, h6, hc]
  rfl

private theorem settings_map (calls : List (Call γ ω α S L E)) :
    settings (calls.map Step.set : List (Step γ σ ω α S L E)) = calls := by
  unfold settings
  rw [List.filterMap_map]
  exact List.filterMap_some

private theorem sets_contractors (calls : List (Call γ ω α S L E)) (d : Input γ ω α S L E) :
    (after reqsOf restructure d (calls.map (Step.set (σ := σ)))).contractors = latest Call.contractors? d.contractors calls := by
  induction calls generalizing d with
  | nil => rfl
  | cons c calls ih =>
    rw [latest_cons, List.map_cons, after, ih]
    cases c <;> rfl

private theorem list_stays {cs : List Contractor} (h : List (Step γ σ ω α S L E)) (d : Input γ ω α S L E)
    (hl : latest Call.contractors? d.contractors (settings h) = .list cs) : (after reqsOf restructure d h).contractors = .list cs := by
  induction h generalizing d with
  | nil => exact hl
  | cons x h ih =>
    cases x with
    | set c =>
      have hs : settings (Step.set c :: h : List (Step γ σ ω α S L E)) = c :: settings h := rfl
      rw [hs, latest_cons] at hl
      rw [after]
      refine ih _ ?_
      rw [← hl]
      cases c <;> rfl
    | schedule m =>
      rw [after]
      refine ih _ ?_
      have hs : settings (Step.schedule m :: h : List (Step γ σ ω α S L E)) = settings h := rfl
      rw [hs] at hl
      cases hg : ((settings h).filterMap Call.contractors?).getLast? with
      | some g =>
        unfold latest at hl ⊢
        rw [hg] at hl ⊢
        exact hl
      | none =>
        have hd : d.contractors = .list cs := by unfold latest at hl; rw [hg] at hl; exact hl
        have : (d.schedule reqsOf restructure m).1.contractors = .list cs := by
          unfold Input.schedule
          rw [hd]
          repeat' split
          all_goals first | exact hd | skip
          all_goals simp_all [contractorsOf]
        rw [this]
        unfold latest
        rw [hg]
        rfl

private theorem after_append (h1 h2 : List (Step γ σ ω α S L E)) (d : Input γ ω α S L E) :
    after reqsOf restructure d (h1 ++ h2) = after reqsOf restructure (after reqsOf restructure d h1) h2 := by
  induction h1 generalizing d with
  | nil => rfl
  | cons x h1 ih => cases x <;> exact ih _

/-- Settings may be made in any order, and the last one of each counts: the first call of `schedule` does what the settings say. -/
theorem first_as_set (spec : S) (landscape : L) (estimator : E) (calls : List (Call γ ω α S L E)) (m : Method γ σ ω α S L) :
    ((after reqsOf restructure (new spec landscape estimator) (calls.map (Step.set (σ := σ)))).schedule reqsOf restructure m).2 =
      intended reqsOf restructure spec landscape calls m := by
  have h := run (reqsOf := reqsOf) (restructure := restructure) spec landscape estimator (calls.map (Step.set (σ := σ))) m
    (by rw [settings_map]; exact sets_contractors calls _)
  rw [settings_map] at h
  exact h

/-- After any steps, calls of `schedule` among them, `schedule` still does what all settings up to then say, as if it were called for the
first time, if the contractors set last are a list or were set after the last call of `schedule`.
Missing: contractors that are generated for the graph, see `again_fails`. -/
theorem again_partial (spec : S) (landscape : L) (estimator : E) (h : List (Step γ σ ω α S L E)) (m : Method γ σ ω α S L)
    (hc : (∃ cs, latest Call.contractors? (.generate .avg 1 1) (settings h) = .list cs) ∨
      ∃ h1 g, ∃ calls : List (Call γ ω α S L E), h = h1 ++ calls.map Step.set ∧ Call.contractors g ∈ calls) :
    ((after reqsOf restructure (new spec landscape estimator) h).schedule reqsOf restructure m).2 =
      intended reqsOf restructure spec landscape (settings h) m := by
  refine run spec landscape estimator h m ?_
  rcases hc with ⟨cs, hl⟩ | ⟨h1, g, calls, rfl, hg⟩
  · rw [hl]
    exact list_stays h _ hl
  · rw [after_append, sets_contractors]
    have hs : settings (h1 ++ calls.map (Step.set (σ := σ))) = settings h1 ++ calls := by
      have := settings_map (σ := σ) calls
      unfold settings at this ⊢
      rw [List.filterMap_append, this]
    rw [hs]
    unfold latest
    rw [List.filterMap_append]
    have hm : g ∈ calls.filterMap Call.contractors? := List.mem_filterMap.2 ⟨_, hg, rfl⟩
    have hne := List.ne_nil_of_mem hm
    rw [List.getLast?_append_of_ne_nil _ hne, List.getLast?_eq_some_getLast hne]
    rfl

/-- The estimator given to a pipeline has no influence on what is scheduled: schedulers use their own. -/
theorem estimator_unused (spec : S) (landscape : L) (e e' : E) (calls : List (Call γ ω α S L E)) (m : Method γ σ ω α S L) :
    ((after reqsOf restructure (new spec landscape e) ((calls ++ [Call.workEstimator e']).map (Step.set (σ := σ)))).schedule
      reqsOf restructure m).2 =
    ((after reqsOf restructure (new spec landscape e) (calls.map (Step.set (σ := σ)))).schedule reqsOf restructure m).2 := by
  rw [first_as_set, first_as_set]
  unfold intended latest
  have ho : [Call.workEstimator e' (γ := γ) (ω := ω) (α := α) (S := S) (L := L)].filterMap Call.optimizer? = [] := rfl
  simp only [List.filterMap_append, ho, List.append_nil]
  simp [Call.wg?, Call.spec?, Call.landscape?, Call.timeShift?, Call.contractors?, Call.lag?]

/-- Contractors that were generated for a graph are used for every later graph, too, until contractors are set again. -/
theorem generated_stay (s : Input γ ω α S L E) (m : Method γ σ ω α S L) {g : γ} {cs : List Contractor} (hw : s.wg = some g)
    (hg : contractorsOf (reqsOf g) s.contractors = some cs) (h : List (Step γ σ ω α S L E))
    (hn : ∀ c, Step.set (.contractors c) ∉ h) :
    (after reqsOf restructure s (.schedule m :: h)).contractors = .list cs := by
  have h1 : (s.schedule reqsOf restructure m).1.contractors = .list cs := by
    unfold Input.schedule
    rw [hw]
    dsimp only
    rw [hg]
    dsimp only
    repeat' split
    all_goals rfl
  rw [after]
  refine list_stays h _ ?_
  have h2 : (settings h).filterMap Call.contractors? = [] := by
    rw [List.filterMap_eq_nil_iff]
    intro c hc
    obtain ⟨x, hx, h3⟩ := List.mem_filterMap.1 hc
    cases x with
    | schedule _ => cases h3
    | set c' =>
      cases h3
      cases c with
      | contractors k => exact absurd hx (hn k)
      | _ => rfl
  unfold latest
  rw [h2]
  exact h1

/-! ### What `finish` returns -/

private theorem chosen_lengths {m : Scheduler γ σ ω} {g : γ} {lag : Lag} {c : Chosen γ σ ω} (h : chooseGraph restructure m g lag = some c) :
    c.schedules.length = c.orders.length := by
  cases lag with
  | on => obtain ⟨r, -, rfl⟩ := Option.map_eq_some_iff.1 h; simp
  | off => obtain ⟨r, -, rfl⟩ := Option.map_eq_some_iff.1 h; simp
  | auto =>
    unfold chooseGraph at h
    simp only [Option.bind_eq_some_iff] at h
    obtain ⟨_, _, s1, _, t1, _, _, _, s2, _, t2, _, h⟩ := h
    split at h <;> · cases h; simp

private theorem done {s : Input γ ω α S L E} {m : Method γ σ ω α S L} {cs : List Contractor} {c : Chosen γ σ ω}
    (h : (s.schedule reqsOf restructure m).2 = .done cs c) : (∃ g, s.wg = some g) ∧ c.schedules.length = c.orders.length ∧
      (s.schedule reqsOf restructure m).1 = { s with contractors := .list cs, orders := some c.orders } := by
  unfold Input.schedule at h ⊢
  split at h
  · cases h
  · rename_i g hg
    split at h
    · cases h
    · split at h
      · cases h
      · cases h
      · split at h
        · cases h
        · rename_i c' hc
          cases h
          exact ⟨⟨g, hg⟩, chosen_lengths hc, rfl⟩

/-- A step that leaves alone what `finish` looks at. -/
def Quiet : Step γ σ ω α S L E → Prop
  | .set (.wg _) | .set (.contractors _) | .set (.nodeOrder _) | .schedule _ => False
  | _ => True

private theorem quiet {h : List (Step γ σ ω α S L E)} (hq : ∀ x ∈ h, Quiet x) (s : Input γ ω α S L E) :
    (after reqsOf restructure s h).wg = s.wg ∧ (after reqsOf restructure s h).contractors = s.contractors ∧
      (after reqsOf restructure s h).orders = s.orders := by
  induction h generalizing s with
  | nil => exact ⟨rfl, rfl, rfl⟩
  | cons x h ih =>
    have hx := hq x List.mem_cons_self
    have hh := ih (fun y hy => hq y (List.mem_cons_of_mem _ hy))
    cases x with
    | schedule m => cases hx
    | set c =>
      rw [after]
      obtain ⟨h1, h2, h3⟩ := hh (s.set c)
      rw [h1, h2, h3]
      cases c with
      | wg _ => cases hx
      | contractors _ => cases hx
      | nodeOrder _ => cases hx
      | _ => exact ⟨rfl, rfl, rfl⟩

/-- `finish` returns one project for every schedule that was made, in order, each with the graph that was given, the graph that was
scheduled and the contractors that were used, as long as since then no graph, contractors or order was set and nothing else scheduled.
Missing: that it does so whatever happens to the input object in between, see `finish_fails`. -/
theorem finish_partial {s : Input γ ω α S L E} {m : Method γ σ ω α S L} {cs : List Contractor} {c : Chosen γ σ ω}
    (hd : (s.schedule reqsOf restructure m).2 = .done cs c) {h : List (Step γ σ ω α S L E)} (hq : ∀ x ∈ h, Quiet x) :
    Session.finish (after reqsOf restructure s (.schedule m :: h)) c =
      some (c.schedules.map fun x => ⟨s.wg, c.graph, .list cs, x⟩) := by
  obtain ⟨-, hl, h1⟩ := done hd
  rw [after]
  obtain ⟨h2, h3, h4⟩ := quiet (reqsOf := reqsOf) (restructure := restructure) hq (s.schedule reqsOf restructure m).1
  unfold Session.finish
  rw [h2, h3, h4, h1]
  dsimp only
  rw [Option.map_some]
  congr 1
  apply List.ext_getElem
  · simp [hl]
  · intro i h5 h6
    simp

private theorem zip_prefix {β : Type} (l : List σ) (o : List β) : (l.zip o).map Prod.fst <+: l := by
  induction l generalizing o with
  | nil => exact List.nil_prefix
  | cons x l ih =>
    cases o with
    | nil => exact List.nil_prefix
    | cons y o => exact (List.prefix_cons_inj x).2 (ih o)

/-- Whatever happens to the input object after a schedule was made: `finish` does not raise, the schedules of its projects are the first ones
of those that were made, in order, and have the graph that was scheduled. -/
theorem finish_own {s : Input γ ω α S L E} {m : Method γ σ ω α S L} {cs : List Contractor} {c : Chosen γ σ ω}
    (hd : (s.schedule reqsOf restructure m).2 = .done cs c) (h : List (Step γ σ ω α S L E)) :
    ∃ ps, Session.finish (after reqsOf restructure s (.schedule m :: h)) c = some ps ∧ ps.map (·.schedule) <+: c.schedules ∧
      ∀ p ∈ ps, p.rawWg = c.graph := by
  have hso : ∀ (h : List (Step γ σ ω α S L E)) (d : Input γ ω α S L E), (∃ o, d.orders = some o) →
      ∃ o, (after reqsOf restructure d h).orders = some o := by
    intro h
    induction h with
    | nil => exact fun _ h => h
    | cons x h ih =>
      rintro d ⟨o, ho⟩
      cases x with
      | set c =>
        rw [after]
        refine ih _ ?_
        cases c with
        | nodeOrder o' => exact ⟨o', rfl⟩
        | _ => exact ⟨o, ho⟩
      | schedule m =>
        rw [after]
        refine ih _ ?_
        unfold Input.schedule
        repeat' split
        all_goals first | exact ⟨o, ho⟩ | exact ⟨_, rfl⟩
  obtain ⟨-, -, h1⟩ := done hd
  obtain ⟨o, ho⟩ := hso h (s.schedule reqsOf restructure m).1 (by rw [h1]; exact ⟨_, rfl⟩)
  rw [after]
  unfold Session.finish
  rw [ho]
  refine ⟨_, rfl, ?_, ?_⟩
  · rw [List.map_map]
    show (c.schedules.zip o).map Prod.fst <+: c.schedules
    exact zip_prefix _ _
  · intro p hp
    obtain ⟨x, -, rfl⟩ := List.mem_map.1 hp
    rfl

/-! ### Sessions: a graph is the list of the requirements of its works -/

private abbrev Demo := Step (List (List WorkerReq)) Nat Unit Unit Unit Unit Unit
private def one : Method (List (List WorkerReq)) Nat Unit Unit Unit Unit := fun _ _ _ => some [(7, 5, ())]
private def two : Method (List (List WorkerReq)) Nat Unit Unit Unit Unit := fun _ _ _ => some [(1, 5, ()), (2, 6, ())]
private def small : List (List WorkerReq) := [[⟨0, 1, 1⟩]]
private def large : List (List WorkerReq) := [[⟨0, 4, 4⟩]]
private def start : Input (List (List WorkerReq)) Unit Unit Unit Unit Unit := new () () ()

/-- Not proved because false: `schedule` does what the settings up to then say.  After a small graph was scheduled with generated contractors, a
larger one is refused, although a new pipeline with the same settings does it. -/
theorem again_fails : ∃ (h : List Demo) (m : Method (List (List WorkerReq)) Nat Unit Unit Unit Unit) (cs : List Contractor)
    (c : Chosen (List (List WorkerReq)) Nat Unit),
    ((after id (fun _ _ => none) start h).schedule id (fun _ _ => none) m).2 = .refused ∧
      intended id (fun _ _ => none) () () (settings h) m = .done cs c :=
  ⟨[.set (.wg small), .schedule one, .set (.wg large)], one, [⟨0, [(0, 4)]⟩], ⟨large, [7], [()]⟩, by decide +kernel, by decide +kernel⟩

/-- Not proved because false: `finish` returns a project for every schedule that was made, with the graph and the contractors.  Of two schedules
only one is left after something else was scheduled with the same input object, and it is presented with the other graph and with
contractors that had no part in it. -/
theorem finish_fails : ∃ (h h' : List Demo) (m : Method (List (List WorkerReq)) Nat Unit Unit Unit Unit) (cs : List Contractor)
    (c : Chosen (List (List WorkerReq)) Nat Unit),
    ((after id (fun _ _ => none) start h).schedule id (fun _ _ => none) m).2 = .done cs c ∧ c.schedules = [1, 2] ∧
      ∃ p other, Session.finish (after id (fun _ _ => none) start (h ++ .schedule m :: h')) c = some [p] ∧ p.schedule = 1 ∧
        p.wg ≠ some c.graph ∧ p.contractors = .list other ∧ ∀ x ∈ other, x ∉ cs :=
  ⟨[.set (.wg small)], [.set (.wg large), .set (.contractors (.list [⟨9, [(0, 8)]⟩])), .schedule one], two, [⟨0, [(0, 1)]⟩],
    ⟨small, [1, 2], [(), ()]⟩, by decide +kernel, rfl, ⟨some large, small, .list [⟨9, [(0, 8)]⟩], 1⟩, [⟨9, [(0, 8)]⟩], by decide +kernel, rfl,
    by decide, rfl, by decide⟩

example : ((after id (fun _ _ => none) start ([.spec (), .wg small, .lagOptimize .on, .wg large].map (Step.set (σ := Nat)))).schedule id
    (fun _ _ => none) one).2 = .done [⟨0, [(0, 4)]⟩] ⟨large, [7], [()]⟩ := by
  rw [show start = new () () () from rfl, first_as_set]
  decide +kernel

example := again_partial (reqsOf := id) (restructure := fun _ _ => none) () () ()
  ([.set (.wg small), .set (.contractors (.list [⟨0, [(0, 4)]⟩])), .schedule two, .set (.wg large)] : List Demo) one (.inl ⟨_, rfl⟩)

example := finish_partial (s := after id (fun _ _ => none) start ([.set (.wg small)] : List Demo)) (m := two) (cs := [⟨0, [(0, 1)]⟩])
  (c := ⟨small, [1, 2], [(), ()]⟩) (reqsOf := id) (restructure := fun _ _ => none) (by decide +kernel) (h := [.set (.timeShift 4)])
  (by simp [Quiet])

end Sampo.C123
