import Verif.Lemmas.GenericLive
import Verif.Lemmas.Demo
import Verif.Props.C54_Delivers

/-! # C53: HEFT gives a work to the contractor that finishes it first

The generic scheduler asks the timeline when a work would finish with each contractor and takes the earliest.  Whether the chosen
contractor really is the one that finishes the work first depends on what the timeline reports. -/

namespace Sampo.C53
open Generic (Setup planMomentum planJIT askMomentum askJIT)

variable {σ : Type}

/-- The same input, except that only contractor `c` may do the work `v`. -/
def forced {S : Type} (G : Setup S) (v : Nat) (c : Contractor) : Setup S :=
  { G with spec := fun u => if u = v then { G.spec u with contractors := [c.id] } else G.spec u }

private theorem mkTime_eq {f : Int} (h : tIsInf (mkTime f) = false) : mkTime f = f := by
  have e : TIME_INF = 2000000000 := rfl
  unfold mkTime at h ⊢
  split_ifs at h ⊢ with h1 h2
  · simp [tIsInf, e] at h
  · simp [tIsInf, e] at h
  · rfl

private theorem reported_le {S : Type} {G : Setup S} {find : S → Nat → List Worker → Option (Int × Int)} {st : S} {v : Nat}
    (htime : ∀ st v t s f, find st v t = some (s, f) → IsTime f) {c' : Contractor} (hc' : C14.Admissible (G.spec v) c')
    {team team' : List Worker} {c k' : Nat} (h : Generic.choose G find st v = some (team, c))
    (h' : Generic.choose (forced G v c') find st v = some (team', k')) :
    ∃ s f s' f', find st v team = some (s, f) ∧ find st v team' = some (s', f') ∧ f ≤ f' ∧ tIsInf f = false ∧ tIsInf f' = false := by
  obtain ⟨s, f, k, hr, rfl⟩ := Generic.choose_search h
  obtain ⟨s', f', k', hr', rfl⟩ := Generic.choose_search h'
  obtain ⟨_, _, h3, h4⟩ := C16.chosen_contractor_enabled _ _ _ _ _ _ (fun c t s f hf => htime _ _ _ _ _ hf) _ _ _ _ hr
  obtain ⟨g1, g2, g3, g4⟩ := C16.chosen_contractor_enabled _ _ _ _ _ _ (fun c t s f hf => htime _ _ _ _ _ hf) _ _ _ _ hr'
  have g3' : runWithContractor (getPool G.contractors) G.parentTime (G.reqs v) (G.spec v) (G.opt st v k')
      (fun _ team => find st v team) k' = some (s', f', team') := by
    simpa [forced, runWithContractor] using g3
  have hadm : C14.Admissible (G.spec v) k' := by
    simp only [forced, C14.Admissible, if_true, reduceCtorEq, List.mem_singleton, false_or] at g2
    unfold C14.Admissible at hc' ⊢
    rw [g2]
    exact hc'
  refine ⟨s, f, s', f', (runWithContractor_spec h3 h4).2.1, (runWithContractor_spec g3' g4).2.1, ?_, h4, g4⟩
  have ht : ∀ c r, runWithContractor (getPool G.contractors) G.parentTime (G.reqs v) (G.spec v) (G.opt st v c)
      (fun _ team => find st v team) c = some r → IsTime r.2.1 := by
    intro c r hr
    unfold runWithContractor at hr
    dsimp only at hr
    split at hr
    · simp only [Option.some.injEq] at hr
      subst hr
      show IsTime timeInf
      decide
    · simp only [Option.bind_eq_some_iff, Option.some.injEq] at hr
      obtain ⟨t, _, p, h2, rfl⟩ := hr
      exact htime _ _ _ _ _ h2
  obtain ⟨_, _, l₁, l₂, _, hmem, _, _, b1, b2⟩ := C14.search_returns_best _ ht _ _ _ _ _ _ hr
  rcases List.mem_append.mp (hmem k' g1 hadm) with hm | hm
  · have := b1 k' hm s' f' team' g3' g4
    omega
  · rcases List.mem_cons.mp hm with rfl | hm
    · rw [h3] at g3'
      simp only [Option.some.injEq, Prod.mk.injEq] at g3'
      omega
    · have := b2 k' hm s' f' team' g3' g4
      omega

/-! ### Momentum timeline -/

/-- On a momentum timeline a work without a chain is placed exactly where the search reported it. -/
theorem momentum_report (E : Env σ) (hsite : NoSiteLimits E) (P : Plan (Momentum.State σ)) (inf : Int) (fuelIn fuel : Nat)
    (last : Bool) (st st' : Momentum.State σ) (v : Nat) (team : List Worker) (c : Nat) (hP : 0 ≤ P.parentTime)
    (hinf : P.parentTime ≤ inf ∧ minStart (E.edgesTo v) st.sched ≤ inf) (hts : P.assignedTimes v = none) (hchain : E.chain v = [v])
    (hch : P.choose st v = some (team, c)) (hne : team = [] → E.kinds v = []) (f : Momentum.Found)
    (hf : Momentum.find E st v team (P.independent v) none P.parentTime inf fuelIn fuel = some (some f))
    (h : Momentum.step E P inf fuelIn fuel false last st v = some (some st')) :
    st'.sched.get v = some ⟨f.start, f.finish, team, c⟩ := by
  have hge := Momentum.find_ge hf (by simp only [Momentum.parentTimeOf, Momentum.applySpec]; omega) (by simp)
  have hge' : P.parentTime ≤ f.start ∧ minStart (E.edgesTo v) st.sched ≤ f.start := by
    simp only [Momentum.parentTimeOf, Momentum.applySpec] at hge
    omega
  simp only [Momentum.step, hch, hf] at h
  split at h
  · simp at h
  · rename_i es hes
    have hes2 : es.2 = f.start := by
      unfold Momentum.startFor at hes
      dsimp only at hes
      split at hes
      · obtain ⟨s', t, h, hle⟩ := hsite.finish st.env
        rw [h] at hes
        simp only [Option.map_some, Option.some.injEq] at hes
        subst hes
        simp only [Bool.false_eq_true, if_false]
        omega
      · cases hes
        rfl
    have hmp : Momentum.parentTimeOf E st.sched (some es.2) P.parentTime v = f.start := by
      simp only [Momentum.parentTimeOf, Momentum.applySpec, hes2]
      omega
    simp only [Momentum.schedule, Option.map_eq_some_iff, hts, Option.getD_none] at h
    obtain ⟨o, ho, h⟩ := h
    simp only [Option.bind_eq_some_iff, Momentum.scheduleAt, Option.map_eq_some_iff] at h
    obtain ⟨g, rfl, r, hr, tl', htl, env', _, rfl⟩ := h
    have htimes := Momentum.find_times ho
    dsimp only at htimes
    rw [hmp, hchain] at htimes
    have hgs : g.start = f.start := by
      simp only [Momentum.find, hmp] at ho
      split at ho
      · simp only [Option.some.injEq] at ho
        subst ho
        have h1 := hsite.material es.1 v f.start
        have h2 := hsite.zone es.1 v f.start (Momentum.execTimes E st.sched [] (some es.2) P.parentTime f.start (E.chain v) 0).2
        dsimp only
        omega
      · simp only [Option.map_eq_some_iff, Momentum.findStart, Option.some.injEq] at ho
        obtain ⟨o, rfl, t, ht, rfl⟩ := ho
        simp only [Option.map_eq_some_iff] at ht
        obtain ⟨_, _, rfl⟩ := ht
        exact hes2
    have hff : f.finish = f.start + (if (E.kinds v).isEmpty then 0 else E.estimate v team) := by
      simp only [Momentum.find, hchain] at hf
      split at hf
      · simp only [Option.some.injEq] at hf
        subst hf
        rw [hne rfl]
        simp
      · simp only [Option.map_eq_some_iff] at hf
        obtain ⟨o, _, t, _, rfl⟩ := hf
        simp only [Momentum.execTimes]
        rw [if_neg (by omega)]
        omega
    simp only [Momentum.execTimes, hmp] at htimes
    rw [if_neg (by omega)] at htimes
    have hlook : Momentum.timesOf g.times v = some (0, if (E.kinds v).isEmpty then 0 else E.estimate v team) := by
      rw [htimes]
      simp [Momentum.timesOf]
    rw [hchain] at hr
    simp only [Momentum.placeChain, hlook, Option.getD_some, Option.bind_eq_some_iff, Option.some.injEq] at hr
    obtain ⟨d, hd, rfl⟩ := hr
    obtain ⟨s', t', hd', hle⟩ := hsite.deliver es.1 v (g.start + 0)
    rw [hd'] at hd
    simp only [Option.some.injEq] at hd
    subst hd
    dsimp only
    rw [get_cons, if_pos rfl, hff]
    have : max (g.start + 0) t' = f.start := by omega
    rw [this]

/-- On a momentum timeline no other admissible contractor of the list would have finished the work earlier, each with the team
which the resource optimizer forms for it. -/
theorem momentum_finishes_first (E : Env σ) (hsite : NoSiteLimits E) (G : Setup (Momentum.State σ)) (hG : Generic.Sound G)
    (inf : Int) (fuelIn fuel : Nat) (last : Bool) (st st' st'' : Momentum.State σ) (v : Nat)
    (hinf : G.parentTime ≤ inf ∧ minStart (E.edgesTo v) st.sched ≤ inf) (hchain : E.chain v = [v])
    (hkinds : E.kinds v = (G.reqs v).map (·.kind)) (c' : Contractor) (hc' : C14.Admissible (G.spec v) c')
    (h : Momentum.step E (planMomentum E G inf fuelIn fuel) inf fuelIn fuel false last st v = some (some st'))
    (h' : Momentum.step E (planMomentum E (forced G v c') inf fuelIn fuel) inf fuelIn fuel false last st v = some (some st'')) :
    ∃ x y, st'.sched.get v = some x ∧ st''.sched.get v = some y ∧ x.finish ≤ y.finish := by
  have key : ∀ (P : Plan (Momentum.State σ)) (st' : Momentum.State σ),
      Momentum.step E P inf fuelIn fuel false last st v = some (some st') → ∃ team c, P.choose st v = some (team, c) ∧
        ∃ f, Momentum.find E st v team (P.independent v) none P.parentTime inf fuelIn fuel = some (some f) := by
    intro P st' h
    simp only [Momentum.step] at h
    split at h
    · simp at h
    · rename_i r hr
      split at h
      · simp at h
      · simp at h
      · rename_i f hf
        exact ⟨r.1, r.2, hr, f, hf⟩
  have hempty : ∀ {c : Contractor} {team : List Worker}, C16.Meets c (G.reqs v) team → team = [] → E.kinds v = [] := by
    rintro c team hm rfl
    rw [hkinds]
    cases hr : G.reqs v with
    | nil => rfl
    | cons r rs => rw [hr] at hm; cases hm
  obtain ⟨team, c, hch, f, hf⟩ := key _ _ h
  obtain ⟨team', k', hch', f', hf'⟩ := key _ _ h'
  obtain ⟨k, _, hm, _⟩ := Generic.choose_ok hG Generic.momentum_time hch
  obtain ⟨k2, _, hm', _⟩ := Generic.choose_meets (G := forced G v c') hG.contractors (hG.reqs v) (by simp [forced, hG.free v])
    (fun c => (hG.opt st v c).1) Generic.momentum_time hch'
  obtain ⟨s, t, s', t', e1, e2, hle, i1, i2⟩ := reported_le (find := askMomentum E G inf fuelIn fuel) Generic.momentum_time hc' hch hch'
  have hx := momentum_report E hsite _ inf fuelIn fuel last st st' v team c hG.start hinf rfl hchain hch (hempty hm) f hf h
  have hy := momentum_report E hsite _ inf fuelIn fuel last st st'' v team' k' hG.start hinf rfl hchain hch' (hempty hm') f' hf' h'
  refine ⟨_, _, hx, hy, ?_⟩
  change Momentum.find E st v team (G.independent v) none G.parentTime inf fuelIn fuel = some (some f) at hf
  change Momentum.find E st v team' (G.independent v) none G.parentTime inf fuelIn fuel = some (some f') at hf'
  simp only [askMomentum, hf, Option.some.injEq, Prod.mk.injEq] at e1
  simp only [askMomentum, hf', Option.some.injEq, Prod.mk.injEq] at e2
  rw [← e1.2] at hle i1
  rw [← e2.2] at hle i2
  rw [mkTime_eq i1, mkTime_eq i2] at hle
  exact hle

/-! ### Just-in-time timeline -/

/-- On a just-in-time timeline the start reported by the search ignores the predecessors, and the reported finish counts them on
top of it: the work really starts when both its workers are free and its predecessors are done. -/
theorem jit_report (E : Env σ) (hsite : NoSiteLimits E) (P : Plan (JIT.State σ)) (fuel : Nat) (last : Bool)
    (st st' : JIT.State σ) (v : Nat) (team : List Worker) (c : Nat) (hst : st.sched ≠ []) (hts : P.assignedTimes v = none)
    (hchain : E.chain v = [v]) (hch : P.choose st v = some (team, c)) (f : Int × Int)
    (hf : JIT.find E st v team (P.independent v) P.parentTime fuel = some (some f))
    (h : JIT.step E P fuel false last st v = some (some st')) :
    f.2 = f.1 + max 0 (minStart (E.edgesTo v) st.sched) + E.estimate v team ∧
    st'.sched.get v = some ⟨max f.1 (minStart (E.edgesTo v) st.sched),
      max f.1 (minStart (E.edgesTo v) st.sched) + E.estimate v team, team, c⟩ := by
  have hf0 : 0 ≤ f.1 ∧ f.2 = f.1 + max 0 (minStart (E.edgesTo v) st.sched) + E.estimate v team := by
    unfold JIT.find at hf
    rw [if_neg (by simpa using hst)] at hf
    simp only [Option.map_eq_some_iff, hchain, JIT.chainDuration] at hf
    obtain ⟨o, ho, t, rfl, rfl⟩ := hf
    cases fuel with
    | zero => simp [JIT.findLoop] at ho
    | succ n =>
      simp only [JIT.findLoop] at ho
      split at ho
      · simp at ho
      · rename_i cur' hc'
        have h1 := hsite.material st.env v cur'
        have h2 := hsite.zone st.env v cur' (max 0 (minStart (E.edgesTo v) st.sched) + E.estimate v team)
        have h3 := JIT.findMinStart_le hc'
        rw [if_neg (by omega), if_neg (by omega)] at ho
        simp only [Option.some.injEq] at ho
        subst ho
        dsimp only
        constructor <;> omega
  refine ⟨hf0.2, ?_⟩
  simp only [JIT.step, hch, hf, Option.some.injEq, Option.bind_eq_some_iff, JIT.scheduleAt, Option.map_eq_some_iff, hts,
    Option.getD_none, hchain, JIT.placeChain] at h
  obtain ⟨es, hes, r, hr, tl', htl, env', _, rfl⟩ := h
  have hes2 : es.2 = f.1 := by
    unfold JIT.startFor at hes
    dsimp only at hes
    split at hes
    · obtain ⟨s', t, h, hle⟩ := hsite.finish st.env
      rw [h] at hes
      simp only [Option.map_some, Option.some.injEq] at hes
      subst hes
      simp only [Bool.false_eq_true, if_false]
      omega
    · cases hes
      rfl
  split at hr
  · simp only [Option.bind_eq_some_iff, Option.some.injEq] at hr
    obtain ⟨d, hd, rfl⟩ := hr
    obtain ⟨s', t', hd', hle⟩ := hsite.deliver es.1 v (max (es.2 + 0) (minStart (E.edgesTo v) st.sched))
    rw [hd'] at hd
    simp only [Option.some.injEq] at hd
    subst hd
    dsimp only
    rw [get_cons, if_pos rfl]
    have : max t' (max (es.2 + 0) (minStart (E.edgesTo v) st.sched)) = max f.1 (minStart (E.edgesTo v) st.sched) := by omega
    rw [this]
  · simp at hr

/-- On a just-in-time timeline the chosen contractor finishes first if its workers do not get free before the predecessors are
done.  Missing: all other cases, in which it is false (`jit_picks_later_finish`). -/
theorem jit_finishes_first_partial (E : Env σ) (hsite : NoSiteLimits E) (G : Setup (JIT.State σ))
    (fuel : Nat) (last : Bool) (st st' st'' : JIT.State σ) (v : Nat) (hst : st.sched ≠ []) (hchain : E.chain v = [v])
    (c' : Contractor) (hc' : C14.Admissible (G.spec v) c')
    (hbusy : ∀ team c f, (planJIT E G fuel).choose st v = some (team, c) →
      JIT.find E st v team (G.independent v) G.parentTime fuel = some (some f) → minStart (E.edgesTo v) st.sched ≤ f.1)
    (h : JIT.step E (planJIT E G fuel) fuel false last st v = some (some st'))
    (h' : JIT.step E (planJIT E (forced G v c') fuel) fuel false last st v = some (some st'')) :
    ∃ x y, st'.sched.get v = some x ∧ st''.sched.get v = some y ∧ x.finish ≤ y.finish := by
  have key : ∀ (P : Plan (JIT.State σ)) (st' : JIT.State σ),
      JIT.step E P fuel false last st v = some (some st') → ∃ team c, P.choose st v = some (team, c) ∧
        ∃ f, JIT.find E st v team (P.independent v) P.parentTime fuel = some (some f) := by
    intro P st' h
    simp only [JIT.step] at h
    split at h
    · simp at h
    · rename_i r hr
      split at h
      · simp at h
      · simp at h
      · rename_i f hf
        exact ⟨r.1, r.2, hr, f, hf⟩
  obtain ⟨team, c, hch, f, hf⟩ := key _ _ h
  obtain ⟨team', k', hch', f', hf'⟩ := key _ _ h'
  obtain ⟨s, t, s', t', e1, e2, hle, i1, i2⟩ := reported_le (find := askJIT E G fuel) Generic.jit_time hc' hch hch'
  obtain ⟨q1, hx⟩ := jit_report E hsite _ fuel last st st' v team c hst rfl hchain hch f hf h
  obtain ⟨q2, hy⟩ := jit_report E hsite _ fuel last st st'' v team' k' hst rfl hchain hch' f' hf' h'
  refine ⟨_, _, hx, hy, ?_⟩
  have hb := hbusy team c f hch hf
  change JIT.find E st v team (G.independent v) G.parentTime fuel = some (some f) at hf
  change JIT.find E st v team' (G.independent v) G.parentTime fuel = some (some f') at hf'
  simp only [askJIT, hf, Option.some.injEq, Prod.mk.injEq] at e1
  simp only [askJIT, hf', Option.some.injEq, Prod.mk.injEq] at e2
  rw [← e1.2] at hle i1
  rw [← e2.2] at hle i2
  rw [mkTime_eq i1, mkTime_eq i2] at hle
  dsimp only
  omega

/-! ### A project with two contractors -/

/-- Works: 0 start; 1 takes 10 and needs a worker of type 1; 3 takes 5 with a worker of type 0; 2 follows 1 and needs a worker of
type 0: contractor 7 needs 10 for it, contractor 8 needs 8; 4 finish. -/
private def env : Env Unit where
  edgesTo := fun v => if v = 0 then [] else if v = 2 then [(0, 0), (1, 0)] else if v = 4 then [(2, 0), (3, 0)] else [(0, 0)]
  insepParent := fun _ => none
  chain := fun v => [v]
  service := fun v => v == 0 || v == 4
  kinds := fun v => if v = 1 then [1] else if v = 2 ∨ v = 3 then [0] else []
  estimate := fun v team => if v = 1 then 10 else if v = 3 then 5 else
    if v = 2 then (if team.any fun w => w.contractor == 7 then 10 else 8) else 0
  matTime := fun _ _ t => t
  zoneTime := fun _ _ t _ => t
  deliver := fun s _ t => some (s, t)
  occupy := fun s _ _ _ => some s
  finishZones := fun s => some (s, 0)

/-- Contractor 8 has to do work 3. -/
private def setup (S : Type) : Setup S :=
  ⟨[⟨7, [(0, 1), (1, 1)]⟩, ⟨8, [(0, 1)]⟩], fun v => if v = 3 then ⟨[8], []⟩ else ⟨[], []⟩,
    fun v => if v = 1 then [⟨1, 1, 1⟩] else if v = 2 ∨ v = 3 then [⟨0, 1, 1⟩] else [],
    fun _ _ _ => Optimize.averageReq 1 1, fun _ => false, 0⟩

private def order : List Nat := [0, 1, 3, 2, 4]

private def finishJIT (G : Setup (JIT.State Unit)) : Option (Option (Option (Int × Nat))) :=
  (JIT.build env (planJIT env G 20) (LFT.agents G.contractors) () 20 order).map fun r => r.map fun st =>
    (st.sched.get 2).map fun x => (x.finish, x.contractor)

/-- Not proved because false: on a just-in-time timeline the scheduler gives work 2 to contractor 7, which finishes it at 20,
although contractor 8 would finish it at 18.  Contractor 8 is busy until 5 and the predecessor ends at 10; the search reports
5 + 10 + 8 for it, against 0 + 10 + 10. -/
theorem jit_picks_later_finish :
    C14.Admissible ((setup (JIT.State Unit)).spec 2) ⟨8, [(0, 1)]⟩ ∧
    finishJIT (setup _) = some (some (some (20, 7))) ∧
    finishJIT (forced (setup _) 2 ⟨8, [(0, 1)]⟩) = some (some (some (18, 8))) := by
  refine ⟨.inl rfl, ?_, ?_⟩ <;> decide +kernel

private def finishMomentum (G : Setup (Momentum.State Unit)) : Option (Option (Option (Int × Nat))) :=
  (Momentum.build env (planMomentum env G 1000 20 20) (LFT.agents G.contractors) () 1000 20 20 order).map fun r => r.map fun st =>
    (st.sched.get 2).map fun x => (x.finish, x.contractor)

/-- On a momentum timeline the same project gives the work to contractor 8, as `momentum_finishes_first` says; contractor 7 would
finish it at 20. -/
example : finishMomentum (setup _) = some (some (some (18, 8))) ∧
    finishMomentum (forced (setup _) 2 ⟨7, [(0, 1), (1, 1)]⟩) = some (some (some (20, 7))) := by
  constructor <;> decide +kernel

private theorem env_site : NoSiteLimits env where
  material := fun _ _ _ => le_rfl
  zone := fun _ _ _ _ => le_rfl
  deliver := fun s _ t => ⟨s, t, rfl, le_rfl⟩
  occupy := fun s _ _ _ => ⟨s, rfl⟩
  finish := fun s => ⟨s, 0, rfl, le_rfl⟩

private theorem setup_sound (S : Type) : Generic.Sound (setup S) where
  contractors := by simp [C16.SoundContractors, setup]
  reqs := fun v => by simp only [setup]; split_ifs <;> simp [C16.SoundReqs]
  kinds := fun v => by simp only [setup]; split_ifs <;> simp
  free := fun v => by simp only [setup]; split_ifs <;> rfl
  opt := fun _ _ _ => ⟨(C16.optimizers_stay_within fun _ => 0).2.2 1 1 (by decide) (by decide),
    (C54.optimizers_answer fun _ => 0).2.2 1 1 (by decide) (by decide)⟩
  able := fun v => by
    by_cases h : v = 3
    · subst h
      exact ⟨⟨8, [(0, 1)]⟩, by simp [setup], .inr (by simp [setup]), by simp [setup, Generic.Able]⟩
    · refine ⟨⟨7, [(0, 1), (1, 1)]⟩, by simp [setup], .inl (by simp [setup, h]), ?_⟩
      simp only [setup, Generic.Able]
      split_ifs <;> simp [List.lookup]
  start := by simp [setup]

private def reachedMomentum : Option (Momentum.State Unit) :=
  (Momentum.build env (planMomentum env (setup _) 1000 20 20) (LFT.agents (setup Unit).contractors) () 1000 20 20 [0, 1, 3]).join

private theorem reachedMomentum_ok : reachedMomentum.isSome = true := by decide +kernel

private def stateMomentum : Momentum.State Unit := reachedMomentum.get reachedMomentum_ok

private theorem exists_of_isSome {α : Type} {o : Option (Option α)} (h : o.map Option.isSome = some true) : ∃ a, o = some (some a) := by
  match o, h with
  | some (some a), _ => exact ⟨a, rfl⟩

/-- The state which the scheduler reaches before it places work 2 meets the hypotheses of `momentum_finishes_first`. -/
example : ∃ st, reachedMomentum = some st ∧ ∃ (st' st'' : Momentum.State Unit) (x y : SWork), Momentum.step env (planMomentum env (setup _) 1000 20 20) 1000 20 20
    false false st 2 = some (some st') ∧ st'.sched.get 2 = some x ∧ st''.sched.get 2 = some y ∧ x.finish ≤ y.finish := by
  have h1 : (Momentum.step env (planMomentum env (setup _) 1000 20 20) 1000 20 20 false false stateMomentum 2).map
      Option.isSome = some true := by decide +kernel
  have h2 : (Momentum.step env (planMomentum env (forced (setup _) 2 ⟨7, [(0, 1), (1, 1)]⟩) 1000 20 20) 1000 20 20 false false
      stateMomentum 2).map Option.isSome = some true := by decide +kernel
  have h3 : minStart (env.edgesTo 2) stateMomentum.sched ≤ 1000 := by decide +kernel
  obtain ⟨st', e1⟩ := exists_of_isSome h1
  obtain ⟨st'', e2⟩ := exists_of_isSome h2
  obtain ⟨x, y, hx, hy, hle⟩ := momentum_finishes_first env env_site (setup _) (setup_sound _) 1000 20 20 false
    stateMomentum st' st'' 2 ⟨by decide, h3⟩ rfl rfl ⟨7, [(0, 1), (1, 1)]⟩ (.inl rfl) e1 e2
  exact ⟨_, (Option.some_get reachedMomentum_ok).symm, st', st'', x, y, e1, hx, hy, hle⟩

private def reachedJIT : Option (JIT.State Unit) :=
  (JIT.build env (planJIT env (setup _) 20) (LFT.agents (setup Unit).contractors) () 20 [0, 1]).join

private theorem reachedJIT_ok : reachedJIT.isSome = true := by decide +kernel

private def stateJIT : JIT.State Unit := reachedJIT.get reachedJIT_ok

private def open3 : Setup (JIT.State Unit) := { setup (JIT.State Unit) with spec := fun _ => ⟨[], []⟩ }

/-- If both contractors may do work 3, the state in which it is placed meets the hypotheses of `jit_finishes_first_partial`. -/
example : ∃ st, reachedJIT = some st ∧ ∃ (st' st'' : JIT.State Unit) (x y : SWork), JIT.step env (planJIT env open3 20) 20
    false false st 3 = some (some st') ∧ st'.sched.get 3 = some x ∧ st''.sched.get 3 = some y ∧ x.finish ≤ y.finish := by
  have h1 : (JIT.step env (planJIT env open3 20) 20 false false stateJIT 3).map Option.isSome = some true := by
    decide +kernel
  have h2 : (JIT.step env (planJIT env (forced open3 3 ⟨7, [(0, 1), (1, 1)]⟩) 20) 20 false false stateJIT 3).map
      Option.isSome = some true := by decide +kernel
  have h3 : minStart (env.edgesTo 3) stateJIT.sched = 0 := by decide +kernel
  have h4 : ((planJIT env open3 20).choose stateJIT 3 = some ([⟨8, 0, 1⟩], 8)) := by decide +kernel
  have h5 : JIT.find env stateJIT 3 [⟨8, 0, 1⟩] false 0 20 = some (some (0, 5)) := by decide +kernel
  have h6 : stateJIT.sched.isEmpty = false := by decide +kernel
  obtain ⟨st', e1⟩ := exists_of_isSome h1
  obtain ⟨st'', e2⟩ := exists_of_isSome h2
  obtain ⟨x, y, hx, hy, hle⟩ := jit_finishes_first_partial env env_site open3 20 false stateJIT st' st'' 3
    (by intro e; rw [e] at h6; simp at h6) rfl ⟨7, [(0, 1), (1, 1)]⟩ (.inl rfl)
    (by
      intro team c f hch hf
      rw [h4] at hch
      simp only [Option.some.injEq, Prod.mk.injEq] at hch
      obtain ⟨rfl, rfl⟩ := hch
      rw [show JIT.find env stateJIT 3 [⟨8, 0, 1⟩] (open3.independent 3) open3.parentTime 20 = _ from h5] at hf
      simp only [Option.some.injEq] at hf
      subst hf
      rw [h3]) e1 e2
  exact ⟨_, (Option.some_get reachedJIT_ok).symm, st', st'', x, y, e1, hx, hy, hle⟩

end Sampo.C53
