import Verif.Lemmas.SchedJIT
import Verif.Lemmas.SchedMomentumRun
import Verif.Props.C02_JITConservation
import Verif.Props.C04_JITStart
import Verif.Props.C06_MomentumBookkeeping
import Verif.Lemmas.MomentumTeam
import Verif.Spec.Live
import Mathlib.Tactic.Tauto

namespace Sampo.JIT

variable {σ : Type} {E : Env σ}

theorem history_ne {pool : AgentId → Option Int} {tl : Timeline} {ps : List Placement} (h : History pool tl ps) :
    ∀ a q, tl a = some q → Ordered q ∧ q ≠ [] := by
  induction h with
  | fresh =>
    intro a q hq
    simp only [init, Option.map_eq_some_iff] at hq
    obtain ⟨c, _, rfl⟩ := hq
    exact ⟨by simp [Ordered], by simp⟩
  | place p _ _ _ hwf _ _ _ _ hup ih =>
    exact (update_forall (P := fun _ q => Ordered q ∧ q ≠ []) hup
      (fun w hw q q' hq hst => (step_total_ordered (hwf.2 w hw) hst hq.1).2) ih).1

theorem update_some {fin : Int} {ind : Bool} {team : List Worker} {tl : Timeline} (hc : ∀ w ∈ team, 0 ≤ w.count)
    (hk : ∀ w ∈ team, (tl w.agent).isSome) (hne : ∀ a q, tl a = some q → Ordered q ∧ q ≠ []) :
    ∃ tl', update tl fin ind team = some tl' := by
  induction team generalizing tl with
  | nil => exact ⟨tl, rfl⟩
  | cons w ws ihw =>
    obtain ⟨q, hq⟩ := Option.isSome_iff_exists.mp (hk w (by simp))
    have : ∃ q', stepQueue ind q w.count fin = some q' := by
      unfold stepQueue; split
      · exact ⟨_, rfl⟩
      · obtain ⟨q1, h1⟩ := consume_isSome w.count (hne _ _ hq).2
        exact ⟨_, by simp [updateQueue, h1]; rfl⟩
    obtain ⟨q', hq'⟩ := this
    obtain ⟨tl', h'⟩ := ihw (tl := JIT.set tl w.agent q') (fun v hv => hc v (by simp [hv]))
      (by
        intro v hv
        unfold JIT.set; split
        · rfl
        · exact hk v (by simp [hv]))
      (by
        intro a p hp
        unfold JIT.set at hp
        split at hp
        · cases hp
          exact (step_total_ordered (hc w (by simp)) hq' (hne _ _ hq).1).2
        · exact hne a p hp)
    exact ⟨tl', by simp [update, hq, hq', h']⟩

theorem findMinStart_some {pool : AgentId → Option Int} {tl : Timeline} {ps : List Placement} (h : History pool tl ps)
    {team : List Worker} (hwf : WellFormedTeam team) (hwp : WithinPool pool team) (ind : Bool) (from_ : Int) :
    ∃ r, findMinStart tl ind team from_ = some r := by
  cases ind with
  | false => obtain ⟨r, hr, _⟩ := C04.start_is_earliest_release pool tl ps h team hwf hwp from_; exact ⟨r, hr⟩
  | true =>
    have hq : ∀ w ∈ team, ∃ q, tl w.agent = some q := by
      intro w hw
      obtain ⟨c, hc, hle⟩ := hwp w hw
      obtain ⟨q, hq, _⟩ := history_inv h hc (by have := hwf.2 w hw; omega)
      exact ⟨q, hq⟩
    clear hwf hwp
    induction team generalizing from_ with
    | nil => exact ⟨from_, rfl⟩
    | cons w ws ih =>
      obtain ⟨q, h1⟩ := hq w (by simp)
      obtain ⟨x, hx⟩ : ∃ x, q.getLast? = some x := by
        cases hx : q.getLast? with
        | none => exact absurd (List.getLast?_eq_none_iff.mp hx) (history_ne h _ _ h1).2
        | some x => exact ⟨x, rfl⟩
      obtain ⟨r, hr⟩ := ih (max from_ x.time) fun v hv => hq v (by simp [hv])
      exact ⟨r, by simp [findMinStart, h1, ask, latest, hx, hr]⟩

theorem topoFrom_mono {preds : Nat → List Nat} {seen seen' l : List Nat} (hs : ∀ x ∈ seen, x ∈ seen')
    (h : TopoFrom preds seen l) : TopoFrom preds seen' l := by
  induction l generalizing seen seen' with
  | nil => trivial
  | cons x xs ih =>
    refine ⟨fun p hp => hs p (h.1 p hp), ih (fun y hy => ?_) h.2⟩
    rcases List.mem_append.mp hy with hy | hy
    · exact List.mem_append.mpr (.inl (hs y hy))
    · exact List.mem_append.mpr (.inr hy)

theorem placeChain_some (hsite : NoSiteLimits E) (hce : ChainEdges E) {team : List Worker} {c : Nat} {times : ExecTimes}
    {vs : List Nat} {cur : Int} {s : σ} {sw : Sched}
    (h : TopoFrom (fun v => (E.edgesTo v).map (·.1)) sw.works vs) :
    ∃ r, placeChain E team c times vs cur s sw = some r := by
  induction vs generalizing cur s sw with
  | nil => exact ⟨_, rfl⟩
  | cons v vs ih =>
    have hcheck : parentCheck E v sw (minStart (E.edgesTo v) sw) = true := by
      unfold parentCheck
      cases hp : E.insepParent v with
      | none => rfl
      | some p =>
        obtain ⟨lag, h0, hm⟩ := hce v p hp
        obtain ⟨x, hx⟩ := (get_isSome_iff sw p).mpr (h.1 p (List.mem_map.mpr ⟨(p, lag), hm, rfl⟩))
        have := le_minStart hm hx
        simp only [hx, decide_eq_true_eq]
        dsimp only at this
        omega
    simp only [placeChain, hcheck, if_true]
    obtain ⟨s', t', hd, _⟩ := hsite.deliver s v
      (max (cur + ((times v).getD (0, E.estimate v team)).1) (minStart (E.edgesTo v) sw))
    rw [hd, Option.bind_some]
    refine ih (topoFrom_mono (fun x hx => ?_) h.2)
    simp only [Sched.works, List.map_cons, List.mem_cons, List.mem_append, List.not_mem_nil, or_false] at hx ⊢
    exact hx.symm

theorem findLoop_some (hsite : NoSiteLimits E) {tl : Timeline} {env : σ} {node : Nat} {team : List Worker} {ind : Bool}
    {exec cur r : Int} (h : findMinStart tl ind team cur = some r) (fuel : Nat) :
    findLoop E tl env node team ind exec (fuel + 1) cur = some (some r) := by
  simp only [findLoop, h]
  have h1 := hsite.material env node r
  have h2 := hsite.zone env node r exec
  rw [if_neg (by omega), if_neg (by omega)]

theorem find_some (hsite : NoSiteLimits E) {pool : AgentId → Option Int} {st : State σ} {ps : List Placement}
    (hh : History pool st.tl ps) {v : Nat} {team : List Worker} (hwf : WellFormedTeam team) (hwp : WithinPool pool team)
    (ind : Bool) (P : Int) : ∃ f, ∀ fuel, find E st v team ind P (fuel + 1) = some (some f) := by
  obtain ⟨r, hr⟩ := findMinStart_some hh hwf hwp ind 0
  unfold find
  split
  · exact ⟨_, fun _ => rfl⟩
  · refine ⟨(r, r + chainDuration E team st.sched (E.chain v) 0), fun fuel => ?_⟩
    dsimp only
    rw [findLoop_some hsite hr]; rfl

theorem step_some (hsite : NoSiteLimits E) (hce : ChainEdges E) {pool : AgentId → Option Int} {P : Plan (State σ)}
    {first last : Bool} {st : State σ} {v : Nat}
    (hteam : ∃ team c, P.choose st v = some (team, c) ∧ WellFormedTeam team ∧ WithinPool pool team)
    (htl : ∃ ps, History pool st.tl ps)
    (htopo : TopoFrom (fun v => (E.edgesTo v).map (·.1)) st.sched.works (E.chain v)) :
    ∃ st', ∀ fuel, step E P (fuel + 1) first last st v = some (some st') := by
  obtain ⟨team, c, hch, hwf, hwp⟩ := hteam
  obtain ⟨ps, hh⟩ := htl
  obtain ⟨f, hf⟩ := find_some hsite hh (v := v) hwf hwp (P.independent v) P.parentTime
  obtain ⟨es, hes⟩ : ∃ es, startFor E P first last st.env f.1 = some es := by
    unfold startFor
    dsimp only
    split
    · obtain ⟨s', t, h, _⟩ := hsite.finish st.env
      rw [h]; exact ⟨_, rfl⟩
    · exact ⟨_, rfl⟩
  obtain ⟨pc, hpc⟩ := placeChain_some (team := team) (c := c) (times := (P.assignedTimes v).getD fun _ => none)
    (cur := es.2) (s := es.1) hsite hce htopo
  obtain ⟨tl', htl'⟩ := update_some (fin := pc.1) (ind := P.independent v) (tl := st.tl) hwf.2
    (by
      intro w hw
      obtain ⟨k, hk, hle⟩ := hwp w hw
      obtain ⟨q, hq, _⟩ := history_inv hh hk (by have := hwf.2 w hw; omega)
      simp [hq])
    (history_ne hh)
  obtain ⟨env', henv⟩ := hsite.occupy pc.2.1 v es.2 (pc.1 - es.2)
  refine ⟨⟨tl', env', pc.2.2⟩, fun fuel => ?_⟩
  simp only [step, hch, hf, hes, Option.bind_some, scheduleAt, hpc, htl', henv, Option.map_some]

theorem topoFrom_append {preds : Nat → List Nat} {seen l₁ l₂ : List Nat} (h : TopoFrom preds seen (l₁ ++ l₂)) :
    TopoFrom preds seen l₁ ∧ TopoFrom preds (l₁.reverse ++ seen) l₂ := by
  induction l₁ generalizing seen with
  | nil => exact ⟨trivial, h⟩
  | cons x xs ih =>
    obtain ⟨h1, h2⟩ := ih h.2
    refine ⟨⟨h.1, h1⟩, topoFrom_mono (fun y hy => ?_) h2⟩
    simp only [List.mem_append, List.mem_reverse, List.mem_cons, List.not_mem_nil, or_false] at hy ⊢
    tauto

theorem buildFrom_some (hsite : NoSiteLimits E) (hce : ChainEdges E) {pool : AgentId → Option Int} {P : Plan (State σ)}
    (hest : ∀ v team, 0 ≤ E.estimate v team) (hts : ∀ v ts, P.assignedTimes v = some ts → NonNegTimes ts)
    (hchain : ∀ v, v ∈ E.chain v) (hP : 0 ≤ P.parentTime) {order : List Nat}
    (hsome : ∀ st, ∀ v ∈ order, ∃ team c, P.choose st v = some (team, c))
    (hteam : ∀ st v team c, P.choose st v = some (team, c) → WellFormedTeam team ∧ WithinPool pool team)
    {first : Bool} {st : State σ}
    (hst : (first = true ∧ st.tl = init pool ∧ st.sched = []) ∨ (first = false ∧ st.sched ≠ [] ∧ Covered pool st))
    (htopo : TopoFrom (fun v => (E.edgesTo v).map (·.1)) st.sched.works (order.flatMap E.chain)) :
    ∃ st', ∀ fuel, buildFrom E P (fuel + 1) first order st = some (some st') := by
  induction order generalizing first st with
  | nil => exact ⟨st, fun _ => rfl⟩
  | cons v vs ih =>
    rw [List.flatMap_cons] at htopo
    obtain ⟨t1, t2⟩ := topoFrom_append htopo
    have hh : ∃ ps, History pool st.tl ps := by
      rcases hst with ⟨_, h, _⟩ | ⟨_, _, ps, h, _⟩
      · exact ⟨[], h ▸ .fresh⟩
      · exact ⟨ps, h⟩
    obtain ⟨team, c, hch⟩ := hsome st v (by simp)
    obtain ⟨st1, h1⟩ := step_some (first := first) (last := vs.isEmpty) hsite hce
      ⟨team, c, hch, hteam st v team c hch⟩ hh t1
    obtain ⟨team, c, start, fin, _, hrow, _⟩ := step_spec hest hts (h1 0)
    have hw := hrow.works
    obtain ⟨st2, h2⟩ := ih (fun st u hu => hsome st u (by simp [hu])) (first := false) (st := st1)
      (.inr ⟨rfl, by
        intro he
        rw [he] at hw
        have hv := hchain v
        have h2 : E.chain v = [] := by
          have := congrArg List.length hw
          simp [Sched.works] at this
          exact List.length_eq_zero_iff.mp (by omega)
        rw [h2] at hv; simp at hv, step_covered hest hts hteam hP hst (h1 0)⟩)
      (by rw [hw]; exact t2)
    refine ⟨st2, fun fuel => ?_⟩
    simp only [buildFrom, h1, h2]

end Sampo.JIT

namespace Sampo.Momentum

variable {σ : Type} {E : Env σ}

theorem execTimes_ge (hest : ∀ v team, 0 ≤ E.estimate v team) {sw : Sched} {team : List Worker} {assigned : Option Int}
    {P mp : Int} (vs : List Nat) (e : Int) : e ≤ (execTimes E sw team assigned P mp vs e).2 := by
  induction vs generalizing e with
  | nil => exact Int.le_refl _
  | cons v vs ih =>
    simp only [execTimes]
    refine Int.le_trans ?_ (ih _)
    have := hest v team
    split <;> split <;> omega

theorem execTimes_shrinks (hest : ∀ v team, 0 ≤ E.estimate v team) {sw : Sched} {team : List Worker} {P mp t : Int}
    (hP : P ≤ mp) (hle : mp ≤ t) (vs : List Nat) {e1 e2 : Int} (h0 : 0 ≤ e2) (he : e2 ≤ e1) :
    (execTimes E sw team (some t) P t vs e2).2 ≤ (execTimes E sw team none P mp vs e1).2 := by
  induction vs generalizing e1 e2 with
  | nil => exact he
  | cons v vs ih =>
    simp only [execTimes]
    have := hest v team
    have hp1 : parentTimeOf E sw (some t) P v = max (minStart (E.edgesTo v) sw) t := by
      simp only [parentTimeOf, applySpec]; omega
    have hp2 : parentTimeOf E sw none P v = max (minStart (E.edgesTo v) sw) P := rfl
    rw [hp1, hp2]
    apply ih
    · split <;> split <;> omega
    · split <;> split <;> split <;> omega

theorem execTimes_keys {sw : Sched} {team : List Worker} {assigned : Option Int} {P mp : Int} (vs : List Nat) (e : Int) :
    (execTimes E sw team assigned P mp vs e).1.map (·.1) = vs := by
  induction vs generalizing e with
  | nil => rfl
  | cons v vs ih => simp only [execTimes, List.map_cons, ih]

theorem timesOf_mem {l : List (Nat × Int × Int)} (h : (l.map (·.1)).Nodup) {e : Nat × Int × Int} (he : e ∈ l) :
    timesOf l e.1 = some e.2 := by
  induction l with
  | nil => simp at he
  | cons x xs ih =>
    simp only [List.map_cons, List.nodup_cons] at h
    rcases List.mem_cons.mp he with rfl | he
    · simp [timesOf]
    · have hne : x.1 ≠ e.1 := fun hx => h.1 (hx ▸ List.mem_map_of_mem he)
      have := ih h.2 he
      simp only [timesOf, List.find?_cons, hne, decide_false] at this ⊢
      exact this

theorem placeChain_end (hsite : NoSiteLimits E) {sw0 : Sched} {team : List Worker} {c : Nat} {assigned : Option Int}
    {P mp : Int} {times : ExecTimes} (vs : List Nat) (e : Int)
    (ht : ∀ x ∈ (execTimes E sw0 team assigned P mp vs e).1, times x.1 = some x.2) (cur : Int) (s : σ) (sw : Sched) :
    ∃ s' sw', placeChain E team c times vs cur s sw =
      some (cur + ((execTimes E sw0 team assigned P mp vs e).2 - e), s', sw') := by
  induction vs generalizing e cur s sw with
  | nil => exact ⟨s, sw, by simp [placeChain, execTimes]⟩
  | cons v vs ih =>
    simp only [execTimes] at ht ⊢
    generalize hlag : (if parentTimeOf E sw0 assigned P v - mp - e > 0 then
      parentTimeOf E sw0 assigned P v - mp - e else 0) = lag at ht ⊢
    generalize htt : (if (E.kinds v).isEmpty then 0 else E.estimate v team) = t at ht ⊢
    have hv := ht _ (List.mem_cons_self ..)
    simp only [placeChain, hv, Option.getD_some]
    obtain ⟨s', t', hd, hle⟩ := hsite.deliver s v (cur + lag)
    rw [hd, Option.bind_some]
    simp only
    have hmax : max (cur + lag) t' = cur + lag := by omega
    rw [hmax]
    obtain ⟨s2, sw2, h2⟩ := ih (e + (lag + t)) (fun x hx => ht x (List.mem_cons_of_mem _ hx)) (cur + lag + t) s'
      ((v, ⟨cur + lag, cur + lag + t, team, c⟩) :: sw)
    exact ⟨s2, sw2, by rw [h2]; congr 2; omega⟩

theorem queueLoop_zero {rt : Resources} {cnt : Nat → Option Int} (fuel : Nat) (queue sched : List Nat) (start : Int) :
    queueLoop rt cnt 0 true fuel queue sched start = queueLoop rt cnt 0 false fuel queue sched start := by
  induction fuel generalizing queue sched start with
  | zero => rfl
  | succ n ih =>
    cases queue with
    | nil => rfl
    | cons k ks =>
      simp only [queueLoop]
      cases rt k <;> cases cnt k <;> simp only [findSlot, if_true, ih]

theorem findMinStart_fits {pool : AgentId → Option Int} {tl : Timeline} {ps : List Placement} (h : History pool tl ps)
    {v : Nat} {w : Worker} {ws : List Worker} (hf : Fits E pool v (w :: ws)) (ind : Bool) {parent exec inf : Int} (hp : 0 ≤ parent)
    (hexec : 0 ≤ exec) :
    ∃ fuel0 r, (∀ fuel, fuel0 ≤ fuel →
        findMinStart (tl.resources w.contractor) ((E.chain v).map fun v => ⟨E.service v, E.kinds v⟩) ind parent exec
          (w :: ws) inf fuel = some (some r)) ∧ parent ≤ r ∧
      ∀ x ∈ w :: ws, ∃ cap, pool x.agent = some cap ∧ Free ps x.agent cap x.count r exec := by
  have hone : OneContractor w.contractor (w :: ws) := fun x hx => hf.one x hx w (List.mem_cons_self ..)
  obtain ⟨⟨l, hl⟩, hk, hs, hall⟩ := hf.kinds (by simp)
  have hm : Matches ((E.chain v).map fun v => ⟨E.service v, E.kinds v⟩) (w :: ws) := by
    refine ⟨⟨⟨E.service v, E.kinds v⟩, l.map fun v => ⟨E.service v, E.kinds v⟩, by rw [hl]; rfl, hk⟩, ?_⟩
    intro c hc
    obtain ⟨u, hu, rfl⟩ := List.mem_map.mp hc
    exact hall u hu
  have hserv : ((E.chain v).map fun v => (⟨E.service v, E.kinds v⟩ : ChainWork)).all (·.service) = false := by
    rw [hl]; simp [hs]
  have hordinary := findMinStart_spec h hone hf.wf hf.within hm hserv (inf := inf) hp hexec
  cases ind with
  | false =>
    obtain ⟨fuel0, r, h1, h2, h3, _⟩ := hordinary
    exact ⟨fuel0, r, h1, h2, h3⟩
  | true =>
    by_cases hz : exec = 0
    · subst hz
      obtain ⟨fuel0, r, h1, h2, h3, _⟩ := hordinary
      refine ⟨fuel0, r, fun fuel hfu => ?_, h2, h3⟩
      rw [← h1 fuel hfu]
      unfold findMinStart
      simp only [queueLoop_zero]
    · have hag : ∀ x ∈ w :: ws, x.agent = (w.contractor, x.name) := by
        intro x hx; unfold Worker.agent; rw [hone x hx]
      have hnames := nodup_names hone hf.wf.1
      have hst : ∀ x ∈ w :: ws, ∃ cap s, pool x.agent = some cap ∧ x.count ≤ cap ∧
          tl.resources w.contractor x.name = some s ∧ AgentInv ps x.agent cap tl.taskIndex s := by
        intro x hx
        obtain ⟨cap, h1, h2⟩ := hf.within x hx
        obtain ⟨s, h3, h4⟩ := history_inv h h1
        refine ⟨cap, s, h1, h2, ?_, h4⟩
        unfold Timeline.resources; rw [← hag x hx]; exact h3
      have henough : enoughForChain (tl.resources w.contractor) (w :: ws)
          ((E.chain v).map fun v => ⟨E.service v, E.kinds v⟩) = some true := by
        apply enoughForChain_true
        intro d hd
        rcases hm.2 d hd with hk | hk
        · apply enoughFor_true hk
          intro x hx
          obtain ⟨cap, s, h1, h2, h3, h4⟩ := hst x hx
          obtain ⟨es, hes, _⟩ := h4.head
          exact ⟨cap, es, by rw [h3, hes], h2⟩
        · rw [hk]; rfl
      obtain ⟨fuel0, r, hr, h1, h2⟩ := queueLoop_independent (rt := tl.resources w.contractor)
        (cnt := typeToCount (w :: ws)) (E.kinds v) (show 0 < exec by omega) hp
        (by
          intro k hk'
          rw [hk] at hk'
          obtain ⟨x, hx, rfl⟩ := List.mem_map.mp hk'
          obtain ⟨cap, s, h1, h2, h3, h4⟩ := hst x hx
          exact ⟨s, x.count, cap, _, h3, typeToCount_mem hnames hx, h4.toInv⟩)
      refine ⟨fuel0, r, ?_, h1, ?_⟩
      · intro fuel hfu
        unfold findMinStart
        rw [hserv, henough, hl]
        simp only [Bool.false_eq_true, if_false, List.map_cons]
        exact hr fuel hfu
      · intro x hx
        obtain ⟨cap, s, f1, f2, f3, f4⟩ := hst x hx
        have hkm : x.name ∈ E.kinds v := by rw [hk]; exact List.mem_map_of_mem hx
        have hkeys := h2 x.name hkm s f3
        refine ⟨cap, f1, fun t ht1 _ => ?_⟩
        have h3 := f4.full t (fun e he => by have := hkeys e he; omega)
        rw [f4.exact_ _ (by omega)] at h3
        simp at h3; omega

theorem findLoop_some (hsite : NoSiteLimits E) {tl : Timeline} {env : σ} {node : Nat} {team : List Worker} {c : Nat}
    {ind : Bool} {exec inf cur r : Int} {fuelIn : Nat}
    (h : findMinStart (tl.resources c) ((E.chain node).map fun v => ⟨E.service v, E.kinds v⟩) ind cur exec team inf fuelIn =
      some (some r)) (fuel : Nat) :
    findLoop E tl env node team c ind exec inf fuelIn (fuel + 1) cur = some (some r) := by
  simp only [findLoop, h]
  have h1 := hsite.material env node r
  have h2 := hsite.zone env node r exec
  rw [if_neg (by omega), if_neg (by omega)]

/-- Room for the whole team in a window. -/
def Room (pool : AgentId → Option Int) (ps : List Placement) (team : List Worker) (start exec : Int) : Prop :=
  ∀ w ∈ team, ∃ cap, pool w.agent = some cap ∧ Free ps w.agent cap w.count start exec

theorem room_ok {pool : AgentId → Option Int} {tl : Timeline} {ps : List Placement} (h : History pool tl ps)
    {team : List Worker} (hwf : WellFormedTeam team) {start exec : Int} (h0 : 0 ≤ start) (hexec : 0 ≤ exec)
    (hroom : Room pool ps team start exec) :
    validate tl (start + exec) exec team = some () ∧ ∃ tl', update tl (start + exec) exec team = some tl' := by
  by_cases he : exec = 0
  · exact ⟨by simp [validate, he], tl, by simp [update, he]⟩
  · have hcap : ∀ w ∈ team, pool w.agent = some ((pool w.agent).getD 0) := by
      intro w hw
      obtain ⟨cap, hc, _⟩ := hroom w hw
      simp [hc]
    have hr : ∀ w ∈ team, ∀ t, start ≤ t → t < start + exec → busy ps w.agent t + w.count ≤ (pool w.agent).getD 0 := by
      intro w hw t ht1 ht2
      obtain ⟨cap, hc, hf⟩ := hroom w hw
      rw [hc]; exact hf t ht1 ht2
    have hd : start + exec - start = exec := by omega
    have hv := (C06.validate_iff_room pool tl ps h team (fun a => (pool a).getD 0) hcap start (start + exec) (by omega)
      (by omega)).mpr hr
    have hu := (C06.update_succeeds_iff_room pool tl ps h team hwf (fun a => (pool a).getD 0) hcap start (start + exec)
      (by omega) (by omega)).mpr hr
    rw [hd] at hv hu
    exact ⟨hv, hu⟩

/-- Placing a team at a given start in a window that has room for it. -/
theorem schedule_some (hsite : NoSiteLimits E) (hest : ∀ v team, 0 ≤ E.estimate v team) {pool : AgentId → Option Int}
    {st : State σ} {ps : List Placement} (hh : History pool st.tl ps) {v : Nat} {team : List Worker} {c : Nat}
    {ind : Bool} {P inf t : Int} (ht : 0 ≤ t) (hP : 0 ≤ P) (hwf : WellFormedTeam team) (hnd : (E.chain v).Nodup)
    (hroom : Room pool ps team t
      (execTimes E st.sched team (some t) P (parentTimeOf E st.sched (some t) P v) (E.chain v) 0).2) :
    ∃ st', (∀ fuelIn fuel, schedule E st v team c ind (some t) none P inf fuelIn fuel = some (some st')) ∧
      ∃ ps, History pool st'.tl ps := by
  have hge := execTimes_ge (E := E) (sw := st.sched) (team := team) (assigned := some t) (P := P)
    (mp := parentTimeOf E st.sched (some t) P v) hest (E.chain v) 0
  generalize hte : execTimes E st.sched team (some t) P (parentTimeOf E st.sched (some t) P v) (E.chain v) 0 = te at *
  have hkeys : (te.1.map (·.1)).Nodup := by rw [← hte, execTimes_keys]; exact hnd
  obtain ⟨b, hb0, hfind, hroom'⟩ : ∃ b, 0 ≤ b ∧
      (∀ fuelIn fuel, ∃ fin, find E st v team ind (some t) P inf fuelIn fuel = some (some ⟨b, fin, te.1⟩)) ∧
      Room pool ps team b te.2 := by
    cases team with
    | nil =>
      refine ⟨max (parentTimeOf E st.sched (some t) P v) (max (E.matTime st.env v (parentTimeOf E st.sched (some t) P v))
        (E.zoneTime st.env v (parentTimeOf E st.sched (some t) P v) te.2)), ?_, fun _ _ => ⟨max (parentTimeOf E st.sched (some t) P v)
          (max (E.matTime st.env v (parentTimeOf E st.sched (some t) P v))
            (E.zoneTime st.env v (parentTimeOf E st.sched (some t) P v) te.2)), ?_⟩, by simp [Room]⟩
      · have : P ≤ parentTimeOf E st.sched (some t) P v := by unfold parentTimeOf; omega
        omega
      · simp only [find, hte]
    | cons w ws =>
      refine ⟨t, ht, fun _ _ => ⟨t + te.2, ?_⟩, hroom⟩
      simp only [find, findStart, hte, (room_ok hh hwf ht hge hroom).1]
      rfl
  obtain ⟨tl', htl'⟩ := (room_ok hh hwf hb0 hge hroom').2
  obtain ⟨s', sw', hpc⟩ := placeChain_end (c := c) (times := timesOf te.1) hsite (sw0 := st.sched) (team := team)
    (assigned := some t) (P := P) (mp := parentTimeOf E st.sched (some t) P v) (E.chain v) 0
    (by rw [hte]; exact fun x hx => timesOf_mem hkeys hx) b st.env st.sched
  rw [hte] at hpc
  have he : te.2 - 0 = te.2 := by omega
  have he2 : b + te.2 - b = te.2 := by omega
  rw [he] at hpc
  obtain ⟨env', henv⟩ := hsite.occupy s' v b te.2
  refine ⟨⟨tl', env', sw'⟩, fun fuelIn fuel => ?_, ⟨team, b, b + te.2, false⟩ :: ps, ?_⟩
  · obtain ⟨fin, hf⟩ := hfind fuelIn fuel
    simp only [schedule, hf, Option.map_some, Option.bind_some, Option.getD_none, scheduleAt, hpc, he2, htl', henv]
  · exact .place ⟨team, b, b + te.2, false⟩ hh hwf hb0 (by simp; omega) (by simpa [he2] using htl')

theorem find_fits (hsite : NoSiteLimits E) (hest : ∀ v team, 0 ≤ E.estimate v team) {pool : AgentId → Option Int}
    {st : State σ} {ps : List Placement} (hh : History pool st.tl ps) {v : Nat} {team : List Worker} {inf : Int}
    (hfit : Fits E pool v team) (ind : Bool) {P : Int} (hP : 0 ≤ P) :
    ∃ N f, (∀ fuelIn fuel, N ≤ fuelIn → find E st v team ind none P inf fuelIn (fuel + 1) = some (some f)) ∧
      parentTimeOf E st.sched none P v ≤ f.start ∧ f.start ≤ f.finish ∧
      Room pool ps team f.start (execTimes E st.sched team none P (parentTimeOf E st.sched none P v) (E.chain v) 0).2 := by
  have hmp : P ≤ parentTimeOf E st.sched none P v := by unfold parentTimeOf; omega
  have hge := execTimes_ge (E := E) (sw := st.sched) (team := team) (assigned := none) (P := P)
    (mp := parentTimeOf E st.sched none P v) hest (E.chain v) 0
  cases team with
  | nil =>
    exact ⟨0, ⟨_, _, _⟩, fun _ _ _ => rfl, Int.le_max_left _ _, by dsimp only; omega, by simp [Room]⟩
  | cons w ws =>
    obtain ⟨N, r, h1, h2, h3⟩ := findMinStart_fits (inf := inf) hh hfit (ind)
      (show 0 ≤ parentTimeOf E st.sched none P v by omega) hge
    refine ⟨N, ⟨r, r + (execTimes E st.sched (w :: ws) none P
        (parentTimeOf E st.sched none P v) (E.chain v) 0).2,
      (execTimes E st.sched (w :: ws) none P
        (parentTimeOf E st.sched none P v) (E.chain v) 0).1⟩, fun fuelIn fuel hN => ?_, h2, by dsimp only; omega, h3⟩
    simp only [find, findStart, findLoop_some hsite (h1 fuelIn hN), (room_ok hh hfit.wf (by omega) hge h3).1]
    rfl

theorem step_some (hsite : NoSiteLimits E) (hest : ∀ v team, 0 ≤ E.estimate v team) {pool : AgentId → Option Int}
    {P : Plan (State σ)} {inf : Int} {first last : Bool} {st : State σ} {v : Nat} (hP : 0 ≤ P.parentTime)
    (hts : P.assignedTimes v = none) (hnd : (E.chain v).Nodup)
    (hteam : ∃ team c, P.choose st v = some (team, c) ∧ Fits E pool v team)
    (hst : (first = true ∧ History pool st.tl []) ∨ (first = false ∧ ∃ ps, History pool st.tl ps)) :
    ∃ N st', (∀ fuelIn fuel, N ≤ fuelIn → step E P inf fuelIn (fuel + 1) first last st v = some (some st')) ∧
      ∃ ps, History pool st'.tl ps := by
  obtain ⟨team, c, hch, hfit⟩ := hteam
  obtain ⟨ps, hh, hps⟩ : ∃ ps, History pool st.tl ps ∧ (first = true → ps = []) := by
    rcases hst with ⟨_, h⟩ | ⟨hf, ps, h⟩
    · exact ⟨[], h, fun _ => rfl⟩
    · exact ⟨ps, h, by simp [hf]⟩
  have hmp : P.parentTime ≤ parentTimeOf E st.sched none P.parentTime v := by unfold parentTimeOf; omega
  have hge := execTimes_ge (E := E) (sw := st.sched) (team := team) (assigned := none) (P := P.parentTime)
    (mp := parentTimeOf E st.sched none P.parentTime v) hest (E.chain v) 0
  -- the search without an assigned start
  obtain ⟨N, f, hf, hfs, _, hroom⟩ := find_fits (inf := inf) hsite hest hh hfit (P.independent v) hP
  -- the start which the scheduler then assigns
  obtain ⟨es, hes, hes0, hes1⟩ : ∃ es, startFor E P first last st.env f.start = some es ∧ 0 ≤ es.2 ∧
      (first = false → es.2 = f.start) := by
    unfold startFor
    dsimp only
    cases last with
    | true =>
      obtain ⟨s', t, h, hle⟩ := hsite.finish st.env
      simp only [if_true, h, Option.map_some]
      refine ⟨_, rfl, ?_, fun hf => ?_⟩
      · dsimp only; split <;> omega
      · subst hf; simp only [Bool.false_eq_true, if_false]; omega
    | false =>
      simp only [Bool.false_eq_true, if_false]
      refine ⟨_, rfl, ?_, fun hf => ?_⟩
      · dsimp only; split <;> omega
      · subst hf; rfl
  obtain ⟨st', h1, h2⟩ := schedule_some (st := { st with env := es.1 }) (c := c) (ind := P.independent v) (inf := inf)
    hsite hest hh hes0 hP hfit.wf hnd (by
      cases hfirst : first with
      | true =>
        rw [hps hfirst]
        intro w hw
        obtain ⟨cap, hc, hle⟩ := hfit.within w hw
        exact ⟨cap, hc, fun t _ _ => by simpa [busy] using hle⟩
      | false =>
        have hsf := hes1 hfirst
        have hpt : parentTimeOf E st.sched (some es.2) P.parentTime v = es.2 := by
          rw [hsf]
          simp only [parentTimeOf, applySpec] at hfs ⊢
          omega
        intro w hw
        obtain ⟨cap, hc, hfree⟩ := hroom w hw
        refine ⟨cap, hc, fun t ht1 ht2 => hfree t (by omega) ?_⟩
        simp only [hpt] at ht2
        have := execTimes_shrinks (E := E) (sw := st.sched) (team := team) hest hmp (show _ ≤ es.2 by omega) (E.chain v)
          (Int.le_refl 0) (Int.le_refl 0)
        omega)
  refine ⟨N, st', fun fuelIn fuel hN => ?_, h2⟩
  simp only [step, hch, hf fuelIn fuel hN, hes, hts]
  exact h1 fuelIn (fuel + 1)

theorem buildFrom_some (hsite : NoSiteLimits E) (hest : ∀ v team, 0 ≤ E.estimate v team) {pool : AgentId → Option Int}
    {P : Plan (State σ)} {inf : Int} (hP : 0 ≤ P.parentTime) {order : List Nat}
    (hts : ∀ v ∈ order, P.assignedTimes v = none) (hnd : ∀ v ∈ order, (E.chain v).Nodup)
    (hteam : ∀ st, ∀ v ∈ order, ∃ team c, P.choose st v = some (team, c) ∧ Fits E pool v team)
    {first : Bool} {st : State σ}
    (hst : (first = true ∧ History pool st.tl []) ∨ (first = false ∧ ∃ ps, History pool st.tl ps)) :
    ∃ N st', ∀ fuelIn fuel, N ≤ fuelIn → buildFrom E P inf fuelIn (fuel + 1) first order st = some (some st') := by
  induction order generalizing first st with
  | nil => exact ⟨0, st, fun _ _ _ => rfl⟩
  | cons v vs ih =>
    obtain ⟨N1, st1, h1, hh1⟩ := step_some (inf := inf) (first := first) (last := vs.isEmpty) hsite hest hP
      (hts v (by simp)) (hnd v (by simp)) (hteam st v (by simp)) hst
    obtain ⟨N2, st2, h2⟩ := ih (fun u hu => hts u (by simp [hu])) (fun u hu => hnd u (by simp [hu]))
      (fun st u hu => hteam st u (by simp [hu])) (first := false) (st := st1) (.inr ⟨rfl, hh1⟩)
    refine ⟨max N1 N2, st2, fun fuelIn fuel hN => ?_⟩
    simp only [buildFrom, h1 fuelIn fuel (by omega), h2 fuelIn fuel (by omega)]

end Sampo.Momentum
