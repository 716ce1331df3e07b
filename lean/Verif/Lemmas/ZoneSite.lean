import Verif.Model.ZoneSite
import Verif.Spec.ZoneSite
import Verif.Lemmas.SchedJIT
import Verif.Lemmas.SchedMomentumRun
import Verif.Props.C40_Zones

namespace Sampo

/-- Rows of a schedule after a chain has been placed: old ones, and those of the chain, within its time. -/
theorem Row.rows {R team c vs cur sw cur' sw'} (h : Row R team c vs cur sw cur' sw') :
    ∀ e ∈ sw', e ∈ sw ∨ e.1 ∈ vs ∧ cur ≤ e.2.start ∧ e.2.finish ≤ cur' := by
  induction h with
  | nil => exact fun e he => .inl he
  | cons _ h1 h2 hrow ih =>
    intro e he
    rcases ih e he with h | ⟨h3, h4, h5⟩
    · rcases List.mem_cons.mp h with rfl | h
      · exact .inr ⟨List.mem_cons_self, h1, hrow.le⟩
      · exact .inl h
    · exact .inr ⟨List.mem_cons_of_mem _ h3, by omega, h5⟩

namespace ZoneSite

variable {τ : Type} {base : Env τ} {cfg : Zone.Config} {reqs : Nat → List Zone.Req} {σ : Type}

open Zone (History Granted)

/-- The uses of zones cover the works of the schedule. -/
def Held (cfg : Zone.Config) (reqs : Nat → List Zone.Req) (chain : Nat → List Nat) (done : List Nat) (sched : Sched)
    (env : State τ) : Prop :=
  ∃ n us, History cfg n env.zones us ∧ n ≤ env.placed + 1 ∧ ∀ e ∈ sched, ∃ h ∈ done, e.1 ∈ chain h ∧
    ∀ q ∈ reqs h, ∃ u ∈ us, u.zone = q.zone ∧ u.status = q.status ∧ u.start ≤ e.2.start ∧ e.2.finish ≤ u.finish

theorem known_of_update {costs : Int → Int → Int} {tl : Zone.Timeline} {idx start exec : Int} {rs : List Zone.Req}
    (hn : (rs.map (·.zone)).Nodup) {r : Zone.Timeline × List Zone.Transition}
    (h : Zone.update costs tl idx rs start exec = some r) : ∀ q ∈ rs, ∃ s, tl q.zone = some s := by
  intro q hq
  obtain ⟨s, l, h1, -⟩ := (Zone.update_spec (tl' := r.1) (trs := r.2) hn h).2 q hq
  exact ⟨s, h1⟩

theorem le_horizon {costs : Int → Int → Int} {tl : Zone.Timeline} {rs : List Zone.Req} {q : Zone.Req} (hq : q ∈ rs)
    {s : List Momentum.Event} {l : Momentum.Event} (hs : tl q.zone = some s) (hl : s.getLast? = some l) :
    l.time + max 1 (costs l.count q.status) ≤ horizon costs tl rs := by
  refine (foldl_max_ge _ 0).2 _ (List.mem_map.2 ⟨q, hq, ?_⟩)
  rw [hs, Option.bind_some, hl]

/-- The search for a start always ends at a granted time, if the zones are known. -/
theorem search (hc : ∀ a b, cfg.costs a b = 0) {n : Int} {tl : Zone.Timeline} {us : List Zone.Use} (h : History cfg n tl us)
    {rs : List Zone.Req} (hn : (rs.map (·.zone)).Nodup) (hk : ∀ q ∈ rs, ∃ s, tl q.zone = some s) {t exec : Int} (ht : 0 ≤ t)
    (he : 0 ≤ exec) : Zone.findMinStart (rounds cfg.costs tl rs t) cfg.costs tl rs t exec = some (some (zoneTime cfg.costs tl rs t exec)) ∧
      t ≤ zoneTime cfg.costs tl rs t exec := by
  have hpp : Zone.AllProper tl := by
    intro z s hs
    rcases Zone.history_inv hc h z with ⟨_, h1, _⟩ | ⟨st, s', R, _, h1, h2, _⟩
    · rw [h1] at hs; cases hs
    · rw [h1] at hs; obtain rfl := Option.some.inj hs; exact h2.proper
  have hnn : ∀ a b, 0 ≤ cfg.costs a b := fun a b => by rw [hc]
  have hB : ∀ q ∈ rs, ∃ s r l, tl q.zone = some s ∧ Zone.statusOf rs q.zone = some r ∧ s.getLast? = some l ∧
      l.time + 1 ≤ horizon cfg.costs tl rs ∧ l.time + cfg.costs l.count r ≤ horizon cfg.costs tl rs := by
    intro q hq
    obtain ⟨s, hs⟩ := hk q hq
    obtain ⟨x, xs, rfl, -⟩ := (hpp _ _ hs).initial
    have hl : (x :: xs).getLast? = some ((x :: xs).getLast (by simp)) := List.getLast?_eq_some_getLast _
    have := le_horizon (costs := cfg.costs) hq hs hl
    exact ⟨_, _, _, hs, Zone.statusOf_mem hn hq, hl, by omega, by omega⟩
  obtain ⟨z, hz⟩ := Zone.queueLoop_ends hnn hpp he hB rs.length (rounds cfg.costs tl rs t) rs [] t ht (fun q hq => hq) (by simp)
    (by simp) (by unfold rounds; omega)
  have hz' : Zone.findMinStart (rounds cfg.costs tl rs t) cfg.costs tl rs t exec = some (some z) := hz
  have e : zoneTime cfg.costs tl rs t exec = z := by unfold zoneTime; rw [hz']
  rw [e]
  exact ⟨hz', (Zone.queueLoop_good hnn hpp he _ rs [] t z ht (by simp) hz).1⟩

/-- On a new zone timeline every time is granted. -/
theorem fresh_granted (hc : ∀ a b, cfg.costs a b = 0) {rs : List Zone.Req} (hk : ∀ q ∈ rs, ∃ s, Zone.init cfg q.zone = some s)
    {t : Int} (ht : 0 ≤ t) : Granted cfg.costs (Zone.init cfg) rs t := by
  refine .inr ⟨0, ht, ?_⟩
  unfold Zone.canSchedule
  rw [List.all_eq_true]
  intro q hq
  obtain ⟨s, hs⟩ := hk q hq
  rw [hs]
  unfold Zone.init at hs
  obtain ⟨st, -, rfl⟩ := Option.map_eq_some_iff.1 hs
  have h1 : (-1 : Int) ≤ t := by omega
  simp [Zone.canStart, Momentum.lastAt, Momentum.Event.key, h1, hc, Zone.balanced, show ¬ t < -1 by omega]

theorem finish_zero {r : Int × List Zone.Transition} (h : Zone.finishStatuses cfg = some r) : r.1 = 0 := by
  unfold Zone.finishStatuses at h
  split at h
  · cases h; rfl
  · cases h

/-- One round: a chain is placed and its time is taken in the zones of its first work. -/
theorem held_step {chain : Nat → List Nat} {done : List Nat} {sched sched' : Sched} {env env1 env' : State τ}
    {v : Nat} (hn : ((reqs v).map (·.zone)).Nodup) {R team c start fin} (hh : Held cfg reqs chain done sched env)
    (hrow : Row R team c (chain v) start sched fin sched') (hz : env1.zones = env.zones) (hp : env.placed + 1 ≤ env1.placed)
    (hocc : (site base cfg reqs).occupy env1 v start (fin - start) = some env')
    (hg : (∀ q ∈ reqs v, ∃ s, env.zones q.zone = some s) → Granted cfg.costs env.zones (reqs v) start) :
    Held cfg reqs chain (done ++ [v]) sched' env' := by
  obtain ⟨n, us, h1, h2, h3⟩ := hh
  obtain ⟨r, hr, rfl⟩ := Option.map_eq_some_iff.1 hocc
  rw [hz] at hr
  have hle := hrow.le
  refine ⟨max n ((env1.placed : Int) + 1), _, .place env1.placed (reqs v) start (fin - start) h1 hn (by omega) (by omega) (.inl (by omega))
    (hg (known_of_update hn hr)) (trs := r.2) hr, by dsimp only; omega, fun e he => ?_⟩
  rcases hrow.rows e he with h | ⟨h4, h5, h6⟩
  · obtain ⟨k, hk, h7, h8⟩ := h3 e h
    refine ⟨k, List.mem_append_left _ hk, h7, fun q hq => ?_⟩
    obtain ⟨u, hu, h9⟩ := h8 q hq
    exact ⟨u, List.mem_append_right _ hu, h9⟩
  · refine ⟨v, by simp, h4, fun q hq => ⟨_, List.mem_append_left _ (List.mem_map_of_mem hq), rfl, rfl, h5, ?_⟩⟩
    show e.2.finish ≤ start + (fin - start)
    omega

theorem apart_of_pairwise {chain : Nat → List Nat} {l : List Nat} (h : l.Pairwise (Function.onFun List.Disjoint chain)) {a b u : Nat}
    (ha : a ∈ l) (hb : b ∈ l) (hne : a ≠ b) (hua : u ∈ chain a) (hub : u ∈ chain b) : False := by
  induction h with
  | nil => exact List.not_mem_nil ha
  | cons h1 h2 ih =>
    rcases List.mem_cons.mp ha with rfl | ha' <;> rcases List.mem_cons.mp hb with rfl | hb'
    · exact hne rfl
    · exact h1 b hb' hua hub
    · exact h1 a ha' hub hua
    · exact ih ha' hb'

/-- What follows from the cover. -/
theorem Held.apart (hc : ∀ a b, cfg.costs a b = 0) {chain : Nat → List Nat} {done : List Nat} {sched : Sched} {env : State τ}
    (h : Held cfg reqs chain done sched env) (hnd : (done.flatMap chain).Nodup) {k l v w : Nat} (hk : k ∈ done) (hl : l ∈ done)
    (hv : v ∈ chain k) (hw : w ∈ chain l) (hi : Zone.Incompatible (reqs k) (reqs l)) {x y : SWork}
    (hx : sched.get v = some x) (hy : sched.get w = some y) : ¬ x.Together y := by
  obtain ⟨n, us, h1, -, h3⟩ := h
  have uniq : ∀ {a b u : Nat}, a ∈ done → b ∈ done → u ∈ chain a → u ∈ chain b → a = b := by
    intro a b u ha hb hua hub
    by_contra hne
    obtain ⟨-, hp⟩ := List.nodup_flatMap.1 hnd
    exact apart_of_pairwise hp ha hb hne hua hub
  obtain ⟨k', hk', hv', hu⟩ := h3 _ (mem_of_get hx)
  obtain ⟨l', hl', hw', hu'⟩ := h3 _ (mem_of_get hy)
  obtain rfl := uniq hk hk' hv hv'
  obtain rfl := uniq hl hl' hw hw'
  obtain ⟨q, hq, r, hr, e1, e2, e3, e4⟩ := hi
  obtain ⟨a, ha, a1, a2, a3, a4⟩ := hu q hq
  obtain ⟨b, hb, b1, b2, b3, b4⟩ := hu' r hr
  rintro ⟨t, t1, t2, t3, t4⟩
  refine C40.one_status_partial hc h1 ha hb ⟨by omega, by omega, by omega, by omega⟩ ⟨t, ?_, ?_, ?_, ?_⟩
  · exact Int.le_trans a3 t1
  · exact Int.lt_of_lt_of_le t2 a4
  · exact Int.le_trans b3 t3
  · exact Int.lt_of_lt_of_le t4 b4

/-! ### Just-in-time timeline -/

theorem jit_placeChain_env {team : List Worker} {c : Nat} {times : ExecTimes} {vs : List Nat} {cur : Int} {s : State τ} {sw : Sched}
    {r : Int × State τ × Sched} (h : JIT.placeChain (site base cfg reqs) team c times vs cur s sw = some r) :
    r.2.1.zones = s.zones ∧ r.2.1.placed = s.placed + vs.length := by
  induction vs generalizing cur s sw with
  | nil => simp only [JIT.placeChain, Option.some.injEq] at h; subst h; exact ⟨rfl, rfl⟩
  | cons v vs ih =>
    simp only [JIT.placeChain] at h
    split at h
    · simp only [Option.bind_eq_some_iff] at h
      obtain ⟨d, hd, h⟩ := h
      obtain ⟨e, -, rfl⟩ := Option.map_eq_some_iff.1 hd
      obtain ⟨h1, h2⟩ := ih h
      dsimp only at h1 h2
      exact ⟨h1, by rw [h2, List.length_cons]; omega⟩
    · cases h

theorem chainDuration_ge {E : Env σ} {team : List Worker} (hest : ∀ v, 0 ≤ E.estimate v team) (sw : Sched) (vs : List Nat) (acc : Int) :
    acc ≤ JIT.chainDuration E team sw vs acc := by
  induction vs generalizing acc with
  | nil => exact Int.le_refl _
  | cons v vs ih =>
    have := ih (max acc (minStart (E.edgesTo v) sw) + E.estimate v team)
    have := hest v
    simp only [JIT.chainDuration]
    omega

theorem jit_findLoop_zone {E : Env σ} {tl : JIT.Timeline} {env : σ} {node : Nat} {team : List Worker} {ind : Bool} {exec : Int}
    {fuel : Nat} {cur r : Int} (hcur : 0 ≤ cur) (h : JIT.findLoop E tl env node team ind exec fuel cur = some (some r)) :
    0 ≤ r ∧ E.zoneTime env node r exec ≤ r := by
  induction fuel generalizing cur with
  | zero => simp [JIT.findLoop] at h
  | succ n ih =>
    simp only [JIT.findLoop] at h
    split at h
    · simp at h
    · rename_i cur' hc
      have := JIT.findMinStart_le hc
      split at h
      · exact ih (by omega) h
      · split at h
        · exact ih (by omega) h
        · simp only [Option.some.injEq] at h; subst h; exact ⟨by omega, by omega⟩

/-- A search that stays where it began was successful there. -/
theorem granted_of_le (hc : ∀ a b, cfg.costs a b = 0) {n : Int} {tl : Zone.Timeline} {us : List Zone.Use} (h : History cfg n tl us)
    {rs : List Zone.Req} (hn : (rs.map (·.zone)).Nodup) (hk : ∀ q ∈ rs, ∃ s, tl q.zone = some s) {t exec : Int} (ht : 0 ≤ t)
    (he : 0 ≤ exec) (hz : zoneTime cfg.costs tl rs t exec ≤ t) : Granted cfg.costs tl rs t := by
  obtain ⟨h1, h2⟩ := search hc h hn hk ht he
  have e : zoneTime cfg.costs tl rs t exec = t := by omega
  rw [e] at h1
  exact .inl ⟨_, t, exec, ht, he, h1⟩

/-- Start passed to `schedule`: the state does not change, and zones finished at 0 delay nothing. -/
theorem jit_startFor {P : Plan (JIT.State (State τ))} {first last : Bool} {env : State τ} {found : Int} {es : State τ × Int}
    (h0 : 0 ≤ if first then P.parentTime else found) (h : JIT.startFor (site base cfg reqs) P first last env found = some es) :
    es.1 = env ∧ es.2 = if first then P.parentTime else found := by
  simp only [JIT.startFor] at h
  split at h
  · obtain ⟨z, hz, rfl⟩ := Option.map_eq_some_iff.1 h
    obtain ⟨y, hy, rfl⟩ := Option.map_eq_some_iff.1 hz
    have := finish_zero hy
    refine ⟨rfl, ?_⟩
    dsimp only
    omega
  · simp only [Option.some.injEq] at h; subst h; exact ⟨rfl, rfl⟩

theorem jit_step_held (hc : ∀ a b, cfg.costs a b = 0) {P : Plan (JIT.State (State τ))} {fuel : Nat} {first last : Bool}
    {st st' : JIT.State (State τ)} {v : Nat} {done : List Nat} (hn : ((reqs v).map (·.zone)).Nodup) (hv : v ∈ base.chain v)
    (hest : ∀ v team, 0 ≤ base.estimate v team) (hts : ∀ v ts, P.assignedTimes v = some ts → NonNegTimes ts)
    (hP : 0 ≤ P.parentTime) (hst : (first = true ∧ st.env.zones = Zone.init cfg) ∨ (first = false ∧ st.sched ≠ []))
    (hh : Held cfg reqs base.chain done st.sched st.env)
    (h : JIT.step (site base cfg reqs) P fuel first last st v = some (some st')) :
    Held cfg reqs base.chain (done ++ [v]) st'.sched st'.env ∧ st'.sched ≠ [] := by
  simp only [JIT.step] at h
  split at h
  · simp at h
  · rename_i c hch
    split at h
    · simp at h
    · simp at h
    · rename_i f hf
      simp only [Option.some.injEq, Option.bind_eq_some_iff, JIT.scheduleAt, Option.map_eq_some_iff] at h
      obtain ⟨es, hes, r, hr, tl', htl, env', henv, rfl⟩ := h
      have hnn : NonNegTimes ((P.assignedTimes v).getD fun _ => none) := by
        cases hv : P.assignedTimes v with
        | none => intro v l d h; simp at h
        | some ts => exact hts v ts hv
      have hrow := JIT.placeChain_row (E := site base cfg reqs) (fun v => hest v _) hnn hr
      obtain ⟨z1, z2⟩ := jit_placeChain_env hr
      have hlen : 1 ≤ (base.chain v).length := List.length_pos_of_mem hv
      have hlen' : ((site base cfg reqs).chain v).length = (base.chain v).length := rfl
      have main : es.1 = st.env ∧ ((∀ q ∈ reqs v, ∃ s, st.env.zones q.zone = some s) →
          Granted cfg.costs st.env.zones (reqs v) es.2) := by
        rcases hst with ⟨rfl, h2⟩ | ⟨rfl, h2⟩
        · obtain ⟨e1, e2⟩ := jit_startFor (by simpa using hP) hes
          refine ⟨e1, fun hk => ?_⟩
          rw [e2, h2]
          rw [h2] at hk
          exact fresh_granted hc hk hP
        · simp only [JIT.find, List.isEmpty_iff, h2, if_false, Option.map_eq_some_iff] at hf
          obtain ⟨o, ho, hf⟩ := hf
          obtain ⟨t, rfl, rfl⟩ := hf
          obtain ⟨t1, t2⟩ := jit_findLoop_zone (Int.le_refl _) ho
          obtain ⟨e1, e2⟩ := jit_startFor (by simpa using t1) hes
          refine ⟨e1, fun hk => ?_⟩
          obtain ⟨n, us, hH, -⟩ := hh
          rw [e2]
          exact granted_of_le hc hH hn hk t1 (chainDuration_ge (E := site base cfg reqs) (fun v => hest v _) _ _ _) t2
      obtain ⟨m1, m2⟩ := main
      refine ⟨held_step hn hh hrow (by rw [z1, m1]) (by rw [z2, m1]; omega) henv m2, ?_⟩
      intro he
      dsimp only at he
      have hw := hrow.works
      rw [he] at hw
      have := congrArg List.length hw
      simp [Sched.works] at this
      omega

theorem jit_buildFrom_held (hc : ∀ a b, cfg.costs a b = 0) {P : Plan (JIT.State (State τ))} {fuel : Nat} {first : Bool} {order : List Nat}
    {st st' : JIT.State (State τ)} {done : List Nat} (hn : ∀ v, ((reqs v).map (·.zone)).Nodup) (hv : ∀ v, v ∈ base.chain v)
    (hest : ∀ v team, 0 ≤ base.estimate v team) (hts : ∀ v ts, P.assignedTimes v = some ts → NonNegTimes ts)
    (hP : 0 ≤ P.parentTime) (hst : (first = true ∧ st.env.zones = Zone.init cfg) ∨ (first = false ∧ st.sched ≠ []))
    (hh : Held cfg reqs base.chain done st.sched st.env)
    (h : JIT.buildFrom (site base cfg reqs) P fuel first order st = some (some st')) :
    Held cfg reqs base.chain (done ++ order) st'.sched st'.env := by
  induction order generalizing first st done with
  | nil => simp only [JIT.buildFrom, Option.some.injEq] at h; subst h; rwa [List.append_nil]
  | cons v vs ih =>
    simp only [JIT.buildFrom] at h
    split at h
    · simp at h
    · simp at h
    · rename_i st1 h1
      obtain ⟨a, b⟩ := jit_step_held hc (hn v) (hv v) hest hts hP hst hh h1
      have := ih (.inr ⟨rfl, b⟩) a h
      rwa [List.append_assoc] at this

theorem held_fresh (mat : τ) (chain : Nat → List Nat) : Held cfg reqs chain [] [] (fresh mat cfg) :=
  ⟨0, [], .fresh, by simp [fresh], by simp⟩

/-! ### Momentum timeline -/

theorem momentum_placeChain_env {team : List Worker} {c : Nat} {times : ExecTimes} {vs : List Nat} {cur : Int} {s : State τ} {sw : Sched}
    {r : Int × State τ × Sched} (h : Momentum.placeChain (site base cfg reqs) team c times vs cur s sw = some r) :
    r.2.1.zones = s.zones ∧ r.2.1.placed = s.placed + vs.length := by
  induction vs generalizing cur s sw with
  | nil => simp only [Momentum.placeChain, Option.some.injEq] at h; subst h; exact ⟨rfl, rfl⟩
  | cons v vs ih =>
    simp only [Momentum.placeChain, Option.bind_eq_some_iff] at h
    obtain ⟨d, hd, h⟩ := h
    obtain ⟨e, -, rfl⟩ := Option.map_eq_some_iff.1 hd
    obtain ⟨h1, h2⟩ := ih h
    dsimp only at h1 h2
    exact ⟨h1, by rw [h2, List.length_cons]; omega⟩

theorem momentum_findLoop_zone {E : Env σ} {tl : Momentum.Timeline} {env : σ} {node : Nat} {team : List Worker} {c : Nat} {ind : Bool}
    {exec inf : Int} {fuelIn fuel : Nat} {cur r : Int}
    (h : Momentum.findLoop E tl env node team c ind exec inf fuelIn fuel cur = some (some r)) : E.zoneTime env node r exec ≤ r := by
  induction fuel generalizing cur with
  | zero => simp [Momentum.findLoop] at h
  | succ n ih =>
    simp only [Momentum.findLoop] at h
    split at h
    · simp at h
    · simp at h
    · split at h
      · exact ih h
      · split at h
        · exact ih h
        · simp only [Option.some.injEq] at h; subst h; omega

theorem execTimes_ge {E : Env σ} {team : List Worker} (hest : ∀ v, 0 ≤ E.estimate v team) (sw : Sched) (a : Option Int) (p mp : Int)
    (vs : List Nat) (acc : Int) : acc ≤ (Momentum.execTimes E sw team a p mp vs acc).2 := by
  induction vs generalizing acc with
  | nil => exact Int.le_refl _
  | cons v vs ih =>
    simp only [Momentum.execTimes]
    refine Int.le_trans ?_ (ih _)
    have := hest v
    split <;> split <;> omega

theorem momentum_startFor {P : Plan (Momentum.State (State τ))} {first last : Bool} {env : State τ} {found : Int} {es : State τ × Int}
    (h0 : 0 ≤ if first then P.parentTime else found) (h : Momentum.startFor (site base cfg reqs) P first last env found = some es) :
    es.1 = env ∧ es.2 = if first then P.parentTime else found := by
  simp only [Momentum.startFor] at h
  split at h
  · obtain ⟨z, hz, rfl⟩ := Option.map_eq_some_iff.1 h
    obtain ⟨y, hy, rfl⟩ := Option.map_eq_some_iff.1 hz
    have := finish_zero hy
    refine ⟨rfl, ?_⟩
    dsimp only
    omega
  · simp only [Option.some.injEq] at h; subst h; exact ⟨rfl, rfl⟩

/-- Without workers the start is where materials and zones allow it. -/
theorem momentum_find_nil (hc : ∀ a b, cfg.costs a b = 0) {st : Momentum.State (State τ)} {v : Nat} {ind : Bool} {a : Option Int}
    {p inf : Int} {fuelIn fuel : Nat} {f : Momentum.Found} (hp : 0 ≤ p) {n : Int} {us : List Zone.Use}
    (hH : History cfg n st.env.zones us) (hn : ((reqs v).map (·.zone)).Nodup)
    (hk : ∀ q ∈ reqs v, ∃ s, st.env.zones q.zone = some s) (hest : ∀ v team, 0 ≤ base.estimate v team)
    (hmat : ∀ s t, base.matTime s v t ≤ t)
    (h : Momentum.find (site base cfg reqs) st v [] ind a p inf fuelIn fuel = some (some f)) :
    Granted cfg.costs st.env.zones (reqs v) f.start := by
  simp only [Momentum.find, Option.some.injEq] at h
  subst h
  dsimp only
  generalize hmp : Momentum.parentTimeOf (site base cfg reqs) st.sched a p v = mp
  have hge : p ≤ mp := by rw [← hmp]; unfold Momentum.parentTimeOf; omega
  have hex := execTimes_ge (E := site base cfg reqs) (fun v => hest v []) st.sched a p mp ((site base cfg reqs).chain v) 0
  generalize (Momentum.execTimes (site base cfg reqs) st.sched [] a p mp ((site base cfg reqs).chain v) 0).2 = ex at hex
  obtain ⟨s1, s2⟩ := search hc hH hn hk (Int.le_trans hp hge) hex
  have hm : (site base cfg reqs).matTime st.env v mp ≤ mp := hmat _ _
  have hz : (site base cfg reqs).zoneTime st.env v mp ex = zoneTime cfg.costs st.env.zones (reqs v) mp ex := rfl
  have e : max mp (max ((site base cfg reqs).matTime st.env v mp) ((site base cfg reqs).zoneTime st.env v mp ex)) =
      zoneTime cfg.costs st.env.zones (reqs v) mp ex := by rw [hz]; omega
  rw [e]
  exact .inl ⟨_, mp, ex, Int.le_trans hp hge, hex, s1⟩

/-- An assigned start of a team is taken as it is. -/
theorem momentum_find_assigned {E : Env σ} {st : Momentum.State σ} {v : Nat} {team : List Worker} {ind : Bool} {a p inf : Int}
    {fuelIn fuel : Nat} {f : Momentum.Found} (hne : team ≠ [])
    (h : Momentum.find E st v team ind (some a) p inf fuelIn fuel = some (some f)) : f.start = a := by
  cases team with
  | nil => exact absurd rfl hne
  | cons w ws =>
    simp only [Momentum.find, Momentum.findStart, Option.map_eq_some_iff, Option.some.injEq] at h
    obtain ⟨o, rfl, ho⟩ := h
    obtain ⟨t, ht, rfl⟩ := ho
    rw [Option.map_eq_some_iff] at ht
    obtain ⟨_, -, rfl⟩ := ht
    rfl

/-- A start found for a team is one at which the zones are granted. -/
theorem momentum_find_team (hc : ∀ a b, cfg.costs a b = 0) {st : Momentum.State (State τ)} {v : Nat} {team : List Worker} {ind : Bool}
    {p inf : Int} {fuelIn fuel : Nat} {f : Momentum.Found} (hp : 0 ≤ p) (hinf : p ≤ inf) (hest : ∀ v team, 0 ≤ base.estimate v team)
    (hne : team ≠ []) (h : Momentum.find (site base cfg reqs) st v team ind none p inf fuelIn fuel = some (some f)) :
    0 ≤ f.start ∧ ∀ {n : Int} {us : List Zone.Use}, History cfg n st.env.zones us → ((reqs v).map (·.zone)).Nodup →
      (∀ q ∈ reqs v, ∃ s, st.env.zones q.zone = some s) → Granted cfg.costs st.env.zones (reqs v) f.start := by
  cases team with
  | nil => exact absurd rfl hne
  | cons w ws =>
    simp only [Momentum.find, Momentum.findStart, Option.map_eq_some_iff] at h
    obtain ⟨o, ho, h⟩ := h
    obtain ⟨t, rfl, rfl⟩ := h
    split at ho
    · simp at ho
    · simp at ho
    · rename_i t' ht'
      simp only [Option.some.injEq, Option.map_eq_some_iff] at ho
      obtain ⟨_, -, rfl⟩ := ho
      have h0 : 0 ≤ t' := by
        have hpt : p ≤ Momentum.parentTimeOf (site base cfg reqs) st.sched none p v := by unfold Momentum.parentTimeOf; omega
        have := Momentum.findLoop_ge hpt hinf ht'
        omega
      refine ⟨h0, fun hH hn hk => ?_⟩
      exact granted_of_le hc hH hn hk h0 (execTimes_ge (E := site base cfg reqs) (fun v => hest v _) _ _ _ _ _ _)
        (momentum_findLoop_zone ht')

theorem momentum_step_held (hc : ∀ a b, cfg.costs a b = 0) {P : Plan (Momentum.State (State τ))} {inf : Int} {fuelIn fuel : Nat}
    {first last : Bool} {st st' : Momentum.State (State τ)} {v : Nat} {done : List Nat} (hn : ((reqs v).map (·.zone)).Nodup)
    (hv : v ∈ base.chain v) (hest : ∀ v team, 0 ≤ base.estimate v team)
    (hts : ∀ v ts, P.assignedTimes v = some ts → NonNegTimes ts) (hP : 0 ≤ P.parentTime) (hinf : P.parentTime ≤ inf)
    (hmat : ∀ st v c, P.choose st v = some ([], c) → ∀ s t, base.matTime s v t ≤ t)
    (hst : first = true → st.env.zones = Zone.init cfg) (hh : Held cfg reqs base.chain done st.sched st.env)
    (h : Momentum.step (site base cfg reqs) P inf fuelIn fuel first last st v = some (some st')) :
    Held cfg reqs base.chain (done ++ [v]) st'.sched st'.env := by
  simp only [Momentum.step] at h
  split at h
  · simp at h
  · rename_i c hch
    split at h
    · simp at h
    · simp at h
    · rename_i f hf
      split at h
      · simp at h
      · rename_i es hes
        simp only [Momentum.schedule, Option.map_eq_some_iff] at h
        obtain ⟨o, ho, h⟩ := h
        simp only [Option.bind_eq_some_iff, Momentum.scheduleAt, Option.map_eq_some_iff] at h
        obtain ⟨g, rfl, r, hr, tl', htl, env', henv, rfl⟩ := h
        obtain ⟨z1, z2⟩ := momentum_placeChain_env hr
        have hlen : 1 ≤ (base.chain v).length := List.length_pos_of_mem hv
        have hlen' : ((site base cfg reqs).chain v).length = (base.chain v).length := rfl
        have hrow : Row (fun _ _ _ => True) c.1 c.2 (base.chain v) g.start st.sched r.1 r.2.2 := by
          refine Momentum.placeChain_row (E := site base cfg reqs) (fun v => hest v _) ?_ hr
          cases hv : P.assignedTimes v with
          | none =>
            rw [Option.getD_none, Momentum.find_times ho]
            exact Momentum.timesOf_nonneg (Momentum.execTimes_nonneg (E := site base cfg reqs) (fun v => hest v _) _ _)
          | some ts => exact hts v ts hv
        obtain ⟨n, us, hH, hx⟩ := hh
        have f0 : 0 ≤ f.start := by
          by_cases hne : c.1 = []
          · rw [hne] at hf
            simp only [Momentum.find, Option.some.injEq] at hf
            subst hf
            simp only [Momentum.parentTimeOf]
            omega
          · exact (momentum_find_team hc hP hinf hest hne hf).1
        obtain ⟨e1, e2⟩ := momentum_startFor (by cases first <;> simp <;> assumption) hes
        refine held_step hn ⟨n, us, hH, hx⟩ hrow (by rw [z1, e1]) (by rw [z2, e1]; omega) henv fun hk => ?_
        by_cases hne : c.1 = []
        · rw [e1, hne] at ho
          exact momentum_find_nil (st := { st with env := st.env }) hc hP hH hn hk hest (hmat st v c.2 (by rw [hch, ← hne])) ho
        · rw [momentum_find_assigned hne ho, e2]
          cases first with
          | true =>
            rw [if_pos rfl, hst rfl]
            rw [hst rfl] at hk
            exact fresh_granted hc hk hP
          | false => exact (momentum_find_team hc hP hinf hest hne hf).2 hH hn hk

theorem momentum_buildFrom_held (hc : ∀ a b, cfg.costs a b = 0) {P : Plan (Momentum.State (State τ))} {inf : Int} {fuelIn fuel : Nat}
    {first : Bool} {order : List Nat} {st st' : Momentum.State (State τ)} {done : List Nat}
    (hn : ∀ v, ((reqs v).map (·.zone)).Nodup) (hv : ∀ v, v ∈ base.chain v) (hest : ∀ v team, 0 ≤ base.estimate v team)
    (hts : ∀ v ts, P.assignedTimes v = some ts → NonNegTimes ts) (hP : 0 ≤ P.parentTime) (hinf : P.parentTime ≤ inf)
    (hmat : ∀ st v c, P.choose st v = some ([], c) → ∀ s t, base.matTime s v t ≤ t)
    (hst : first = true → st.env.zones = Zone.init cfg) (hh : Held cfg reqs base.chain done st.sched st.env)
    (h : Momentum.buildFrom (site base cfg reqs) P inf fuelIn fuel first order st = some (some st')) :
    Held cfg reqs base.chain (done ++ order) st'.sched st'.env := by
  induction order generalizing first st done with
  | nil => simp only [Momentum.buildFrom, Option.some.injEq] at h; subst h; rwa [List.append_nil]
  | cons v vs ih =>
    simp only [Momentum.buildFrom] at h
    split at h
    · simp at h
    · simp at h
    · rename_i st1 h1
      have := ih (by simp) (momentum_step_held hc (hn v) (hv v) hest hts hP hinf hmat hst hh h1) h
      rwa [List.append_assoc] at this

end ZoneSite
end Sampo
