import Verif.Lemmas.ZoneSite
import Verif.Lemmas.SchedLive

namespace Sampo

namespace Zone

open Momentum (Event)

theorem valid_mono {start e1 e2 r : Int} {s : List Event} (h : e2 ≤ e1) (hv : valid start e1 r s = true) : valid start e2 r s = true := by
  unfold valid at hv ⊢
  rw [Bool.and_eq_true] at hv ⊢
  refine ⟨?_, hv.2⟩
  rw [List.all_eq_true] at hv ⊢
  intro e he
  have := hv.1 e he
  simp only [Bool.or_eq_true, Bool.not_eq_true', Bool.and_eq_false_iff, decide_eq_false_iff_not] at this ⊢
  rcases this with (h1 | h1) | h1
  · exact .inl (.inl h1)
  · exact .inl (.inr (by omega))
  · exact .inr h1

theorem queueLoop_le {costs : Int → Int → Int} (hc : ∀ a b, 0 ≤ costs a b) {tl : Timeline} (hp : AllProper tl) {reqs : List Req}
    {exec B : Int} (hexec : 0 ≤ exec)
    (hB : ∀ q ∈ reqs, ∃ s r l, tl q.zone = some s ∧ statusOf reqs q.zone = some r ∧ s.getLast? = some l ∧
      l.time + 1 ≤ B ∧ l.time + costs l.count r ≤ B) :
    ∀ (fuel : Nat) (queue done : List Req) (start t : Int), 0 ≤ start → (∀ q ∈ queue, q ∈ reqs) → (∀ q ∈ done, q ∈ reqs) →
      queueLoop costs tl reqs exec fuel queue done start = some (some t) → t ≤ max start B
  | fuel, [], done, start, t, _, _, _, h => by
    have : start = t := by cases fuel <;> simpa [queueLoop] using h
    omega
  | 0, _ :: _, _, _, _, _, _, _, h => by cases h
  | fuel + 1, q :: queue, done, start, t, h0, hq, hd, h => by
    obtain ⟨s, r, l, hs, hr, hl, hb1, hb2⟩ := hB q (hq q List.mem_cons_self)
    obtain ⟨t', k1, k2, _, _, k5⟩ := findSlot_spec hc (hp _ _ hs) hl r h0 hexec
    unfold queueLoop at h
    rw [hs, hr] at h
    simp only [Option.bind_some, k1] at h
    rw [if_neg (by omega), max_eq_right k2] at h
    have hq' : ∀ x ∈ queue, x ∈ reqs := fun x hx => hq x (List.mem_cons_of_mem _ hx)
    have hd' : ∀ x ∈ done ++ [q], x ∈ reqs := by
      intro x hx
      rcases List.mem_append.mp hx with hx | hx
      · exact hd x hx
      · rw [List.mem_singleton.mp hx]; exact hq q List.mem_cons_self
    split at h
    · have := queueLoop_le hc hp hexec hB fuel queue (done ++ [q]) t' t (by omega) hq' hd' h
      omega
    · have := queueLoop_le hc hp hexec hB fuel (queue ++ done) [q] t' t (by omega)
        (fun x hx => (List.mem_append.mp hx).elim (hq' x) (hd x)) (fun x hx => hd' x (List.mem_append_right _ hx)) h
      omega

end Zone

namespace ZoneSite

variable {τ : Type} {base : Env τ} {cfg : Zone.Config} {reqs : Nat → List Zone.Req} {σ : Type}

open Zone (History Granted AllProper)

theorem proper_of (hc : ∀ a b, cfg.costs a b = 0) {n : Int} {tl : Zone.Timeline} {us : List Zone.Use} (h : History cfg n tl us) :
    AllProper tl := by
  intro z s hs
  rcases Zone.history_inv hc h z with ⟨_, h1, _⟩ | ⟨st, s', R, _, h1, h2, _⟩
  · rw [h1] at hs; cases hs
  · rw [h1] at hs; obtain rfl := Option.some.inj hs; exact h2.proper

theorem known_of (hc : ∀ a b, cfg.costs a b = 0) {n : Int} {tl : Zone.Timeline} {us : List Zone.Use} (h : History cfg n tl us)
    {rs : List Zone.Req} (hk : ∀ q ∈ rs, cfg.startStatuses q.zone ≠ none) : ∀ q ∈ rs, ∃ s, tl q.zone = some s := by
  intro q hq
  rcases Zone.history_inv hc h q.zone with ⟨h1, _, _⟩ | ⟨st, s', R, _, h1, h2, _⟩
  · exact absurd h1 (hk q hq)
  · exact ⟨s', h1⟩

theorem bounds (hc : ∀ a b, cfg.costs a b = 0) {n : Int} {tl : Zone.Timeline} {us : List Zone.Use} (h : History cfg n tl us)
    {rs : List Zone.Req} (hn : (rs.map (·.zone)).Nodup) (hk : ∀ q ∈ rs, ∃ s, tl q.zone = some s) :
    ∀ q ∈ rs, ∃ s r l, tl q.zone = some s ∧ Zone.statusOf rs q.zone = some r ∧ s.getLast? = some l ∧
      l.time + 1 ≤ horizon cfg.costs tl rs ∧ l.time + cfg.costs l.count r ≤ horizon cfg.costs tl rs := by
  intro q hq
  obtain ⟨s, hs⟩ := hk q hq
  obtain ⟨x, xs, rfl, -⟩ := (proper_of hc h _ _ hs).initial
  have hl : (x :: xs).getLast? = some ((x :: xs).getLast (by simp)) := List.getLast?_eq_some_getLast _
  have := le_horizon (costs := cfg.costs) hq hs hl
  exact ⟨_, _, _, hs, Zone.statusOf_mem hn hq, hl, by omega, by omega⟩

/-- The zones delay a work at most until all of them are free. -/
theorem zoneTime_le (hc : ∀ a b, cfg.costs a b = 0) {n : Int} {tl : Zone.Timeline} {us : List Zone.Use} (h : History cfg n tl us)
    {rs : List Zone.Req} (hn : (rs.map (·.zone)).Nodup) (hk : ∀ q ∈ rs, ∃ s, tl q.zone = some s) {t exec : Int} (ht : 0 ≤ t)
    (he : 0 ≤ exec) : zoneTime cfg.costs tl rs t exec ≤ max t (horizon cfg.costs tl rs) :=
  Zone.queueLoop_le (fun a b => by rw [hc]) (proper_of hc h) he (bounds hc h hn hk) _ rs [] t _ ht (fun _ h => h) (by simp)
    (search hc h hn hk ht he).1

/-- A time that the search gives is valid for all zones. -/
theorem valid_of_search (hc : ∀ a b, cfg.costs a b = 0) {n : Int} {tl : Zone.Timeline} {us : List Zone.Use} (h : History cfg n tl us)
    {rs : List Zone.Req} (hn : (rs.map (·.zone)).Nodup) (hk : ∀ q ∈ rs, ∃ s, tl q.zone = some s) {t exec : Int} (ht : 0 ≤ t)
    (he : 0 ≤ exec) : ∀ q ∈ rs, ∃ s, tl q.zone = some s ∧ Zone.valid (zoneTime cfg.costs tl rs t exec) exec q.status s = true := by
  intro q hq
  obtain ⟨s, r, h1, h2, -, h3⟩ := (Zone.queueLoop_good (fun a b => by rw [hc]) (proper_of hc h) he _ rs [] t _ ht (by simp)
    (search hc h hn hk ht he).1).2 q (by simpa using hq)
  rw [Zone.statusOf_mem hn hq] at h2
  obtain rfl := Option.some.inj h2
  exact ⟨s, h1, h3⟩

/-- Taking a time that is valid for all zones succeeds. -/
theorem occupy_some (hc : ∀ a b, cfg.costs a b = 0) {n : Int} {us : List Zone.Use} {env : State τ} (h : History cfg n env.zones us)
    {v : Nat} (hn : ((reqs v).map (·.zone)).Nodup) {start e1 e2 : Int} (h0 : 0 ≤ start) (he : e2 ≤ e1)
    (hv : ∀ q ∈ reqs v, ∃ s, env.zones q.zone = some s ∧ Zone.valid start e1 q.status s = true) :
    ∃ env', (site base cfg reqs).occupy env v start e2 = some env' := by
  obtain ⟨r, hr⟩ := Zone.update_succeeds (costs := cfg.costs) (idx := env.placed) (start := start) (exec := e2) hn fun q hq => by
    obtain ⟨s, h1, h2⟩ := hv q hq
    obtain ⟨l, hl⟩ := (proper_of hc h _ _ h1).lastAt_some h0
    exact ⟨s, l, h1, hl, Zone.valid_mono he h2⟩
  exact ⟨_, by simp only [site, hr, Option.map_some]; rfl⟩

/-- On a new timeline every time is valid. -/
theorem fresh_valid (hc : ∀ a b, cfg.costs a b = 0) {rs : List Zone.Req} (hk : ∀ q ∈ rs, ∃ s, Zone.init cfg q.zone = some s)
    {t exec : Int} (ht : 0 ≤ t) : ∀ q ∈ rs, ∃ s, Zone.init cfg q.zone = some s ∧ Zone.valid t exec q.status s = true := by
  intro q hq
  obtain ⟨s, hs⟩ := hk q hq
  refine ⟨s, hs, Zone.valid_of_all (proper_of hc .fresh _ _ hs) ht ?_⟩
  unfold Zone.init at hs
  obtain ⟨st, -, rfl⟩ := Option.map_eq_some_iff.1 hs
  intro e he
  rw [List.mem_singleton.mp he]
  exact ht

/-! ### Just-in-time timeline -/

theorem jit_findLoop_ends {E : Env σ} {tl : JIT.Timeline} {env : σ} {node : Nat} {team : List Worker} {ind : Bool} {exec B : Int}
    (hfind : ∀ t, ∃ r, JIT.findMinStart tl ind team t = some r) (hm : ∀ t, E.matTime env node t ≤ t)
    (hz : ∀ t, 0 ≤ t → E.zoneTime env node t exec ≤ max t B) :
    ∀ (n : Nat) (cur : Int), 0 ≤ cur → (B - cur).toNat < n → ∃ r, ∀ fuel, n ≤ fuel →
      JIT.findLoop E tl env node team ind exec fuel cur = some (some r)
  | 0, _, _, h => absurd h (by omega)
  | n + 1, cur, h0, h => by
    obtain ⟨c, hc⟩ := hfind cur
    have hle := JIT.findMinStart_le hc
    have h1 := hm c
    have h2 := hz c (by omega)
    by_cases h3 : E.zoneTime env node c exec > c
    · obtain ⟨r, hr⟩ := jit_findLoop_ends hfind hm hz n (E.zoneTime env node c exec) (by omega) (by omega)
      refine ⟨r, fun fuel hf => ?_⟩
      obtain ⟨k, rfl⟩ : ∃ k, fuel = k + 1 := ⟨fuel - 1, by omega⟩
      simp only [JIT.findLoop, hc]
      rw [if_neg (by omega), if_pos h3]
      exact hr k (by omega)
    · refine ⟨c, fun fuel hf => ?_⟩
      obtain ⟨k, rfl⟩ : ∃ k, fuel = k + 1 := ⟨fuel - 1, by omega⟩
      simp only [JIT.findLoop, hc]
      rw [if_neg (by omega), if_neg h3]

/-- Without assigned durations and lags inside the chain, placing takes no longer than the search assumed. -/
theorem jit_placeChain_time {E : Env σ} (hdel : ∀ s v t, ∃ s' t', E.deliver s v t = some (s', t') ∧ t' ≤ t) {team : List Worker}
    {c : Nat} (hest : ∀ v, 0 ≤ E.estimate v team) {C : List Nat}
    (hlag : ∀ u ∈ C, ∀ e ∈ E.edgesTo u, e.1 ∈ C → e.2 ≤ 0) {sw0 : Sched} {start : Int} (h0 : 0 ≤ start) {vs : List Nat}
    (hvs : ∀ v ∈ vs, v ∈ C) {cur acc : Int} {s : σ} {sw : Sched} {r : Int × σ × Sched} (hacc : 0 ≤ acc) (hcur : cur ≤ start + acc)
    (hsw : ∀ u y, sw.get u = some y → sw0.get u = some y ∨ u ∈ C ∧ y.finish ≤ start + acc)
    (h : JIT.placeChain E team c (fun _ => none) vs cur s sw = some r) : r.1 ≤ start + JIT.chainDuration E team sw0 vs acc := by
  induction vs generalizing cur acc s sw with
  | nil => simp only [JIT.placeChain, Option.some.injEq] at h; subst h; exact hcur
  | cons v vs ih =>
    simp only [JIT.placeChain] at h
    split at h
    · simp only [Option.bind_eq_some_iff, Option.getD_none] at h
      obtain ⟨d, hd, h⟩ := h
      obtain ⟨s', t', hd', ht⟩ := hdel s v (max (cur + 0) (minStart (E.edgesTo v) sw))
      rw [hd'] at hd
      obtain rfl := Option.some.inj hd
      dsimp only at h
      have hv := hvs v List.mem_cons_self
      have hms : minStart (E.edgesTo v) sw ≤ start + max acc (minStart (E.edgesTo v) sw0) := by
        refine minStart_le (by omega) fun e he y hy => ?_
        rcases hsw e.1 y hy with h1 | ⟨h1, h2⟩
        · have := le_minStart he h1
          omega
        · have := hlag v hv e he h1
          omega
      have he := hest v
      simp only [JIT.chainDuration]
      refine ih (fun u hu => hvs u (List.mem_cons_of_mem _ hu)) (by omega) (by omega) ?_ h
      intro u y hy
      rw [get_cons] at hy
      split at hy
      · rename_i huv
        cases hy
        exact .inr ⟨huv ▸ hv, by dsimp only; omega⟩
      · rcases hsw u y hy with h1 | ⟨h1, h2⟩
        · exact .inl h1
        · exact .inr ⟨h1, by omega⟩
    · cases h

theorem site_deliver (hm : NoMaterialLimits base) (s : State τ) (v : Nat) (t : Int) :
    ∃ s' t', (site base cfg reqs).deliver s v t = some (s', t') ∧ t' ≤ t := by
  obtain ⟨s', t', h1, h2⟩ := hm.deliver s.mat v t
  exact ⟨_, t', by simp only [site, h1, Option.map_some]; rfl, h2⟩

theorem jit_placeChain_some {E : Env σ} (hdel : ∀ s v t, ∃ s' t', E.deliver s v t = some (s', t') ∧ t' ≤ t) (hce : ChainEdges E)
    {team : List Worker} {c : Nat} {times : ExecTimes} {vs : List Nat} {cur : Int} {s : σ} {sw : Sched}
    (h : TopoFrom (fun v => (E.edgesTo v).map (·.1)) sw.works vs) : ∃ r, JIT.placeChain E team c times vs cur s sw = some r := by
  let E' : Env σ := { E with matTime := fun _ _ t => t, zoneTime := fun _ _ t _ => t, occupy := fun s _ _ _ => some s,
                             finishZones := fun s => some (s, 0) }
  obtain ⟨r, hr⟩ := JIT.placeChain_some (E := E') (team := team) (c := c) (times := times) (cur := cur) (s := s)
    ⟨fun _ _ _ => Int.le_refl _, fun _ _ _ _ => Int.le_refl _, hdel, fun s _ _ _ => ⟨s, rfl⟩, fun s => ⟨s, 0, rfl, Int.le_refl _⟩⟩ hce h
  refine ⟨r, ?_⟩
  rw [← hr]
  clear hr h
  induction vs generalizing cur s sw with
  | nil => rfl
  | cons v vs ih => simp only [JIT.placeChain, ih]; rfl

theorem jit_step_some (hm : NoMaterialLimits base) (hz : Zone.Usable cfg reqs) (hce : ChainEdges base) {pool : AgentId → Option Int}
    {P : Plan (JIT.State (State τ))} {first last : Bool} {st : JIT.State (State τ)} {v : Nat}
    (hlag : ∀ u ∈ base.chain v, ∀ e ∈ base.edgesTo u, e.1 ∈ base.chain v → e.2 ≤ 0) (hest : ∀ v team, 0 ≤ base.estimate v team)
    (hts : P.assignedTimes v = none) (hP : 0 ≤ P.parentTime)
    (hteam : ∃ team c, P.choose st v = some (team, c) ∧ WellFormedTeam team ∧ WithinPool pool team)
    (htl : ∃ ps, JIT.History pool st.tl ps)
    (hst : (first = true ∧ st.env.zones = Zone.init cfg) ∨ (first = false ∧ st.sched ≠ []))
    (hH : ∃ n us, History cfg n st.env.zones us)
    (htopo : TopoFrom (fun v => (base.edgesTo v).map (·.1)) st.sched.works (base.chain v)) :
    ∃ N st', ∀ fuel, N ≤ fuel → JIT.step (site base cfg reqs) P fuel first last st v = some (some st') := by
  obtain ⟨team, c, hch, hwf, hwp⟩ := hteam
  obtain ⟨ps, hh⟩ := htl
  obtain ⟨n, us, hH⟩ := hH
  have hk := known_of hz.free hH (hz.known v)
  have hex := chainDuration_ge (E := site base cfg reqs) (team := team) (fun v => hest v _) st.sched ((site base cfg reqs).chain v) 0
  -- the search
  obtain ⟨N, f, hf, hf'⟩ : ∃ N f, (∀ fuel, N ≤ fuel →
      JIT.find (site base cfg reqs) st v team (P.independent v) P.parentTime fuel = some (some f)) ∧
      (st.sched ≠ [] → 0 ≤ f.1 ∧ zoneTime cfg.costs st.env.zones (reqs v) f.1
        (JIT.chainDuration (site base cfg reqs) team st.sched ((site base cfg reqs).chain v) 0) ≤ f.1) := by
    by_cases hs : st.sched = []
    · refine ⟨0, (_, _), fun fuel _ => by simp only [JIT.find, hs, List.isEmpty_nil, if_true]; rfl, fun h => absurd hs h⟩
    · obtain ⟨r, hr⟩ := jit_findLoop_ends (E := site base cfg reqs) (tl := st.tl) (env := st.env) (node := v) (team := team)
        (ind := P.independent v) (exec := JIT.chainDuration (site base cfg reqs) team st.sched ((site base cfg reqs).chain v) 0)
        (B := horizon cfg.costs st.env.zones (reqs v)) (fun t => JIT.findMinStart_some hh hwf hwp _ t) (fun t => hm.material _ _ t)
        (fun t ht => zoneTime_le hz.free hH (hz.once v) hk ht hex) _ 0 (Int.le_refl _) (Nat.lt_succ_self _)
      refine ⟨(horizon cfg.costs st.env.zones (reqs v) - 0).toNat + 1, (r, r + JIT.chainDuration (site base cfg reqs) team st.sched ((site base cfg reqs).chain v) 0), fun fuel hfu => ?_,
        fun _ => jit_findLoop_zone (E := site base cfg reqs) (Int.le_refl _) (hr _ (Nat.le_refl _))⟩
      simp only [JIT.find, List.isEmpty_iff, hs, if_false]
      rw [hr fuel hfu]
      rfl
  -- the start
  obtain ⟨es, hes⟩ : ∃ es, JIT.startFor (site base cfg reqs) P first last st.env f.1 = some es := by
    unfold JIT.startFor
    dsimp only
    split
    · refine ⟨_, by simp only [site, Zone.finishStatuses, hz.final, List.isEmpty_nil, if_true, Option.map_some]; rfl⟩
    · exact ⟨_, rfl⟩
  have hstart : es.1 = st.env ∧ 0 ≤ es.2 ∧ ∃ e1, (first = true ∨
      JIT.chainDuration (site base cfg reqs) team st.sched ((site base cfg reqs).chain v) 0 = e1) ∧
      ∀ q ∈ reqs v, ∃ s, st.env.zones q.zone = some s ∧ ∀ e2, (first = true ∨ e2 ≤ e1) → Zone.valid es.2 e2 q.status s = true := by
    rcases hst with ⟨rfl, h2⟩ | ⟨rfl, h2⟩
    · obtain ⟨e1, e2⟩ := jit_startFor (by simpa using hP) hes
      rw [if_pos rfl] at e2
      refine ⟨e1, by omega, 0, .inl rfl, fun q hq => ?_⟩
      obtain ⟨s, hs⟩ := hk q hq
      refine ⟨s, hs, fun e _ => ?_⟩
      rw [h2] at hs hk
      obtain ⟨s', hs', hv⟩ := fresh_valid hz.free hk (t := es.2) (exec := e) (by omega) q hq
      rw [hs] at hs'
      obtain rfl := Option.some.inj hs'
      exact hv
    · obtain ⟨t1, t2⟩ := hf' h2
      obtain ⟨e1, e2⟩ := jit_startFor (by simpa using t1) hes
      simp only [Bool.false_eq_true, if_false] at e2
      refine ⟨e1, by omega, _, .inr rfl, fun q hq => ?_⟩
      have h3 := (search hz.free hH (hz.once v) hk t1 hex).2
      have h4 : zoneTime cfg.costs st.env.zones (reqs v) f.1
        (JIT.chainDuration (site base cfg reqs) team st.sched ((site base cfg reqs).chain v) 0) = f.1 := by omega
      obtain ⟨s, hs, hv⟩ := valid_of_search hz.free hH (hz.once v) hk t1 hex q hq
      rw [h4] at hv
      refine ⟨s, hs, fun e he => ?_⟩
      rw [e2]
      exact Zone.valid_mono (he.resolve_left (by simp)) hv
  obtain ⟨m1, m0, e1, m2, m3⟩ := hstart
  obtain ⟨pc, hpc⟩ := jit_placeChain_some (E := site base cfg reqs) (team := team) (c := c)
    (times := (P.assignedTimes v).getD fun _ => none) (cur := es.2) (s := es.1) (site_deliver hm) hce htopo
  obtain ⟨tl', htl'⟩ := JIT.update_some (fin := pc.1) (ind := P.independent v) (tl := st.tl) hwf.2
    (by
      intro w hw
      obtain ⟨k, hk, hle⟩ := hwp w hw
      obtain ⟨q, hq, _⟩ := JIT.history_inv hh hk (by have := hwf.2 w hw; omega)
      simp [hq])
    (JIT.history_ne hh)
  have htime : pc.1 ≤ es.2 + JIT.chainDuration (site base cfg reqs) team st.sched ((site base cfg reqs).chain v) 0 := by
    rw [hts] at hpc
    exact jit_placeChain_time (E := site base cfg reqs) (site_deliver hm) (fun v => hest v _) (C := base.chain v) hlag m0
      (fun _ h => h) (Int.le_refl _) (by omega) (fun u y hy => .inl hy) hpc
  obtain ⟨z1, -⟩ := jit_placeChain_env hpc
  obtain ⟨env', henv⟩ := occupy_some (base := base) (env := pc.2.1) hz.free (by rw [z1, m1]; exact hH) (hz.once v) m0
    (Int.le_refl (pc.1 - es.2)) (by
      rw [z1, m1]
      intro q hq
      obtain ⟨s, hs, hv⟩ := m3 q hq
      refine ⟨s, hs, hv _ ?_⟩
      rcases m2 with h | h
      · exact .inl h
      · exact .inr (by omega))
  refine ⟨N, ⟨tl', env', pc.2.2⟩, fun fuel hfu => ?_⟩
  have hpc' : JIT.placeChain (site base cfg reqs) team c ((P.assignedTimes v).getD fun _ => none) ((site base cfg reqs).chain v) es.2
    es.1 st.sched = some pc := hpc
  simp only [JIT.step, hch, hf fuel hfu, hes, Option.bind_some, JIT.scheduleAt, hpc', htl', henv, Option.map_some]

theorem jit_buildFrom_some (hm : NoMaterialLimits base) (hz : Zone.Usable cfg reqs) (hce : ChainEdges base)
    {pool : AgentId → Option Int} {P : Plan (JIT.State (State τ))} (hest : ∀ v team, 0 ≤ base.estimate v team)
    (hts : ∀ v, P.assignedTimes v = none) (hchain : ∀ v, v ∈ base.chain v) (hP : 0 ≤ P.parentTime) {order : List Nat}
    (hlag : ∀ v ∈ order, ∀ u ∈ base.chain v, ∀ e ∈ base.edgesTo u, e.1 ∈ base.chain v → e.2 ≤ 0)
    (hsome : ∀ st, ∀ v ∈ order, ∃ team c, P.choose st v = some (team, c))
    (hteam : ∀ st v team c, P.choose st v = some (team, c) → WellFormedTeam team ∧ WithinPool pool team)
    {first : Bool} {st : JIT.State (State τ)} {done : List Nat}
    (hst : (first = true ∧ st.tl = JIT.init pool ∧ st.sched = [] ∧ st.env.zones = Zone.init cfg) ∨
      (first = false ∧ st.sched ≠ [] ∧ JIT.Covered pool st))
    (hh : Held cfg reqs base.chain done st.sched st.env)
    (htopo : TopoFrom (fun v => (base.edgesTo v).map (·.1)) st.sched.works (order.flatMap base.chain)) :
    ∃ N st', ∀ fuel, N ≤ fuel → JIT.buildFrom (site base cfg reqs) P fuel first order st = some (some st') := by
  induction order generalizing first st done with
  | nil => exact ⟨0, st, fun _ _ => rfl⟩
  | cons v vs ih =>
    rw [List.flatMap_cons] at htopo
    obtain ⟨t1, t2⟩ := JIT.topoFrom_append htopo
    have hps : ∃ ps, JIT.History pool st.tl ps := by
      rcases hst with ⟨_, h, _⟩ | ⟨_, _, ps, h, _⟩
      · exact ⟨[], h ▸ .fresh⟩
      · exact ⟨ps, h⟩
    have hst' : (first = true ∧ st.env.zones = Zone.init cfg) ∨ (first = false ∧ st.sched ≠ []) :=
      hst.imp (fun h => ⟨h.1, h.2.2.2⟩) fun h => ⟨h.1, h.2.1⟩
    have hst'' : (first = true ∧ st.tl = JIT.init pool ∧ st.sched = []) ∨ (first = false ∧ st.sched ≠ [] ∧ JIT.Covered pool st) :=
      hst.imp (fun h => ⟨h.1, h.2.1, h.2.2.1⟩) fun h => h
    have hts' : ∀ v ts, P.assignedTimes v = some ts → NonNegTimes ts := fun v ts h => by rw [hts] at h; cases h
    obtain ⟨team, c, hch⟩ := hsome st v (by simp)
    obtain ⟨n, us, hH, hHe⟩ := hh
    obtain ⟨N1, st1, h1⟩ := jit_step_some (first := first) (last := vs.isEmpty) hm hz hce (hlag v (by simp)) hest (hts v) hP
      ⟨team, c, hch, hteam st v team c hch⟩ hps hst' ⟨n, us, hH⟩ t1
    have hs1 := h1 N1 (Nat.le_refl _)
    obtain ⟨team, c, start, fin, _, hrow, _⟩ := JIT.step_spec (E := site base cfg reqs) hest hts' hs1
    have hw := hrow.works
    obtain ⟨a, b⟩ := jit_step_held hz.free (hz.once v) (hchain v) hest hts' hP hst' ⟨n, us, hH, hHe⟩ hs1
    obtain ⟨N2, st2, h2⟩ := ih (fun u hu => hlag u (by simp [hu])) (fun st u hu => hsome st u (by simp [hu])) (first := false)
      (st := st1) (.inr ⟨rfl, b, JIT.step_covered (E := site base cfg reqs) hest hts' hteam hP hst'' hs1⟩) a (by rw [hw]; exact t2)
    refine ⟨max N1 N2, st2, fun fuel hf => ?_⟩
    simp only [JIT.buildFrom, h1 fuel (by omega), h2 fuel (by omega)]

end ZoneSite
end Sampo
