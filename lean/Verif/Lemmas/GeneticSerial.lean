import Verif.Model.GeneticSerial
import Verif.Lemmas.GeneticFull
import Verif.Lemmas.HorizonRun
import Verif.Lemmas.Staffed

/-!
# Lemmas: complete decoding in the serial scheme
-/

namespace Sampo.Decode

variable {σ : Type} {D : Input σ} {E : Env σ}

/-- Decoding with teams that fit ends, and the horizon is bounded by lags and durations. -/
theorem serialFrom_some_before (hsite : NoSiteLimits E) (hest : ∀ v team, 0 ≤ E.estimate v team) {pool : AgentId → Option Int}
    {inf : Int} (hP : 0 ≤ D.parentTime) {L d : Int} (hL : 0 ≤ L) (hD : 0 ≤ d)
    (hestD : ∀ v team, E.estimate v team ≤ d) (hlag : ∀ v, ∀ e ∈ E.edgesTo v, e.2 ≤ L)
    (hts : ∀ v, D.assignedTime v = none) (hchain : ∀ v, v ∈ E.chain v) {is : List Nat} (hnd : ∀ i ∈ is, (E.chain (D.node i)).Nodup)
    (hteam : ∀ i ∈ is, ∃ team, serialTeam D i = some team ∧ Momentum.Fits E pool (D.node i) team)
    {first : Bool} {st : Momentum.State σ} {M : Int} (hb : Momentum.Before st M) (hM : D.parentTime ≤ M)
    (hst : (first = true ∧ Momentum.History pool st.tl []) ∨ (first = false ∧ ∃ ps, Momentum.History pool st.tl ps)) :
    ∃ N st', Momentum.Before st' (M + ((is.map D.node).flatMap E.chain).length * (L + d)) ∧
      ∀ fuelIn fuel, N ≤ fuelIn → serialFrom D E (fun st _ => some st.env) inf fuelIn (fuel + 1) first is st = some (some st') := by
  induction is generalizing first st M with
  | nil => exact ⟨0, st, by simpa using hb, fun _ _ _ => rfl⟩
  | cons i is ih =>
    have hts' : (serialPlan D E i).assignedTimes (D.node i) = none := by simp [serialPlan, hts]
    have ht : ∃ team c, (serialPlan D E i).choose st (D.node i) = some (team, c) ∧ Momentum.Fits E pool (D.node i) team := by
      obtain ⟨team, h1, h2⟩ := hteam i (by simp)
      exact ⟨team, D.chrom.contractor i, by simp [serialPlan, h1], h2⟩
    obtain ⟨N1, st1, h1, hh1⟩ := Momentum.step_some (P := serialPlan D E i) (inf := inf) (first := first) (last := false) hsite hest hP
      hts' (hnd i (by simp)) ht hst
    obtain ⟨ps, hh⟩ : ∃ ps, Momentum.History pool st.tl ps := by
      rcases hst with ⟨_, h⟩ | ⟨_, h⟩
      · exact ⟨[], h⟩
      · exact h
    have hb1 := Momentum.step_before (P := serialPlan D E i) hsite hest hh hb (by omega) hL hD hP hM hts' (hnd i (by simp)) (hchain _)
      (fun team c hc => by
        obtain ⟨t, c', h, hf⟩ := ht
        rw [hc] at h
        simp only [Option.some.injEq, Prod.mk.injEq] at h
        rw [h.1]; exact hf)
      (fun team c _ u _ => hestD u team) (fun u _ e he => hlag u e he) (h1 N1 0 (Nat.le_refl _))
    have hpos : 0 ≤ ((E.chain (D.node i)).length : Int) * (L + d) := Int.mul_nonneg (by omega) (by omega)
    obtain ⟨N2, st2, hb2, h2⟩ := ih (fun u hu => hnd u (by simp [hu])) (fun u hu => hteam u (by simp [hu])) (first := false) (st := st1)
      hb1 (by omega) (.inr ⟨rfl, hh1⟩)
    refine ⟨max N1 N2, st2, ?_, fun fuelIn fuel hN => ?_⟩
    · rw [List.map_cons, List.flatMap_cons, List.length_append]
      push_cast
      rw [Int.add_mul, ← Int.add_assoc]
      exact hb2
    · simp only [serialFrom, h1 fuelIn fuel (by omega)]
      exact h2 fuelIn fuel (by omega)

theorem serialFrom_staffed {post : Momentum.State σ → Nat → Option σ} {inf : Int} {fuelIn fuel : Nat} {S : Nat → List Worker → Nat → Prop}
    (hest : ∀ v team, 0 ≤ E.estimate v team) (hts : ∀ v, D.assignedTime v = none) (hP : 0 ≤ D.parentTime) (hinf : D.parentTime ≤ inf)
    {is : List Nat} (hS : ∀ i ∈ is, ∀ team, serialTeam D i = some team → S (D.node i) team (D.chrom.contractor i))
    (hnd : ((is.map D.node).flatMap E.chain).Nodup) {first : Bool} {st st' : Momentum.State σ}
    (h : serialFrom D E post inf fuelIn fuel first is st = some (some st')) :
    ∀ i ∈ is, ∀ u ∈ E.chain (D.node i), ∃ x, st'.sched.get u = some x ∧ S (D.node i) x.team x.contractor := by
  induction is generalizing first st with
  | nil => simp
  | cons i is ih =>
    obtain ⟨st1, env, h1, h2⟩ := serialFrom_cons h
    obtain ⟨team, c, start, fin, hch, hrow, _⟩ := Momentum.step_row hest (fun v ts hv => by simp [serialPlan, hts] at hv) hP hinf h1
    simp only [serialPlan, Option.map_eq_some_iff, Prod.mk.injEq] at hch
    obtain ⟨team', ht, rfl, rfl⟩ := hch
    intro j hj
    rcases List.mem_cons.mp hj with rfl | hj
    · have hrun := serialFrom_run hest (fun v t hv => by rw [hts v] at hv; cases hv) hP hinf h2
      exact hrow.staffed (S := S (D.node j)) (hS j (by simp) _ ht) (by simpa using hnd) hrun
    · rw [List.map_cons, List.flatMap_cons, List.nodup_append] at hnd
      exact ih (fun j hj => hS j (by simp [hj])) hnd.2.1 h2 j hj

theorem serialFrom_zero {post : Momentum.State σ → Nat → Option σ} {inf : Int} {fuelIn fuel : Nat} {zero : Nat → Bool}
    (he : ∀ v team, zero v = true → E.estimate v team = 0) (hts : ∀ v, D.assignedTime v = none) {is : List Nat} {first : Bool}
    {st st' : Momentum.State σ} (hz : Zero zero st.sched) (h : serialFrom D E post inf fuelIn fuel first is st = some (some st')) :
    Zero zero st'.sched := by
  induction is generalizing first st with
  | nil => simp only [serialFrom, Option.some.injEq] at h; subst h; exact hz
  | cons i is ih =>
    obtain ⟨st1, env, h1, h2⟩ := serialFrom_cons h
    have hz1 : Zero zero st1.sched := Momentum.step_zero (P := serialPlan D E i) he (fun v => by simp [serialPlan, hts]) hz h1
    exact ih (st := { st1 with env := env }) hz1 h2

end Sampo.Decode

namespace Sampo.GeneticFull

open GeneticRun Scheduler
open Genetic (Ind Problem)

variable {σ : Type} {T : Job σ} {m : Nat} {L D : Int}

/-- The team of the serial scheme. -/
theorem serialTeam_meets (h : Ready T m L D) {heads : List Nat} {P : Problem} (hp : Prepared T.J m heads P) {optimize : Bool} {i : Ind}
    (hi : Good P optimize i) {j : Nat} (hj : j ∈ i.order) :
    ∃ c ∈ T.J.contractors, c.id = i.res.contractor j ∧ C14.Admissible (T.J.spec (node heads j)) c ∧
      ∃ team, Decode.serialTeam (input T.J heads T.B i) j = some team ∧ C16.Meets c (T.J.reqs (node heads j)) team ∧
        ∀ w ∈ team, w.name < m ∧ w.count = i.res.amount j w.name := by
  have hlt := hp.lt hi.valid hj
  have hltP : j < P.n := by rw [hp.n]; exact hlt
  have hknown := hi.valid.resources.known j hltP
  rw [hp.nc] at hknown
  have hget : T.J.contractors[i.res.contractor j]? = some T.J.contractors[i.res.contractor j] := List.getElem?_eq_getElem hknown
  have hid := h.project.sound.contractors.ids _ _ hget
  have hkind : ∀ r ∈ T.J.reqs (node heads j), r.kind < m := (h.project.sound.reqs (node heads j)).2.2
  have hnd := (h.project.sound.reqs (node heads j)).2.1
  refine ⟨T.J.contractors[i.res.contractor j], List.getElem_mem _, hid, ?_,
    (T.J.reqs (node heads j)).map fun r => ⟨i.res.contractor j, r.kind, i.res.amount j r.kind⟩, ?_, ?_, ?_⟩
  · have he := hi.valid.resources.allowed j hltP
    rw [hp.enabled] at he
    simpa [WorkSpec.enabled, C14.Admissible, hid] using he
  · unfold Decode.serialTeam
    have : (T.J.reqs (node heads j)).mapM (fun r => (getPool T.J.contractors r.kind (i.res.contractor j)).map fun _ =>
        (⟨i.res.contractor j, r.kind, i.res.amount j r.kind⟩ : Worker)) =
        some ((T.J.reqs (node heads j)).map fun r => ⟨i.res.contractor j, r.kind, i.res.amount j r.kind⟩) :=
      mapM_option_of_forall fun r hr => by rw [(h.project.sound.contractors.pool hget (hkind r hr)).1]; rfl
    simp only [input]
    rw [this, Option.bind_some, h.project.plain.counts]
    unfold Decode.respec
    split
    · rename_i he
      have : T.J.reqs (node heads j) = [] := List.length_eq_zero_iff.1 (by simpa using he.symm)
      rw [this]
      rfl
    · congr 1
      conv_rhs => rw [← List.map_id (List.map _ _)]
      refine List.map_congr_left fun w _ => ?_
      simp
  · unfold C16.Meets
    rw [List.forall₂_map_right_iff, List.forall₂_same]
    intro r hr
    have hk : r.kind < P.m := by rw [hp.kinds]; exact hkind r hr
    have hlo := hi.valid.resources.low j hltP r.kind hk
    have hhi := hi.valid.resources.high j hltP r.kind hk
    rw [hp.lo, limit_of_mem hnd hr] at hlo
    rw [hp.hi, limit_of_mem hnd hr] at hhi
    refine ⟨rfl, hid.symm, hlo, hhi, _, (h.project.sound.contractors.pool hget (hkind r hr)).2, ?_⟩
    have h1 := hi.valid.resources.fits j hltP r.kind hk
    have h2 := hi.valid.resources.capacity _ (hi.valid.resources.known j hltP) r.kind hk
    rw [hp.cap] at h2
    exact Int.le_trans h1 h2
  · intro w hw
    obtain ⟨r, hr, rfl⟩ := List.mem_map.1 hw
    exact ⟨hkind r hr, rfl⟩

theorem serial_fits (h : Ready T m L D) {heads : List Nat} {P : Problem} (hp : Prepared T.J m heads P) {optimize : Bool} {i : Ind}
    (hi : Good P optimize i) {j : Nat} (hj : j ∈ i.order) :
    ∃ team, Decode.serialTeam (input T.J heads T.B i) j = some team ∧
      Momentum.Fits (onGraph T.site T.J.graph T.J.nodes) (Decode.borderPool (input T.J heads T.B i)) (node heads j) team := by
  obtain ⟨c, hc, hid, -, team, ht, hm, hw⟩ := serialTeam_meets h hp hi hj
  have hlt := hp.lt hi.valid hj
  have hltP : j < P.n := by rw [hp.n]; exact hlt
  have hhead : T.J.graph.IsHead T.J.nodes (node heads j) := ((hp.goodOrder hi.valid).2.1 _).1 (List.mem_map_of_mem hj)
  obtain ⟨h1, -⟩ := meets_ok h.project.sound.contractors.sound hc (h.project.sound.reqs (node heads j)).1
    (h.project.sound.reqs (node heads j)).2.1 hm
  obtain ⟨h3, h4⟩ := meets_names hm
  have hknown := hi.valid.resources.known j hltP
  rw [hp.nc] at hknown
  have hget : T.J.contractors[i.res.contractor j]? = some T.J.contractors[i.res.contractor j] := List.getElem?_eq_getElem hknown
  refine ⟨team, ht, h1, fun w hw' => ?_, fun w hw w' hw' => by rw [h4 w hw, h4 w' hw'], fun hne => ?_⟩
  · obtain ⟨hk, hn⟩ := hw w hw'
    refine ⟨i.res.border w.contractor w.name, ?_, ?_⟩
    · rw [show w.agent = (w.contractor, w.name) from rfl, h4 w hw', hid]
      simp only [Decode.borderPool, input]
      rw [(h.project.sound.contractors.pool hget hk).1]
      rfl
    · rw [hn, h4 w hw', hid]
      exact hi.valid.resources.fits j hltP w.name (by rw [hp.kinds]; exact hk)
  · have hk : T.site.kinds (node heads j) = team.map (·.name) := by rw [h.site.kinds, h3]
    refine ⟨Expand.chain_head hhead, hk, ?_, fun u hu => .inl ?_⟩
    · by_contra hs
      have hs' : T.site.service (node heads j) = true := by
        rw [Bool.not_eq_false] at hs
        exact hs
      have := (h.site.service (node heads j) hs').1
      rw [this] at h3
      exact hne (by simpa using h3)
    · have hin := (Heads.mem_chain h.project.sound.graph.ok hhead).1 hu
      rw [← hk]
      show T.site.kinds u = _
      rw [h.site.kinds, h.site.kinds, (h.project.alike _ _ hin).1]

/-- Decoding a valid chromosome in the serial scheme ends with a valid schedule. -/
theorem serial_fine (h : Ready T m L D) (hts : ∀ v, T.B.assignedTime v = none) {heads : List Nat} {P : Problem}
    (hp0 : prepare T.J = some (heads, P)) {optimize : Bool} {i : Ind} (hi : Good P optimize i) :
    ∃ N st, (∀ fuelIn fuel, N ≤ fuelIn → 1 ≤ fuel → scheduleSerial T.site T.J heads T.B T.inf T.env fuelIn fuel i = some (some st)) ∧
      Feasible T.J.graph T.J.nodes (LFT.agents T.J.contractors) (C89.Staffs T.J.contractors T.J.spec T.J.reqs) st.sched ∧
      Instant T.site.service st.sched ∧ (∀ e ∈ st.sched, T.B.parentTime ≤ e.2.start) ∧
      ∀ e ∈ st.sched, e.2.finish ≤ T.B.parentTime + T.J.nodes.length * (L + D) := by
  have hp := prepare_prepared h.project.sound hp0
  have ho := hp.goodOrder hi.valid
  have hw := h.project.sound.graph
  obtain ⟨e1, e2, e3⟩ := OnGraph.expand hw h.project.plain.dependencies T.site ho
  have hs := sane (J := T.J) h.site.steady heads i
  have hlen : ((i.order.map (node heads)).flatMap (onGraph T.site T.J.graph T.J.nodes).chain).length = T.J.nodes.length := e1.length_eq
  have hn1 : 1 ≤ (T.J.nodes.length : Int) := by
    have := List.length_pos_iff.2 h.project.sound.works
    omega
  have hL := h.project.bound
  have hD := h.site.bound
  have hroom : T.B.parentTime + T.J.nodes.length * (L + D) + L ≤ T.inf := by
    have := h.room
    nlinarith
  have hpos : 0 ≤ (T.J.nodes.length : Int) * (L + D) := Int.mul_nonneg (by omega) (by omega)
  have hinf : T.B.parentTime ≤ T.inf := by omega
  have hlag : ∀ v, ∀ e ∈ (onGraph T.site T.J.graph T.J.nodes).edgesTo v, e.2 ≤ L := by
    intro v e he
    simp only [onGraph, List.mem_map] at he
    obtain ⟨e, he, rfl⟩ := he
    exact (h.project.lags v e he).2
  obtain ⟨N, st, hb, hrun⟩ := Decode.serialFrom_some_before (D := input T.J heads T.B i) (E := onGraph T.site T.J.graph T.J.nodes) (inf := T.inf)
    (pool := Decode.borderPool (input T.J heads T.B i)) (first := true) (is := i.order)
    (st := ⟨Momentum.init (Decode.borderPool (input T.J heads T.B i)), T.env, []⟩) (M := T.B.parentTime)
    (OnGraph.noSite h.site.limits) h.site.steady.estimate h.site.steady.start hL hD (fun v team => (h.site.durations v team).2) hlag
    hts (fun v => Expand.head_mem_chain v)
    (fun j hj => by rw [List.nodup_flatMap] at e3; exact e3.1 _ (List.mem_map_of_mem hj))
    (fun j hj => serial_fits h hp hi hj)
    ⟨by
      intro a q hq r hr
      simp only [Momentum.init, Option.map_eq_some_iff] at hq
      obtain ⟨c, _, rfl⟩ := hq
      simp at hr
      subst hr
      exact h.site.steady.start, by simp⟩ (Int.le_refl _) (.inl ⟨rfl, .fresh⟩)
  have hser : ∀ fuelIn fuel, N ≤ fuelIn → 1 ≤ fuel → scheduleSerial T.site T.J heads T.B T.inf T.env fuelIn fuel i = some (some st) := by
    intro fuelIn fuel hN hf
    obtain ⟨n, rfl⟩ : ∃ n, fuel = n + 1 := ⟨fuel - 1, by omega⟩
    exact hrun fuelIn n hN
  have hone := hser N 1 (Nat.le_refl _) (Nat.le_refl _)
  have hfin : ∀ e ∈ st.sched, e.2.finish ≤ T.B.parentTime + T.J.nodes.length * (L + D) := by
    have := hb.2
    simp only [input] at this
    rw [hlen] at this
    exact this
  have hdone : ∀ v ∈ i.order.map (node heads), T.J.graph.IsHead T.J.nodes v := fun v hv => (ho.2.1 v).1 hv
  obtain ⟨p1, p2⟩ := C28.serial_respects_precedence_partial (input T.J heads T.B i) (onGraph T.site T.J.graph T.J.nodes) _ T.env T.inf N 1 st hs
    hinf hts
    (by
      intro j hj u hu e he hin
      have hk := hdone _ (List.mem_map_of_mem hj)
      simp only [onGraph, List.mem_map] at he
      obtain ⟨e, he, rfl⟩ := he
      exact h.project.chains (node heads j) u e he ((Heads.mem_chain hw.ok hk).1 hu) ((Heads.mem_chain hw.ok hk).1 hin))
    (by
      intro x hx v e he _
      have := hfin x hx
      have := hlag v e he
      omega)
    e2 e3 hone
  have hteams : ∀ j ∈ i.order, ∀ team, Decode.serialTeam (input T.J heads T.B i) j = some team →
      C89.Staffs T.J.contractors T.J.spec T.J.reqs (node heads j) team (i.res.contractor j) := by
    intro j hj team ht
    obtain ⟨c, hc, hid, ha, team', ht', hm, -⟩ := serialTeam_meets h hp hi hj
    rw [ht] at ht'
    cases ht'
    exact ⟨c, hc, hid, ha, hm⟩
  refine ⟨N, st, hser, ⟨(C28.serial_every_work_once _ _ _ T.env T.inf N 1 st hs hinf hone).trans e1, fun v x hx => ?_, OnGraph.precedence_of p1,
    ?_, ?_, ?_⟩, ?_, p2, hfin⟩
  · exact (Decode.serialFrom_run hs.estimate (C28.serial_times hs) hs.start hinf hone).times_ordered (by simp) (v, x) (mem_of_get hx)
  · refine OnGraph.chain_of hw ho fun v hv => ?_
    obtain ⟨j, hj, rfl⟩ := List.mem_map.1 hv
    exact C28.serial_chains _ _ _ T.env T.inf N 1 st hs hinf e3 hone j hj
  · intro k v hk hv
    obtain ⟨j, hj, rfl⟩ := List.mem_map.1 ((ho.2.1 k).2 hk)
    exact Decode.serialFrom_staffed (D := input T.J heads T.B i) (S := C89.Staffs T.J.contractors T.J.spec T.J.reqs) hs.estimate hts hs.start hinf hteams e3 hone j hj v ((Heads.mem_chain hw.ok hk).2 hv)
  · rintro ⟨c, k⟩ n hn - t
    refine C28.serial_within_capacity _ _ _ T.env T.inf N 1 st hs hinf (fits h.project.sound hp hi).border
      (fun j _ => (h.project.sound.reqs _).2.1) ?_ ?_ hone c k n hn t
    · intro j hj r hr
      have hltP : j < P.n := by rw [hp.n]; exact hp.lt hi.valid hj
      have hlo := hi.valid.resources.low j hltP r.kind (by rw [hp.kinds]; exact (h.project.sound.reqs _).2.2 r hr)
      rw [hp.lo, limit_of_mem (h.project.sound.reqs (node heads j)).2.1 hr] at hlo
      exact Int.le_trans ((h.project.sound.reqs (node heads j)).1 r hr).1 hlo
    · intro v k n hl
      simp only [input, h.project.plain.counts] at hl
      cases hl
  · exact (Decode.serialFrom_zero (D := input T.J heads T.B i) (E := onGraph T.site T.J.graph T.J.nodes) (zero := T.site.service) (fun v team hv => (h.site.service v hv).2 team) hts (by intro e he; cases he) hone).instant

theorem serial_ok (h : Ready T m L D) {sw : Sched}
    (hf : Feasible T.J.graph T.J.nodes (LFT.agents T.J.contractors) (C89.Staffs T.J.contractors T.J.spec T.J.reqs) sw)
    (hz : Instant T.site.service sw) : ok T (sw, []) = true := by
  have hr := regular h
  exact Validate.feasible_passes hr.graph hr.works hr.lags hr.contractors hr.counts hr.kinds hr.uniform
    (fun k team c hs => Validate.proper_of_staffs (fun v => (h.project.sound.reqs v).1) hs) hf hz (h.sort _)

end Sampo.GeneticFull
