import Verif.Lemmas.DecodeHorizon
import Verif.Lemmas.DecodeSane
import Verif.Lemmas.Demo

/-! C28: decoding chromosomes yields feasible schedules. -/

namespace Sampo.C28
open Decode

variable {σ : Type}

/-! ### Serial scheme -/

/-- Serial scheme: a decoded schedule contains exactly the works of the graph, each once. -/
theorem serial_every_work_once (D : Input σ) (E : Env σ) (post : Momentum.State σ → Nat → Option σ) (env : σ) (inf : Int)
    (fuelIn fuel : Nat) (st : Momentum.State σ) (hs : Sane D E) (hinf : D.parentTime ≤ inf)
    (h : serial D E post env inf fuelIn fuel = some (some st)) : st.sched.works.Perm (works D E) := by
  have := (serialFrom_run hs.estimate (serial_times hs) hs.start hinf h).works
  simp only [Sched.works, List.map_nil, List.append_nil] at this
  rw [Sched.works, this]
  exact List.reverse_perm _

/-- Serial scheme: works of an inseparable chain are done one after another by one team of one contractor. -/
theorem serial_chains (D : Input σ) (E : Env σ) (post : Momentum.State σ → Nat → Option σ) (env : σ) (inf : Int)
    (fuelIn fuel : Nat) (st : Momentum.State σ) (hs : Sane D E) (hinf : D.parentTime ≤ inf) (hnd : (works D E).Nodup)
    (h : serial D E post env inf fuelIn fuel = some (some st)) :
    ∀ i ∈ D.order, OneAfterAnother st.sched (E.chain (D.node i)) := fun _ hi =>
  (serialFrom_run hs.estimate (serial_times hs) hs.start hinf h).oneAfterAnother hnd _ (List.mem_map_of_mem hi)

/-- Serial scheme: precedence and lags are respected and nothing starts before the project start, when the order is
topological, no durations are assigned and lags inside chains are not positive.  Missing: assigned durations and positive lags
inside chains, for which the momentum timeline is wrong (C11). -/
theorem serial_respects_precedence_partial (D : Input σ) (E : Env σ) (post : Momentum.State σ → Nat → Option σ) (env : σ)
    (inf : Int) (fuelIn fuel : Nat) (st : Momentum.State σ) (hs : Sane D E) (hinf : D.parentTime ≤ inf)
    (hts : ∀ v, D.assignedTime v = none)
    (hlag : ∀ i ∈ D.order, ∀ u ∈ E.chain (D.node i), ∀ e ∈ E.edgesTo u, e.1 ∈ E.chain (D.node i) → e.2 ≤ 0)
    (hrange : TimesInRange E.edgesTo inf st.sched)
    (htopo : TopoList (fun v => (E.edgesTo v).map (·.1)) (works D E)) (hnd : (works D E).Nodup)
    (h : serial D E post env inf fuelIn fuel = some (some st)) :
    RespectsPrecedence E.edgesTo st.sched ∧ ∀ e ∈ st.sched, D.parentTime ≤ e.2.start := by
  have hrun := serialFrom_after hs.estimate hts
    (fun i hi => by
      unfold works at hnd
      rw [List.nodup_flatMap] at hnd
      exact hnd.1 _ (List.mem_map_of_mem hi))
    hlag hs.start hinf hrange (fun _ => rfl) h
  refine ⟨?_, hrun.all_starts (fun _ _ _ h => h.2) (by simp)⟩
  apply hrun.precedence (fun _ _ _ h => h.1)
  · intro v x hx; simp [get_nil] at hx
  · simp only [Sched.works, List.map_nil, List.reverse_nil, List.nil_append]; exact htopo
  · simpa [Sched.works, works] using hnd

/-- Serial scheme: at no moment are more workers busy than the contractor has, for any specification. -/
theorem serial_within_capacity (D : Input σ) (E : Env σ) (post : Momentum.State σ → Nat → Option σ) (env : σ) (inf : Int)
    (fuelIn fuel : Nat) (st : Momentum.State σ) (hs : Sane D E) (hinf : D.parentTime ≤ inf)
    (hborder : ∀ c k n, D.pool k c = some n → 0 ≤ D.chrom.border c k ∧ D.chrom.border c k ≤ n)
    (hreqs : ∀ i ∈ D.order, ((D.reqs (D.node i)).map (·.kind)).Nodup)
    (hamount : ∀ i ∈ D.order, ∀ r ∈ D.reqs (D.node i), 0 ≤ D.chrom.amount i r.kind)
    (hspec : ∀ v k n, (D.spec v).assigned.lookup k = some n → 0 ≤ n)
    (h : serial D E post env inf fuelIn fuel = some (some st))
    (c k : Nat) (n : Int) (hn : D.pool k c = some n) (t : Int) : busy st.sched.placements (c, k) t ≤ n := by
  obtain ⟨ps, hh, hb⟩ := serialFrom_covered (pool := borderPool D) hs.estimate (serial_times hs) (fun i hi team ht => by
    obtain ⟨h1, h2⟩ := serialTeam_spec ht (hreqs i hi)
    refine ⟨h1, fun w hw => ?_⟩
    rcases h2 w hw with ⟨⟨r, hr, h4⟩, h3⟩ | h3
    · rw [h3, ← h4]; exact hamount i hi r hr
    · exact hspec _ _ _ h3) hs.start hinf ⟨[], .fresh, fun a t => Int.le_refl _⟩ h
  obtain ⟨s, _, hinv⟩ := Momentum.history_inv hh (show borderPool D (c, k) = some (D.chrom.border c k) by
    simp [borderPool, hn])
  have hbd := hborder c k n hn
  have := hinv.room hbd.1 t
  have := hb (c, k) t
  omega

/-! ### Parallel scheme -/

/-- Parallel scheme: at any end of the loop the placed works together with the works of the remaining chains are exactly the
works of the graph, each once; so nothing is placed twice, and if nothing remains everything is placed. -/
theorem parallel_every_work_once (D : Input σ) (E : Env σ) (env : σ) (inf : Int) (fuel : Nat) (L : Loop σ) (hs : Sane D E)
    (h : parallel D E inf env fuel = some (some L)) :
    (L.st.sched.works ++ (L.items.map (·.node)).flatMap E.chain).Perm (works D E) ∧
    (L.items = [] → L.st.sched.works.Perm (works D E)) := by
  obtain ⟨vs, h1, h2, _⟩ := parallel_run hs.estimate (fun idx i _ it hit => good_times hs idx i it hit) h
  have hw := h1.works
  simp only [Sched.works, List.map_nil, List.append_nil] at hw
  have hp : (L.st.sched.works ++ (L.items.map (·.node)).flatMap E.chain).Perm (works D E) := by
    rw [Sched.works, hw]
    refine ((List.reverse_perm _).append_right _).trans ?_
    rw [← List.flatMap_append]
    exact h2.flatMap_right _
  exact ⟨hp, fun he => by simpa [he] using hp⟩

/-- Parallel scheme: chains of placed works are done one after another by one team of one contractor. -/
theorem parallel_chains (D : Input σ) (E : Env σ) (env : σ) (inf : Int) (fuel : Nat) (L : Loop σ) (hs : Sane D E)
    (hnd : (works D E).Nodup) (h : parallel D E inf env fuel = some (some L)) (hdone : L.items = []) :
    ∀ i ∈ D.order, OneAfterAnother L.st.sched (E.chain (D.node i)) := by
  obtain ⟨vs, h1, h2, _⟩ := parallel_run hs.estimate (fun idx i _ it hit => good_times hs idx i it hit) h
  rw [hdone] at h2
  simp only [List.map_nil, List.append_nil] at h2
  intro i hi
  exact h1.oneAfterAnother ((List.Perm.nodup_iff (h2.flatMap_right E.chain)).mpr hnd) _
    (h2.mem_iff.mpr (List.mem_map_of_mem hi))

/-- Parallel scheme: no work finishes before it starts. -/
theorem parallel_finish_after_start (D : Input σ) (E : Env σ) (env : σ) (inf : Int) (fuel : Nat) (L : Loop σ)
    (hs : Sane D E) (h : parallel D E inf env fuel = some (some L)) : ∀ e ∈ L.st.sched, e.2.start ≤ e.2.finish := by
  obtain ⟨vs, h1, _⟩ := parallel_run hs.estimate (fun idx i _ it hit => good_times hs idx i it hit) h
  exact h1.times_ordered (by simp)

/-- Parallel scheme without independent works: every placed work has all its predecessors placed and starts not before finish
+ lag of each of them, for ANY order of the works in the chromosome.  Missing: works marked as independent, for which it is
false (`independent_work_overtakes_predecessors`). -/
theorem parallel_respects_precedence_partial (D : Input σ) (E : Env σ) (env : σ) (inf : Int) (fuel : Nat) (L : Loop σ)
    (hs : Sane D E)
    (hchain : ∀ v l₁ u l₂, E.chain v = l₁ ++ u :: l₂ → ∀ e ∈ E.edgesTo u, e.1 ∈ E.chain v → e.1 ∈ l₁)
    (hpar : ∀ u, ∀ e ∈ E.edgesTo u, e.1 ∈ D.parents u)
    (hind : ∀ v, D.independent v = false) (hnd : (works D E).Nodup)
    (h : parallel D E inf env fuel = some (some L)) : RespectsPrecedence E.edgesTo L.st.sched :=
  parallel_precedence hs.estimate (fun idx i _ it hit => good_times hs idx i it hit) hchain hpar hind hnd h

private theorem good_team {D : Input σ} {E : Env σ} (hf : Fits D)
    (hfirst : ∀ i, D.order[0]? = some i → ∀ k < D.kinds, D.chrom.amount i k ≤ 0)
    (hspec : ∀ i ∈ D.order, ∀ k n, (D.spec (D.node i)).assigned.lookup k = some n → D.chrom.amount i k = n)
    (j i : Nat) (hj : D.order[j]? = some i) (it : Item) (h : decode D E j i = some it) :
    GoodTeam D it ∧ ∀ w ∈ it.team, 0 < w.count := by
  have hi := List.mem_of_getElem? hj
  simp only [decode, Option.map_eq_some_iff] at h
  obtain ⟨team, ht, rfl⟩ := h
  obtain ⟨h1, h2⟩ := parallelTeam_spec ht
  refine ⟨⟨⟨h1, fun w hw => ?_⟩, ?_, ?_, ?_⟩, fun w hw => (h2 w hw).2.2.2.1⟩
  · have := (h2 w hw).2.2.2.1; omega
  · intro w hw
    obtain ⟨h3, h4, h5, h6, h7⟩ := h2 w hw
    obtain ⟨n, hn⟩ := Option.isSome_iff_exists.mp h7
    refine ⟨D.chrom.border w.contractor w.name, by simp [borderPool, Worker.agent, hn], ?_⟩
    rw [h5, h3]; exact hf.amount i hi _ h4
  · intro hidx
    simp only at hidx; subst hidx
    simp only
    by_contra hne
    obtain ⟨w, hw⟩ := List.exists_mem_of_ne_nil _ hne
    obtain ⟨h3, h4, h5, h6, h7⟩ := h2 w hw
    have := hfirst i hj _ h4
    omega
  · intro team' hre
    apply respec_agrees _ hre
    intro w hw n hn
    rw [(h2 w hw).2.2.1]
    exact hspec i hi _ _ hn

/-- Parallel scheme: at no moment are more workers busy than the contractor has, if the project's start needs no workers and
worker counts fixed by the specification agree with the chromosome.  Missing: chromosomes that disagree with the specification,
for which it is false (`fixed_counts_exceed_capacity`). -/
theorem parallel_within_capacity_partial (D : Input σ) (E : Env σ) (env : σ) (inf : Int) (fuel : Nat) (L : Loop σ)
    (hs : Sane D E) (hf : Fits D)
    (hfirst : ∀ i, D.order[0]? = some i → ∀ k < D.kinds, D.chrom.amount i k ≤ 0)
    (hspec : ∀ i ∈ D.order, ∀ k n, (D.spec (D.node i)).assigned.lookup k = some n → D.chrom.amount i k = n)
    (h : parallel D E inf env fuel = some (some L))
    (c k : Nat) (n : Int) (hn : D.pool k c = some n) (t : Int) : busy L.st.sched.placements (c, k) t ≤ n := by
  obtain ⟨ps, hh, hb⟩ := parallel_covered hs.estimate (fun idx i _ it hit => good_times hs idx i it hit)
    (fun j i hj it hit => (good_team hf hfirst hspec j i hj it hit).1) h
  have hbd := hf.border c k n hn
  obtain ⟨q, _, hq⟩ := JIT.history_inv hh (show borderPool D (c, k) = some (D.chrom.border c k) by
    simp [borderPool, hn]) hbd.1
  have := hq.room t
  have := JIT.releasedBy_nonneg hq.nonneg t
  have := hb (c, k) t
  omega

/-- The state before the main loop. -/
private theorem ready (D : Input σ) (E : Env σ) (env : σ) (hs : Sane D E) (hf : Fits D)
    (hfirst : ∀ i, D.order[0]? = some i → ∀ k < D.kinds, D.chrom.amount i k ≤ 0)
    (hspec : ∀ i ∈ D.order, ∀ k n, (D.spec (D.node i)).assigned.lookup k = some n → D.chrom.amount i k = n)
    (hall : ∀ i ∈ D.order, (D.spec (D.node i)).assigned.length = (D.reqs (D.node i)).length →
      ∀ r ∈ D.reqs (D.node i), ((D.spec (D.node i)).assigned.lookup r.kind).isSome)
    (hpool : ∀ i ∈ D.order, ∀ k < D.kinds, 0 < D.chrom.amount i k → (D.pool k (D.chrom.contractor i)).isSome)
    (hlink : ∀ i ∈ D.order, ∀ l₁ u l₂, E.chain (D.node i) = l₁ ++ u :: l₂ → ∀ p, E.insepParent u = some p →
      p ∈ l₁ ∧ ∃ lag, (p, lag) ∈ E.edgesTo u ∧ 0 ≤ lag) :
    ∃ items, decodeAll D E 0 D.order = some items ∧ items.map (·.node) = D.order.map D.node ∧
      (∀ it ∈ items, ∃ j i, D.order[j]? = some i ∧ decode D E j i = some it) ∧
      LInv D E items ⟨JIT.init (borderPool D), env, []⟩ := by
  have hdec : ∀ (is : List Nat) (idx : Nat), (∀ i ∈ is, i ∈ D.order) → ∃ items, decodeAll D E idx is = some items := by
    intro is
    induction is with
    | nil => intro idx _; exact ⟨[], rfl⟩
    | cons i is ih =>
      intro idx hmem
      have hi := hmem i (by simp)
      obtain ⟨its, hits⟩ := ih (idx + 1) fun j hj => hmem j (by simp [hj])
      have hteam : ∃ team, parallelTeam D i = some team := by
        unfold parallelTeam
        have key : ∀ ks : List Nat, (∀ k ∈ ks, (D.pool k (D.chrom.contractor i)).isSome) → ∃ team,
            (ks.mapM fun k => (D.pool k (D.chrom.contractor i)).map fun _ =>
              (⟨D.chrom.contractor i, k, D.chrom.amount i k⟩ : Worker)) = some team := by
          intro ks
          induction ks with
          | nil => intro _; exact ⟨[], rfl⟩
          | cons k ks ihk =>
            intro hk
            obtain ⟨n, hn⟩ := Option.isSome_iff_exists.mp (hk k (by simp))
            obtain ⟨team, hteam⟩ := ihk fun x hx => hk x (by simp [hx])
            exact ⟨_, by simp only [List.mapM_cons, hn, hteam, Option.map_some, Option.bind_eq_bind, Option.bind_some]; rfl⟩
        apply key
        intro k hk
        simp only [List.mem_filter, List.mem_range, decide_eq_true_eq] at hk
        exact hpool i hi k hk.1 hk.2
      obtain ⟨team, hteam⟩ := hteam
      exact ⟨_, by simp only [decodeAll, decode, hteam, hits, Option.map_some, Option.bind_some]; rfl⟩
  obtain ⟨items, hitems⟩ := hdec D.order 0 fun _ h => h
  obtain ⟨hnodes, hmem⟩ := decodeAll_mem hitems
  have hrespec : ∀ i ∈ D.order, ∀ team : List Worker,
      ∃ team', respec (D.reqs (D.node i)) (D.spec (D.node i)).assigned team = some team' := by
    intro i hi team
    unfold respec
    split
    · rename_i hlen
      induction team with
      | nil => exact ⟨[], rfl⟩
      | cons w ws ih =>
        obtain ⟨team', ht⟩ := ih
        have : ∃ w', (if w.name ∈ (D.reqs (D.node i)).map (·.kind) then
            ((D.spec (D.node i)).assigned.lookup w.name).map fun n => { w with count := n } else some w) = some w' := by
          split
          · rename_i hk
            obtain ⟨r, hr, hrk⟩ := List.mem_map.mp hk
            obtain ⟨n, hn⟩ := Option.isSome_iff_exists.mp (hall i hi hlen r hr)
            rw [hrk] at hn
            exact ⟨_, by rw [hn]; rfl⟩
          · exact ⟨w, rfl⟩
        obtain ⟨w', hw'⟩ := this
        exact ⟨w' :: team', by
          simp only [List.mapM_cons, hw', ht, Option.bind_eq_bind, Option.bind_some]; rfl⟩
    · exact ⟨_, rfl⟩
  have hinv : LInv D E items ⟨JIT.init (borderPool D), env, []⟩ := by
    refine ⟨?_, ⟨[], .fresh, fun a t => by simp [Sched.placements]⟩, [], by simp [Sched.works], by simp [hnodes]⟩
    intro it hit
    obtain ⟨j, i, hj, hd⟩ := hmem it hit
    have hi := List.mem_of_getElem? hj
    have hd' : decode D E j i = some it := by simpa using hd
    obtain ⟨h1, h2⟩ := good_team hf hfirst hspec j i hj it hd'
    have hnode : it.node = D.node i := by
      simp only [decode, Option.map_eq_some_iff] at hd'
      obtain ⟨_, _, rfl⟩ := hd'; rfl
    refine ⟨good_times hs j i it hd', h1, h2, ?_, ?_⟩
    · rw [hnode]; exact hrespec i hi _
    · unfold ChainLinked; rw [hnode]; exact hlink i hi
  exact ⟨items, hitems, hnodes, fun it hit => by obtain ⟨j, i, h1, h2⟩ := hmem it hit; exact ⟨j, i, h1, by simpa using h2⟩, hinv⟩

/-- Parallel scheme: decoding terminates without an exception, and places every work unless some work of the schedule reached
infinity; if the order is topological, every needed worker exists, deliveries and zones raise no error and in every state
allow each work from some moment on. -/
theorem parallel_finishes (D : Input σ) (E : Env σ) (env : σ) (inf : Int) (hs : Sane D E) (hf : Fits D)
    (hfirst : ∀ i, D.order[0]? = some i → ∀ k < D.kinds, D.chrom.amount i k ≤ 0)
    (hspec : ∀ i ∈ D.order, ∀ k n, (D.spec (D.node i)).assigned.lookup k = some n → D.chrom.amount i k = n)
    (hall : ∀ i ∈ D.order, (D.spec (D.node i)).assigned.length = (D.reqs (D.node i)).length →
      ∀ r ∈ D.reqs (D.node i), ((D.spec (D.node i)).assigned.lookup r.kind).isSome)
    (hpool : ∀ i ∈ D.order, ∀ k < D.kinds, 0 < D.chrom.amount i k → (D.pool k (D.chrom.contractor i)).isSome)
    (hlink : ∀ i ∈ D.order, ∀ l₁ u l₂, E.chain (D.node i) = l₁ ++ u :: l₂ → ∀ p, E.insepParent u = some p →
      p ∈ l₁ ∧ ∃ lag, (p, lag) ∈ E.edgesTo u ∧ 0 ≤ lag)
    (hself : ∀ v, v ∈ E.chain v) (hpar : ∀ u, ∀ p ∈ D.parents u, ∃ e ∈ E.edgesTo u, e.1 = p)
    (hcalm : (∀ s v t, (E.deliver s v t).isSome) ∧ (∀ s v t d, (E.occupy s v t d).isSome) ∧ ∀ s, (E.finishZones s).isSome)
    (hmat : ∀ s v d, ∃ B, ∀ t, B ≤ t → D.matOk s v t = true ∧ D.zoneOk s v t d = true)
    (htopo : TopoList (fun v => (E.edgesTo v).map (·.1)) (works D E)) (hnd : (works D E).Nodup) :
    ∃ fuel L, parallel D E inf env fuel = some (some L) ∧
      (L.st.sched.works.Perm (works D E) ∨ ∃ t ∈ L.events, inf ≤ t) := by
  obtain ⟨items, hitems, hnodes, -, hinv⟩ := ready D E env hs hf hfirst hspec hall hpool hlink
  obtain ⟨fuel, L, hL, hfin⟩ := loop_terminates (inf := inf) hs.estimate ⟨hcalm.1, hcalm.2.1, hcalm.2.2⟩ hmat hself hpar htopo hnd
    hnodes items.length ⟨items, ⟨JIT.init (borderPool D), env, []⟩, [0], 0, D.parentTime - 1, D.parentTime - 1 - 1⟩
    (Nat.le_refl _) hinv (List.Sublist.refl _)
  have hpr : parallel D E inf env fuel = some (some L) := by
    simp only [parallel, begin_, hitems, Option.map_some]; exact hL
  refine ⟨fuel, L, hpr, ?_⟩
  rcases hfin with hfin | hfin
  · exact .inl ((parallel_every_work_once D E env inf fuel L hs hpr).2 hfin)
  · exact .inr hfin

/-- On a site without limits, with lags up to `g` and durations up to `d`, a decoding that can use the time up to `inf` places all works;
the project ends at most `2 * g + d + 1` units after its start for each work. -/
theorem parallel_completes (D : Input σ) (E : Env σ) (env : σ) (inf g d : Int) (hs : Sane D E) (hf : Fits D)
    (hfirst : ∀ i, D.order[0]? = some i → ∀ k < D.kinds, D.chrom.amount i k ≤ 0)
    (hspec : ∀ i ∈ D.order, ∀ k n, (D.spec (D.node i)).assigned.lookup k = some n → D.chrom.amount i k = n)
    (hall : ∀ i ∈ D.order, (D.spec (D.node i)).assigned.length = (D.reqs (D.node i)).length →
      ∀ r ∈ D.reqs (D.node i), ((D.spec (D.node i)).assigned.lookup r.kind).isSome)
    (hpool : ∀ i ∈ D.order, ∀ k < D.kinds, 0 < D.chrom.amount i k → (D.pool k (D.chrom.contractor i)).isSome)
    (hlink : ∀ i ∈ D.order, ∀ l₁ u l₂, E.chain (D.node i) = l₁ ++ u :: l₂ → ∀ p, E.insepParent u = some p →
      p ∈ l₁ ∧ ∃ lag, (p, lag) ∈ E.edgesTo u ∧ 0 ≤ lag)
    (hself : ∀ v, v ∈ E.chain v) (hpar : ∀ u, ∀ p ∈ D.parents u, ∃ e ∈ E.edgesTo u, e.1 = p)
    (hsite : NoSiteLimits E) (hok : ∀ s v t x, D.matOk s v t = true ∧ D.zoneOk s v t x = true)
    (hind : ∀ v, D.independent v = false) (hg : 0 ≤ g) (hlag : ∀ v, ∀ e ∈ E.edgesTo v, e.2 ≤ g) (hd : 0 ≤ d)
    (hest : ∀ i ∈ D.order, ∀ team, parallelTeam D i = some team → ∀ u ∈ E.chain (D.node i), E.estimate u team ≤ d)
    (hgiven : ∀ v t, D.assignedTime v = some t → t ≤ (E.chain v).length * d)
    (htopo : TopoList (fun v => (E.edgesTo v).map (·.1)) (works D E)) (hnd : (works D E).Nodup)
    (hinf : D.parentTime + (works D E).length * (2 * g + d + 1) < inf) :
    ∃ fuel L, parallel D E inf env fuel = some (some L) ∧ L.st.sched.works.Perm (works D E) ∧
      ∀ e ∈ L.st.sched, e.2.finish ≤ D.parentTime + (works D E).length * (2 * g + d + 1) := by
  have hcalm : Calm E := ⟨fun s v t => by obtain ⟨a, b, e, -⟩ := hsite.deliver s v t; rw [e]; rfl,
    fun s v t x => by obtain ⟨a, e⟩ := hsite.occupy s v t x; rw [e]; rfl, fun s => by obtain ⟨a, b, e, -⟩ := hsite.finish s; rw [e]; rfl⟩
  have hq : Quiet D E g := by
    refine ⟨fun s v t s' t' h => ?_, fun s s' t h => ?_, hok, hg, hlag, hind⟩
    · obtain ⟨a, b, e, hb⟩ := hsite.deliver s v t
      rw [h] at e; cases e; exact hb
    · obtain ⟨a, b, e, hb⟩ := hsite.finish s
      rw [h] at e; cases e; exact hb
  obtain ⟨items, hitems, hnodes, hmem, hinv⟩ := ready D E env hs hf hfirst hspec hall hpool hlink
  have hshort : ∀ it ∈ items, Short D E d it := by
    intro it hit
    obtain ⟨j, i, hj, hdec⟩ := hmem it hit
    have hi := List.mem_of_getElem? hj
    have hgt := good_times hs j i it hdec
    simp only [decode, Option.map_eq_some_iff] at hdec
    obtain ⟨team, hteam, rfl⟩ := hdec
    have hsum : ∀ l : List Nat, (∀ u ∈ l, E.estimate u team ≤ d) → (l.map fun u => E.estimate u team).sum ≤ l.length * d := by
      intro l
      induction l with
      | nil => intro _; simp
      | cons u l ih =>
        intro h
        have h1 := h u (by simp)
        have h2 := ih fun x hx => h x (by simp [hx])
        rw [List.map_cons, List.sum_cons, List.length_cons]; push_cast; rw [Int.add_mul]; omega
    have hsum0 : ∀ l : List Nat, 0 ≤ (l.map fun u => E.estimate u team).sum := by
      intro l
      induction l with
      | nil => simp
      | cons u l ih => have := hs.estimate u team; rw [List.map_cons, List.sum_cons]; omega
    refine ⟨?_, ?_, ?_, hself _⟩
    · dsimp only
      cases ha : D.assignedTime (D.node i) with
      | some t => exact hs.assigned _ t ha
      | none => simp only [Option.getD_none, cascade]; split <;> [exact Int.le_refl _; exact hsum0 _]
    · dsimp only
      cases ha : D.assignedTime (D.node i) with
      | some t => exact hgiven _ t ha
      | none =>
        simp only [Option.getD_none, cascade]
        split
        · exact Int.mul_nonneg (by omega) hd
        · exact hsum _ (hest i hi team hteam)
    · exact (List.nodup_flatMap.1 hnd).1 _ (List.mem_map_of_mem hi)
  have hsize : size E items = (works D E).length := by
    unfold size works
    rw [← hnodes, List.length_flatMap, List.map_map]
    rfl
  obtain ⟨fuel, L, hL, hfin⟩ := loop_terminates (inf := inf) hs.estimate hcalm (fun s v x => ⟨0, fun t _ => hok s v t x⟩) hself hpar htopo hnd
    hnodes items.length ⟨items, ⟨JIT.init (borderPool D), env, []⟩, [0], 0, D.parentTime - 1, D.parentTime - 1 - 1⟩
    (Nat.le_refl _) hinv (List.Sublist.refl _)
  have hstart := hs.start
  have hb : JIT.Before (⟨JIT.init (borderPool D), env, []⟩ : JIT.State σ) D.parentTime := by
    refine ⟨fun a q hq r hr => ?_, fun e he => by simp at he⟩
    simp only [JIT.init, Option.map_eq_some_iff] at hq
    obtain ⟨n, -, rfl⟩ := hq
    rw [List.mem_singleton] at hr
    rw [hr]; exact hstart
  obtain ⟨b1, b2⟩ := loop_horizon (inf := inf) hs.estimate hcalm hself hpar htopo hnd hq hd hnodes hshort fuel _ L D.parentTime hinv
    (List.Sublist.refl _) hb (by simpa using hstart) hstart (Int.le_refl _) (by rw [hsize]) (by dsimp only; omega) hL
  have hpr : parallel D E inf env fuel = some (some L) := by
    simp only [parallel, begin_, hitems, Option.map_some]; exact hL
  refine ⟨fuel, L, hpr, ?_, b2⟩
  rcases hfin with hfin | ⟨t, ht, hle⟩
  · exact (parallel_every_work_once D E env inf fuel L hs hpr).2 hfin
  · have := b1 t ht; omega

/-! ### Examples -/

private theorem exists_run {x : Option (Option (Loop Unit))} {sw : Sched} {its : List Item}
    (h : (x.map fun o => o.map fun L => (L.st.sched, L.items)) = some (some (sw, its))) :
    ∃ L, x = some (some L) ∧ L.st.sched = sw ∧ L.items = its := by
  simp only [Option.map_eq_some_iff, Prod.mk.injEq] at h
  obtain ⟨o, rfl, L, rfl, h1, h2⟩ := h
  exact ⟨L, rfl, h1, h2⟩

/-- The demo project as a chromosome: two workers of the only kind for works 1 and 3, borders equal to the pool. -/
private def demo : Input Unit where
  order := Demo.order
  chrom := ⟨fun i _ => if i = 0 ∨ i = 4 then 0 else 2, fun _ => 0, fun _ _ => 3⟩
  node := id
  reqs := fun v => if v = 0 ∨ v = 4 then [] else [⟨0, 1, 3⟩]
  spec := fun _ => {}
  independent := fun _ => false
  assignedTime := fun _ => none
  volume := fun _ => 1
  share := Assigned.exactShare
  pool := fun k c => if k = 0 ∧ c = 0 then some 3 else none
  kinds := 1
  parentTime := 5
  parents := fun v => (Demo.edges v).map (·.1)
  matOk := fun _ _ _ => true
  zoneOk := fun _ _ _ _ => true

private theorem demo_sane : Sane demo Demo.env :=
  ⟨Demo.estimate_nonneg, fun _ => Int.zero_le_ofNat 1, C13.exactShare_fair, fun v t h => by simp [demo] at h, by decide⟩
private theorem demo_fits : Fits demo := by
  refine ⟨by decide, fun c k n h => ?_⟩
  simp only [demo] at h ⊢
  split at h
  · cases h; decide
  · cases h

-- both schemes decode it, and all works are placed
example : ∃ st, serial demo Demo.env (fun st _ => some st.env) () 1000 20 20 = some (some st) ∧
    st.sched.works = [4, 2, 1, 3, 0] ∧ busy st.sched.placements (0, 0) 10 = 2 ∧
    TimesInRange Demo.env.edgesTo 1000 st.sched := ⟨_, rfl, by decide, by decide, Demo.timesInRange (by decide)⟩
example : ∃ L, parallel demo Demo.env 1000 () 20 = some (some L) ∧ L.items = [] ∧
    L.st.sched.works = [4, 2, 1, 3, 0] ∧ busy L.st.sched.placements (0, 0) 10 = 2 := by
  obtain ⟨L, h1, h2, h3⟩ := exists_run (sw := [(4, ⟨67, 67, [], 0⟩), (2, ⟨52, 67, [⟨0, 0, 2⟩], 0⟩), (1, ⟨37, 52, [⟨0, 0, 2⟩], 0⟩),
    (3, ⟨7, 37, [⟨0, 0, 2⟩], 0⟩), (0, ⟨5, 5, [], 0⟩)]) (its := []) (x := parallel demo Demo.env 1000 () 20) (by decide +kernel)
  exact ⟨L, h1, h3, by rw [h2]; decide, by rw [h2]; decide⟩
example : works demo Demo.env = Demo.order.flatMap Demo.env.chain := by decide
-- the hypotheses of `parallel_finishes`
example : (∀ i, demo.order[0]? = some i → ∀ k < demo.kinds, demo.chrom.amount i k ≤ 0) ∧
    (∀ i ∈ demo.order, ∀ k < demo.kinds, 0 < demo.chrom.amount i k → (demo.pool k (demo.chrom.contractor i)).isSome) ∧
    (∀ u, ∀ p ∈ demo.parents u, ∃ e ∈ Demo.env.edgesTo u, e.1 = p) ∧
    TopoList (fun v => (Demo.env.edgesTo v).map (·.1)) (works demo Demo.env) ∧ (works demo Demo.env).Nodup :=
  ⟨by intro i h; cases h; decide, by decide, fun u p hp => by simpa [demo, Demo.env] using hp, Demo.topo, Demo.nodup⟩

-- `parallel_completes` for the demo: lags up to 2, durations up to 40
example : ∃ fuel L, parallel demo Demo.env 1000 () fuel = some (some L) ∧ L.st.sched.works.Perm (works demo Demo.env) ∧
    ∀ e ∈ L.st.sched, e.2.finish ≤ 230 := by
  have hlag : ∀ v, ∀ e ∈ Demo.env.edgesTo v, e.2 ≤ 2 := by
    intro v e he
    simp only [Demo.env] at he
    unfold Demo.edges at he
    split at he <;> simp at he <;> (try rcases he with rfl | rfl | rfl) <;> simp
  refine parallel_completes demo Demo.env () 1000 2 40 demo_sane demo_fits (by intro i h; cases h; decide)
    (by intro i _ k n h; cases h) ?_ (by decide) ?_ Demo.chain_self (fun u p hp => by simpa [demo, Demo.env] using hp)
    ⟨fun _ _ _ => Int.le_refl _, fun _ _ _ _ => Int.le_refl _, fun s _ t => ⟨s, t, rfl, Int.le_refl _⟩, fun s _ _ _ => ⟨s, rfl⟩,
      fun s => ⟨s, 0, rfl, Int.le_refl _⟩⟩
    (fun _ _ _ _ => ⟨rfl, rfl⟩) (fun _ => rfl) (by decide) hlag (by decide) ?_ (by intro v t h; simp [demo] at h) Demo.topo Demo.nodup (by decide)
  · intro i _ h r hr
    simp only [demo, List.length_nil] at h hr
    rw [List.length_eq_zero_iff.1 h.symm] at hr
    cases hr
  · intro i hi l₁ u l₂ hc p hp
    simp only [Demo.env] at hp
    split at hp
    · rename_i hu
      cases hp
      subst hu
      have : ∀ v ∈ Demo.order, Demo.chain v = [1, 2] ∨ 2 ∉ Demo.chain v := by decide
      rcases this _ hi with h | h
      · have hc' : [1, 2] = l₁ ++ 2 :: l₂ := by rw [← h]; exact hc
        refine ⟨?_, 0, by decide, by decide⟩
        cases l₁ with
        | nil => simp at hc'
        | cons x l => simp at hc'; simp [hc'.1]
      · exact absurd (by show 2 ∈ Demo.env.chain (demo.node i); rw [hc]; simp) h
    · cases hp
  · intro i hi team _ u hu
    have : ∀ v ∈ Demo.order, ∀ u ∈ Demo.chain v, u ≤ 4 := by decide
    have := this i hi u hu
    simp only [Demo.env]
    split <;> omega

/-- Works 1 and 2 share the only worker of kind 0; work 3 comes after work 2, has its own worker of kind 1 and is marked as
independent. -/
private def overtaking : Input Unit :=
  { demo with
    order := [0, 1, 2, 3, 4]
    chrom := ⟨fun i k => if (i = 1 ∨ i = 2) ∧ k = 0 ∨ i = 3 ∧ k = 1 then 1 else 0, fun _ => 0, fun _ _ => 1⟩
    reqs := fun v => if v = 0 ∨ v = 4 then [] else [⟨if v = 3 then 1 else 0, 1, 1⟩]
    independent := fun v => v == 3
    pool := fun k c => if k < 2 ∧ c = 0 then some 1 else none
    kinds := 2
    parentTime := 0
    parents := fun v => if v = 1 ∨ v = 2 then [0] else if v = 3 then [2] else if v = 4 then [1, 2, 3] else [] }

private def overtakingEnv : Env Unit :=
  { Demo.env with
    edgesTo := fun v => (overtaking.parents v).map fun p => (p, 0)
    insepParent := fun _ => none
    chain := fun v => [v]
    estimate := fun _ team => if team = [] then 0 else 10 }

/-- Not proved because false: a work marked as independent is placed as soon as its workers are free, before its predecessors,
although the order is topological. -/
theorem independent_work_overtakes_predecessors :
    ∃ (D : Input Unit) (E : Env Unit) (L : Loop Unit), Sane D E ∧ Fits D ∧
      TopoList (fun v => (E.edgesTo v).map (·.1)) (works D E) ∧ (works D E).Nodup ∧
      parallel D E 1000 () 20 = some (some L) ∧ L.items = [] ∧ ¬ RespectsPrecedence E.edgesTo L.st.sched := by
  obtain ⟨L, h1, h2, h3⟩ := exists_run (sw := [(4, ⟨20, 20, [], 0⟩), (2, ⟨10, 20, [⟨0, 0, 1⟩], 0⟩), (3, ⟨0, 10, [⟨0, 1, 1⟩], 0⟩),
    (1, ⟨0, 10, [⟨0, 0, 1⟩], 0⟩), (0, ⟨0, 0, [], 0⟩)]) (its := [])
    (x := parallel overtaking overtakingEnv 1000 () 20) (by decide +kernel)
  refine ⟨overtaking, overtakingEnv, L, ⟨?_, fun _ => Int.zero_le_ofNat 1, C13.exactShare_fair, fun v t h => by simp [overtaking, demo] at h,
    by decide⟩, ⟨by decide, fun c k n h => ?_⟩, topoList_of_from (by decide), by decide, h1, h3, ?_⟩
  · intro v team; simp only [overtakingEnv]; split <;> omega
  · simp only [overtaking] at h ⊢
    split at h
    · cases h; decide
    · cases h
  · rw [h2]
    intro h
    obtain ⟨y, hy, hle⟩ := h 3 ⟨0, 10, [⟨0, 1, 1⟩], 0⟩ (by decide) (2, 0) (by decide)
    have : y = ⟨10, 20, [⟨0, 0, 1⟩], 0⟩ := by
      have h2 : some y = some (⟨10, 20, [⟨0, 0, 1⟩], 0⟩ : SWork) := by rw [← hy]; decide
      exact Option.some.inj h2
    subst this
    revert hle; decide

/-- Works 1 and 2 with one worker each in the chromosome and two each in the specification; the contractor has three. -/
private def fixedCounts : Input Unit :=
  { demo with
    order := [0, 1, 2, 3]
    chrom := ⟨fun i _ => if i = 1 ∨ i = 2 then 1 else 0, fun _ => 0, fun _ _ => 3⟩
    reqs := fun v => if v = 1 ∨ v = 2 then [⟨0, 1, 3⟩] else []
    spec := fun v => if v = 1 ∨ v = 2 then { assigned := [(0, 2)] } else {}
    parentTime := 0
    parents := fun v => if v = 1 ∨ v = 2 then [0] else if v = 3 then [1, 2] else [] }

private def fixedEnv : Env Unit :=
  { overtakingEnv with edgesTo := fun v => (fixedCounts.parents v).map fun p => (p, 0) }

/-- Not proved because false: worker counts of the specification are written into the team after the check that the team is
free, so a chromosome with smaller amounts within its borders is decoded into a schedule that uses four workers of three. -/
theorem fixed_counts_exceed_capacity :
    ∃ (D : Input Unit) (E : Env Unit) (L : Loop Unit), Sane D E ∧ Fits D ∧
      (∀ v k n m, D.pool k 0 = some m → (D.spec v).assigned.lookup k = some n → n ≤ m) ∧
      parallel D E 1000 () 20 = some (some L) ∧ L.items = [] ∧
      D.pool 0 0 = some 3 ∧ busy L.st.sched.placements (0, 0) 0 = 4 := by
  obtain ⟨L, h1, h2, h3⟩ := exists_run (sw := [(3, ⟨10, 10, [], 0⟩), (2, ⟨0, 10, [⟨0, 0, 2⟩], 0⟩), (1, ⟨0, 10, [⟨0, 0, 2⟩], 0⟩), (0, ⟨0, 0, [], 0⟩)]) (its := [])
    (x := parallel fixedCounts fixedEnv 1000 () 20) (by decide +kernel)
  refine ⟨fixedCounts, fixedEnv, L, ⟨?_, fun _ => Int.zero_le_ofNat 1, C13.exactShare_fair, fun v t h => by simp [fixedCounts, demo] at h,
    by decide⟩, ⟨by decide, fun c k n h => ?_⟩, ?_, h1, h3, by decide, by rw [h2]; decide⟩
  · intro v team; simp only [fixedEnv, overtakingEnv]; split <;> omega
  · simp only [fixedCounts, demo] at h ⊢
    split at h
    · cases h; decide
    · cases h
  · intro v k n m hm hn
    simp only [fixedCounts, demo] at hm hn
    split at hm
    · rename_i hk
      cases hm
      split at hn
      · rw [hk.1] at hn; simp at hn; omega
      · simp at hn
    · cases hm

/-- Not proved because false: a work that never ends (estimated at infinity) makes the loop stop; the schedule then lacks
works and no error is raised. -/
theorem infinite_work_truncates_schedule :
    ∃ (D : Input Unit) (E : Env Unit) (L : Loop Unit), Sane D E ∧ Fits D ∧
      TopoList (fun v => (E.edgesTo v).map (·.1)) (works D E) ∧ (works D E).Nodup ∧
      parallel D E 1000 () 20 = some (some L) ∧ 3 ∈ works D E ∧ L.st.sched.get 3 = none := by
  obtain ⟨L, h1, h2, h3⟩ := exists_run (sw := [(2, ⟨0, 1000, [⟨0, 0, 2⟩], 0⟩), (1, ⟨0, 1000, [⟨0, 0, 2⟩], 0⟩), (0, ⟨0, 0, [], 0⟩)])
    (its := [⟨3, 3, [], 0, 0⟩])
    (x := parallel fixedCounts { fixedEnv with estimate := fun _ team => if team = [] then 0 else 1000 } 1000 () 20)
    (by decide +kernel)
  refine ⟨fixedCounts, { fixedEnv with estimate := fun _ team => if team = [] then 0 else 1000 }, L,
    ⟨?_, fun _ => Int.zero_le_ofNat 1, C13.exactShare_fair, fun v t h => by simp [fixedCounts, demo] at h, by decide⟩,
    ⟨by decide, fun c k n h => ?_⟩, topoList_of_from (by decide), by decide, h1, by decide, by rw [h2]; decide⟩
  · intro v team; simp only; split <;> omega
  · simp only [fixedCounts, demo] at h ⊢
    split at h
    · cases h; decide
    · cases h

end Sampo.C28
