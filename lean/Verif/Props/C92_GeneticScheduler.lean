import Verif.Lemmas.GeneticDecode
import Verif.Spec.GeneticRoom
import Verif.Props.C28_Decoding
import Verif.Props.C56_GeneticBest
import Verif.Props.C91_FirstChromosomes

/-!
# C92: the genetic scheduler returns only valid schedules

From the tables of a project and schedules of other schedulers, over all generations, to the schedules the members of the hall of
fame are decoded to.
-/

namespace Sampo.C92

open GeneticRun
open Genetic (Ind Problem)
open GeneticLoop (State runFree runDeadline)

variable {σ : Type} {J : Project} {m : Nat}

/-- A chromosome made of a valid schedule of another scheduler. -/
def Converted (J : Project) (heads : List Nat) (i : Ind) : Prop :=
  ∃ first pool sw order, (∀ l, l ≠ [] → first l ∈ l) ∧ Feasible J.graph J.nodes pool (C89.Staffs J.contractors J.spec J.reqs) sw ∧
    C89.GoodOrder J.graph J.nodes order ∧ ByPriority J.prio order ∧ convert J heads first sw order = some i

/-- What is assumed about the project besides `Sound`: only dependencies, no negative lags inside chains, numbers of workers are not
fixed in the specification, and it begins with a work that needs no workers. -/
structure Plain (J : Project) : Prop where
  dependencies : C89.OnlyDependencies J.graph
  lags : ∀ v, ∀ e ∈ J.graph.edgesTo v, e.type = .inseparable → 0 ≤ e.lag
  counts : ∀ v, (J.spec v).assigned = []
  begins : Begins J

private theorem lo_nonneg (h : Sound J m) {heads : List Nat} {P : Problem} (hp : prepare J = some (heads, P)) :
    ∀ w < P.n, ∀ k < P.m, 0 ≤ P.lo w k := by
  intro w _ k _
  rw [(prepare_prepared h hp).lo]
  by_cases hr : ∀ r ∈ J.reqs (node heads w), r.kind ≠ k
  · rw [limit_absent hr]
  · push Not at hr
    obtain ⟨r, hr, rfl⟩ := hr
    rw [limit_of_mem (h.reqs _).2.1 hr]
    exact ((h.reqs _).1 r hr).1

private theorem converted_good (h : Sound J m) {heads : List Nat} {P : Problem} (hp : prepare J = some (heads, P)) (optimize : Bool)
    {i : Ind} (hc : Converted J heads i) : Good P optimize i := by
  obtain ⟨first, pool, sw, order, h1, h2, h3, h4, h5⟩ := hc
  obtain ⟨j, e, hv, -, hb, -⟩ := C91.feasible_schedule_converts h hp first h1 pool sw h2 order h3 h4
  rw [e] at h5
  cases h5
  refine ⟨hv, fun c hc k hk => ?_, .inr fun c _ k _ => by rw [hb]⟩
  have hp' := prepare_prepared h hp
  rw [hp'.nc] at hc
  rw [hp'.kinds] at hk
  have hl := (h.contractors.pool (List.getElem?_eq_getElem hc) hk).2
  have hcap : P.cap c k = J.borders c k := by rw [hp'.cap]
  rw [hb, hcap]
  exact h.contractors.counts _ (List.getElem_mem hc) _ (lookup_mem hl)

/-- Offspring: a generation of valid chromosomes raises no exception and has only valid children. -/
theorem generation_valid (h : Sound J m) {heads : List Nat} {P : Problem} (hp : prepare J = some (heads, P)) (optimize : Bool)
    (dm : Nat → Genetic.MateDraw) (du : Nat → Genetic.MutDraw) (hd : PossibleDraws P dm du) (pop : List Ind)
    (hpop : ∀ i ∈ pop, Good P optimize i) :
    ∃ off, makeOffspring P optimize dm du pop = some off ∧ ∀ i ∈ off, Good P optimize i :=
  makeOffspring_valid ((prepare_prepared h hp).wellFormed h) (lo_nonneg h hp) hd hpop

/-- Decoding: a schedule decoded from a valid chromosome, if it contains all works, is valid: every work once, precedence with lags,
chains in one piece, teams of enabled contractors that meet the requirements, never more workers than there are. -/
theorem decoded_feasible (h : Sound J m) (hJ : Plain J) {heads : List Nat} {P : Problem} (hp : prepare J = some (heads, P))
    {optimize : Bool} {i : Ind} (hi : Good P optimize i) (site : Env σ) (B : Decode.Input σ) (hB : Steady site B) (inf : Int) (env : σ)
    (fuel : Nat) (L : Decode.Loop σ) (hL : schedule site J heads B inf env fuel i = some (some L))
    (hall : ∀ v ∈ J.nodes, v ∈ L.st.sched.works) : Feasible J.graph J.nodes (LFT.agents J.contractors) (Serves J) L.st.sched := by
  have hp' := prepare_prepared h hp
  have ho := hp'.goodOrder hi.valid
  obtain ⟨e1, e2, e3⟩ := OnGraph.expand h.graph hJ.dependencies site ho
  have hs := sane (J := J) hB heads i
  unfold schedule at hL
  obtain ⟨w1, w2⟩ := C28.parallel_every_work_once _ _ env inf fuel L hs hL
  rw [works_eq] at w1 w2
  have hnd : (C28.works (input J heads B i) (Scheduler.onGraph site J.graph J.nodes)).Nodup := by rw [works_eq]; exact e3
  have hdone : L.items = [] := by
    cases hit : L.items with
    | nil => rfl
    | cons it its =>
      exfalso
      have hn := w1.nodup_iff.2 e3
      rw [hit, List.map_cons, List.flatMap_cons, List.nodup_append] at hn
      have hself : it.node ∈ (Scheduler.onGraph site J.graph J.nodes).chain it.node := Expand.head_mem_chain it.node
      have hm : it.node ∈ J.nodes := by
        refine e1.mem_iff.1 (w1.mem_iff.1 ?_)
        rw [hit, List.map_cons, List.flatMap_cons]
        simp [hself]
      exact hn.2.2 it.node (hall _ hm) it.node (List.mem_append_left _ hself) rfl
  have hch := C28.parallel_chains _ _ env inf fuel L hs hnd hL hdone
  refine ⟨(w2 hdone).trans e1, fun v x hx => ?_, ?_, ?_, ?_, ?_⟩
  · exact C28.parallel_finish_after_start _ _ env inf fuel L hs hL (v, x) (mem_of_get hx)
  · refine OnGraph.precedence_of (C28.parallel_respects_precedence_partial _ _ env inf fuel L hs ?_ ?_ hB.independent hnd hL)
    · exact OnGraph.chainOrdered h.graph hJ.dependencies site
    · intro u e he
      simp only [Scheduler.onGraph, List.mem_map] at he
      obtain ⟨e, he, rfl⟩ := he
      exact (Graph.mem_parents u e.start).2 ⟨e, he, rfl, hJ.dependencies u e he⟩
  · refine OnGraph.chain_of h.graph ho fun v hv => ?_
    obtain ⟨j, hj, rfl⟩ := List.mem_map.1 hv
    exact hch j hj
  · intro k v hk hv
    obtain ⟨j, hj, rfl⟩ := List.mem_map.1 ((ho.2.1 k).2 hk)
    exact Decode.parallel_staffed (S := Serves J) hs.estimate (fun idx i _ it hit => C28.good_times hs idx i it hit)
      (fun idx j hj it team hd hr => serves h hp' hi hJ.counts hj hd hr) hnd hL hdone j hj v ((Heads.mem_chain h.graph.ok hk).2 hv)
  · rintro ⟨c, k⟩ n hn hn0 t
    refine C28.parallel_within_capacity_partial _ _ env inf fuel L hs (fits h hp' hi) (amount_le h hp' hi hJ.begins) ?_ hL c k n hn t
    intro j _ k n hl
    simp only [input, hJ.counts] at hl
    cases hl

/-- Decoding a valid chromosome raises no exception and ends, with a valid schedule of all works unless some time reached
infinity. -/
theorem decoding_ends (h : Sound J m) (hJ : Plain J) {heads : List Nat} {P : Problem} (hp : prepare J = some (heads, P))
    {optimize : Bool} {i : Ind} (hi : Good P optimize i) (site : Env σ) (B : Decode.Input σ) (hB : Calm site B) (inf : Int) (env : σ) :
    ∃ fuel L, schedule site J heads B inf env fuel i = some (some L) ∧
      (Feasible J.graph J.nodes (LFT.agents J.contractors) (Serves J) L.st.sched ∨ ∃ t ∈ L.events, inf ≤ t) := by
  have hp' := prepare_prepared h hp
  have ho := hp'.goodOrder hi.valid
  obtain ⟨e1, e2, e3⟩ := OnGraph.expand h.graph hJ.dependencies site ho
  have hs := sane (J := J) hB.toSteady heads i
  have hnone : ∀ j ∈ (input J heads B i).order, ∀ k n,
      ((input J heads B i).spec ((input J heads B i).node j)).assigned.lookup k = some n → (input J heads B i).chrom.amount j k = n := by
    intro j _ k n hl
    simp only [input, hJ.counts] at hl
    cases hl
  have hall : ∀ j ∈ (input J heads B i).order, ((input J heads B i).spec ((input J heads B i).node j)).assigned.length =
      ((input J heads B i).reqs ((input J heads B i).node j)).length → ∀ r ∈ (input J heads B i).reqs ((input J heads B i).node j),
        (((input J heads B i).spec ((input J heads B i).node j)).assigned.lookup r.kind).isSome := by
    intro j _ hlen r hr
    simp only [input, hJ.counts, List.length_nil] at hlen hr
    rw [List.length_eq_zero_iff.1 hlen.symm] at hr
    cases hr
  have hpool : ∀ j ∈ (input J heads B i).order, ∀ k < (input J heads B i).kinds, 0 < (input J heads B i).chrom.amount j k →
      ((input J heads B i).pool k ((input J heads B i).chrom.contractor j)).isSome := by
    intro j hj k hk _
    have hlt : j < P.n := by rw [hp'.n]; exact hp'.lt hi.valid hj
    have hc := hi.valid.resources.known j hlt
    rw [hp'.nc] at hc
    have hk' : k < m := by rw [← h.kinds]; exact hk
    simp only [input]
    rw [(h.contractors.pool (List.getElem?_eq_getElem hc) hk').1]
    rfl
  obtain ⟨fuel, L, hL, hor⟩ := C28.parallel_finishes (input J heads B i) (Scheduler.onGraph site J.graph J.nodes) env inf hs (fits h hp' hi)
    (amount_le h hp' hi hJ.begins) hnone hall hpool
    (fun j hj => OnGraph.chainLinked h.graph hJ.lags ((ho.2.1 _).1 (List.mem_map_of_mem hj)))
    (fun v => Expand.head_mem_chain v)
    (fun u p hpar => by
      obtain ⟨e, he, h1, -⟩ := (Graph.mem_parents u p).1 hpar
      exact ⟨(e.start, e.lag), List.mem_map.2 ⟨e, he, rfl⟩, h1⟩)
    ⟨hB.deliver, hB.occupy, hB.finish⟩ hB.eventually
    (by rw [works_eq]; exact e2) (by rw [works_eq]; exact e3)
  refine ⟨fuel, L, hL, hor.imp_left fun hw => ?_⟩
  refine decoded_feasible h hJ hp hi site B hB.toSteady inf env fuel L hL fun v hv => ?_
  rw [hw.mem_iff, works_eq, e1.mem_iff]
  exact hv

/-- With enough time, decoding a valid chromosome ends with a valid schedule of all works, and the project ends in that time. -/
theorem decoding_completes (h : Sound J m) (hJ : Plain J) {heads : List Nat} {P : Problem} (hp : prepare J = some (heads, P))
    {optimize : Bool} {i : Ind} (hi : Good P optimize i) (site : Env σ) (B : Decode.Input σ) (hB : Steady site B) (g d inf : Int)
    (hR : Roomy J site B g d inf) (env : σ) :
    ∃ fuel L, schedule site J heads B inf env fuel i = some (some L) ∧
      Feasible J.graph J.nodes (LFT.agents J.contractors) (Serves J) L.st.sched ∧
      ∀ e ∈ L.st.sched, e.2.finish ≤ B.parentTime + J.nodes.length * (2 * g + d + 1) := by
  have hp' := prepare_prepared h hp
  have ho := hp'.goodOrder hi.valid
  obtain ⟨e1, e2, e3⟩ := OnGraph.expand h.graph hJ.dependencies site ho
  have hs := sane (J := J) hB heads i
  have hlen : (C28.works (input J heads B i) (Scheduler.onGraph site J.graph J.nodes)).length = J.nodes.length := by
    rw [works_eq]; exact e1.length_eq
  have hself : ∀ v, v ∈ (Scheduler.onGraph site J.graph J.nodes).chain v := fun v => Expand.head_mem_chain v
  obtain ⟨fuel, L, hL, hw, hfin⟩ := C28.parallel_completes (input J heads B i) (Scheduler.onGraph site J.graph J.nodes) env inf g d hs
    (fits h hp' hi) (amount_le h hp' hi hJ.begins)
    (by
      intro j _ k n hl
      simp only [input, hJ.counts] at hl
      cases hl)
    (by
      intro j _ hlen r hr
      simp only [input, hJ.counts, List.length_nil] at hlen hr
      rw [List.length_eq_zero_iff.1 hlen.symm] at hr
      cases hr)
    (by
      intro j hj k hk _
      have hlt : j < P.n := by rw [hp'.n]; exact hp'.lt hi.valid hj
      have hc := hi.valid.resources.known j hlt
      rw [hp'.nc] at hc
      have hk' : k < m := by rw [← h.kinds]; exact hk
      simp only [input]
      rw [(h.contractors.pool (List.getElem?_eq_getElem hc) hk').1]
      rfl)
    (fun j hj => OnGraph.chainLinked h.graph hJ.lags ((ho.2.1 _).1 (List.mem_map_of_mem hj)))
    hself
    (fun u p hpar => by
      obtain ⟨e, he, h1, -⟩ := (Graph.mem_parents u p).1 hpar
      exact ⟨(e.start, e.lag), List.mem_map.2 ⟨e, he, rfl⟩, h1⟩)
    (OnGraph.noSite hR.limits) hR.allowed hB.independent hR.lag0
    (by
      intro v e he
      simp only [Scheduler.onGraph, List.mem_map] at he
      obtain ⟨e, he, rfl⟩ := he
      exact hR.lags v e he)
    hR.time0
    (by
      intro j hj team hteam u hu
      have hmem : ∀ x ∈ (Scheduler.onGraph site J.graph J.nodes).chain ((input J heads B i).node j), x ∈ J.nodes := fun x hx =>
        e1.mem_iff.1 (List.mem_flatMap.2 ⟨_, List.mem_map_of_mem hj, hx⟩)
      obtain ⟨it, hd, hnode, ht⟩ : ∃ it, Decode.decode (input J heads B i) (Scheduler.onGraph site J.graph J.nodes) 0 j = some it ∧
          it.node = (input J heads B i).node j ∧ it.team = team := by
        unfold Decode.decode
        rw [hteam]
        exact ⟨_, rfl, rfl, rfl⟩
      refine hR.times u (hmem u hu) _ (hmem _ (hself _)) team it.contractor (hnode ▸ serves h hp' hi hJ.counts hj hd ?_)
      simp only [input, hJ.counts, Decode.respec, ht]
      split
      · rename_i he
        rw [List.length_nil] at he
        rw [List.length_eq_zero_iff.1 he.symm]
        have key : ∀ l : List Worker, (l.mapM fun w => if w.name ∈ List.map (fun r : WorkerReq => r.kind) [] then
            (List.lookup w.name ([] : List (Nat × Int))).map fun n => { w with count := n } else some w) = some l := by
          intro l
          induction l with
          | nil => rfl
          | cons w l ih =>
            rw [List.mapM_cons, ih, if_neg (by simp)]
            rfl
        exact key team
      · simp)
    (by
      intro v t ht
      have h1 := hR.given v t ht
      have h2 : (1 : Int) ≤ ((Scheduler.onGraph site J.graph J.nodes).chain v).length := by
        have := List.length_pos_of_mem (hself v)
        omega
      have h3 := hR.time0
      nlinarith)
    (by rw [works_eq]; exact e2) (by rw [works_eq]; exact e3) (by rw [hlen]; exact hR.room)
  rw [hlen] at hfin
  refine ⟨fuel, L, hL, decoded_feasible h hJ hp hi site B hB inf env fuel L hL fun v hv => ?_, hfin⟩
  rw [hw.mem_iff, works_eq, e1.mem_iff]
  exact hv

/-- The hall of fame, without a deadline: whatever is drawn, all members are valid chromosomes. -/
theorem free_hall_valid (h : Sound J m) {heads : List Nat} {P : Problem} (hp : prepare J = some (heads, P)) (optimize : Bool)
    (R : Randomness) (hR : R.Possible P) (fit : Ind → List Int) (sel : List Ind → List Ind) (hsel : ∀ l, ∀ a ∈ sel l, a ∈ l)
    (maxPlateau : Option Nat) (generations : Nat) (pop : List Ind) (hpop : ∀ i ∈ pop, Converted J heads i) (s : State Ind)
    (hs : runFree fit sel (stage P optimize R) maxPlateau generations pop = some s) : ∀ i ∈ s.hof, Good P optimize i :=
  (runFree_all ((prepare_prepared h hp).wellFormed h) (lo_nonneg h hp) hR hsel (fun a ha => converted_good h hp optimize (hpop a ha)) hs).2

/-- With a deadline: the same. -/
theorem deadline_hall_valid (h : Sound J m) {heads : List Nat} {P : Problem} (hp : prepare J = some (heads, P)) (optimize : Bool)
    (R R' : Randomness) (hR : R.Possible P) (hR' : R'.Possible P) (time : Ind → Int) (res : Ind → List Int) (sel sel' : List Ind → List Ind)
    (hsel : ∀ l, ∀ a ∈ sel l, a ∈ l) (hsel' : ∀ l, ∀ a ∈ sel' l, a ∈ l) (deadline : Int) (fill : List Ind → Nat → List Ind)
    (hfill : ∀ l n, ∀ a ∈ fill l n, a ∈ l) (maxPlateau : Option Nat) (generations size : Nat) (pop : List Ind)
    (hpop : ∀ i ∈ pop, Converted J heads i) (s : State Ind)
    (hrun : runDeadline time res sel sel' (stage P optimize R) (stage P true R') deadline fill maxPlateau generations size pop = some s) :
    ∀ i ∈ s.hof, Good P true i :=
  (runDeadline_all ((prepare_prepared h hp).wellFormed h) (lo_nonneg h hp) hR hR' hsel hsel' hfill
    (fun a ha => converted_good h hp optimize (hpop a ha)) hrun).2

/-- Without a deadline: started from valid schedules of other schedulers, the genetic algorithm raises no exception and every member
of its hall of fame is decoded to a valid schedule (unless times reach infinity); for any fitness, any selection from
the population, any number of generations, whatever is drawn. -/
theorem free_schedules_feasible (h : Sound J m) (hJ : Plain J) {heads : List Nat} {P : Problem} (hp : prepare J = some (heads, P))
    (site : Env σ) (B : Decode.Input σ) (hB : Calm site B) (inf : Int) (env : σ) (optimize : Bool) (R : Randomness)
    (hR : R.Possible P) (fit : Ind → List Int) (d : Nat) (hd : ∀ i, (fit i).length = d) (sel : List Ind → List Ind) (hsel : ∀ l, ∀ a ∈ sel l, a ∈ l) (maxPlateau : Option Nat)
    (generations : Nat) (pop : List Ind) (hne : pop ≠ []) (hpop : ∀ i ∈ pop, Converted J heads i) :
    ∃ s, runFree fit sel (stage P optimize R) maxPlateau generations pop = some s ∧ ∀ i ∈ s.hof,
      (∃ fuel L, schedule site J heads B inf env fuel i = some (some L) ∧
        (Feasible J.graph J.nodes (LFT.agents J.contractors) (Serves J) L.st.sched ∨ ∃ t ∈ L.events, inf ≤ t)) ∧
      ∀ fuel L, schedule site J heads B inf env fuel i = some (some L) → (∀ v ∈ J.nodes, v ∈ L.st.sched.works) →
        Feasible J.graph J.nodes (LFT.agents J.contractors) (Serves J) L.st.sched := by
  obtain ⟨s, hs, -⟩ := C56.never_worse_than_first fit d hd sel hsel (stage P optimize R) hR.shuffle maxPlateau generations pop hne
  refine ⟨s, hs, fun i hi => ?_⟩
  have hg := free_hall_valid h hp optimize R hR fit sel hsel maxPlateau generations pop hpop s hs i hi
  exact ⟨decoding_ends h hJ hp hg site B hB inf env, fun fuel L hL hall => decoded_feasible h hJ hp hg site B hB.toSteady inf env fuel L hL hall⟩

/-- With a deadline: the same for both stages; the second one optimizes resources. -/
theorem deadline_schedules_feasible (h : Sound J m) (hJ : Plain J) {heads : List Nat} {P : Problem} (hp : prepare J = some (heads, P))
    (site : Env σ) (B : Decode.Input σ) (hB : Calm site B) (inf : Int) (env : σ) (optimize : Bool) (R R' : Randomness)
    (hR : R.Possible P) (hR' : R'.Possible P) (time : Ind → Int) (res : Ind → List Int) (sel sel' : List Ind → List Ind)
    (hsel : ∀ l, ∀ a ∈ sel l, a ∈ l) (hsel' : ∀ l, ∀ a ∈ sel' l, a ∈ l) (deadline : Int) (fill : List Ind → Nat → List Ind)
    (hfill : ∀ l n, ∀ a ∈ fill l n, a ∈ l) (maxPlateau : Option Nat) (generations size : Nat) (pop : List Ind)
    (hpop : ∀ i ∈ pop, Converted J heads i) (s : State Ind)
    (hrun : runDeadline time res sel sel' (stage P optimize R) (stage P true R') deadline fill maxPlateau generations size pop = some s)
    (i : Ind) (hi : i ∈ s.hof) :
      (∃ fuel L, schedule site J heads B inf env fuel i = some (some L) ∧
        (Feasible J.graph J.nodes (LFT.agents J.contractors) (Serves J) L.st.sched ∨ ∃ t ∈ L.events, inf ≤ t)) ∧
      ∀ fuel L, schedule site J heads B inf env fuel i = some (some L) → (∀ v ∈ J.nodes, v ∈ L.st.sched.works) →
        Feasible J.graph J.nodes (LFT.agents J.contractors) (Serves J) L.st.sched := by
  have hg := deadline_hall_valid h hp optimize R R' hR hR' time res sel sel' hsel hsel' deadline fill hfill maxPlateau generations size pop
    hpop s hrun i hi
  exact ⟨decoding_ends h hJ hp hg site B hB inf env, fun fuel L hL hall => decoded_feasible h hJ hp hg site B hB.toSteady inf env fuel L hL hall⟩

/-- Without a deadline and with enough time: every member of the hall of fame is decoded to a valid schedule of all works that ends in
that time. -/
theorem free_schedules_complete (h : Sound J m) (hJ : Plain J) {heads : List Nat} {P : Problem} (hp : prepare J = some (heads, P))
    (site : Env σ) (B : Decode.Input σ) (hB : Steady site B) (g d inf : Int) (hroom : Roomy J site B g d inf) (env : σ) (optimize : Bool)
    (R : Randomness) (hR : R.Possible P) (fit : Ind → List Int) (dim : Nat) (hdim : ∀ i, (fit i).length = dim) (sel : List Ind → List Ind)
    (hsel : ∀ l, ∀ a ∈ sel l, a ∈ l) (maxPlateau : Option Nat) (generations : Nat) (pop : List Ind) (hne : pop ≠ [])
    (hpop : ∀ i ∈ pop, Converted J heads i) :
    ∃ s, runFree fit sel (stage P optimize R) maxPlateau generations pop = some s ∧ ∀ i ∈ s.hof,
      ∃ fuel L, schedule site J heads B inf env fuel i = some (some L) ∧
        Feasible J.graph J.nodes (LFT.agents J.contractors) (Serves J) L.st.sched ∧
        ∀ e ∈ L.st.sched, e.2.finish ≤ B.parentTime + J.nodes.length * (2 * g + d + 1) := by
  obtain ⟨s, hs, -⟩ := C56.never_worse_than_first fit dim hdim sel hsel (stage P optimize R) hR.shuffle maxPlateau generations pop hne
  exact ⟨s, hs, fun i hi => decoding_completes h hJ hp
    (free_hall_valid h hp optimize R hR fit sel hsel maxPlateau generations pop hpop s hs i hi) site B hB g d inf hroom env⟩

/-- With a deadline and enough time: the same. -/
theorem deadline_schedules_complete (h : Sound J m) (hJ : Plain J) {heads : List Nat} {P : Problem} (hp : prepare J = some (heads, P))
    (site : Env σ) (B : Decode.Input σ) (hB : Steady site B) (g d inf : Int) (hroom : Roomy J site B g d inf) (env : σ) (optimize : Bool)
    (R R' : Randomness) (hR : R.Possible P) (hR' : R'.Possible P) (time : Ind → Int) (res : Ind → List Int) (sel sel' : List Ind → List Ind)
    (hsel : ∀ l, ∀ a ∈ sel l, a ∈ l) (hsel' : ∀ l, ∀ a ∈ sel' l, a ∈ l) (deadline : Int) (fill : List Ind → Nat → List Ind)
    (hfill : ∀ l n, ∀ a ∈ fill l n, a ∈ l) (maxPlateau : Option Nat) (generations size : Nat) (pop : List Ind)
    (hpop : ∀ i ∈ pop, Converted J heads i) (s : State Ind)
    (hrun : runDeadline time res sel sel' (stage P optimize R) (stage P true R') deadline fill maxPlateau generations size pop = some s)
    (i : Ind) (hi : i ∈ s.hof) :
    ∃ fuel L, schedule site J heads B inf env fuel i = some (some L) ∧
      Feasible J.graph J.nodes (LFT.agents J.contractors) (Serves J) L.st.sched ∧
      ∀ e ∈ L.st.sched, e.2.finish ≤ B.parentTime + J.nodes.length * (2 * g + d + 1) :=
  decoding_completes h hJ hp (deadline_hall_valid h hp optimize R R' hR hR' time res sel sel' hsel hsel' deadline fill hfill maxPlateau
    generations size pop hpop s hrun i hi) site B hB g d inf hroom env

/-! ### Contractors that list kinds of workers in different orders -/

private def base : Decode.Input Unit where
  order := []
  chrom := ⟨fun _ _ => 0, fun _ => 0, fun _ _ => 0⟩
  node := id
  reqs := fun _ => []
  spec := fun _ => {}
  independent := fun _ => false
  assignedTime := fun _ => none
  volume := fun _ => 1
  share := Assigned.exactShare
  pool := fun _ _ => none
  kinds := 0
  parentTime := 5
  parents := fun _ => []
  matOk := fun _ _ _ => true
  zoneOk := fun _ _ _ _ => true

private theorem calm : Calm GeneticDemo.site base where
  estimate := GeneticDemo.est
  volume _ := Int.zero_le_ofNat 1
  share := C13.exactShare_fair
  assigned v t h := by simp [base] at h
  start := by decide
  independent _ := rfl
  deliver s v t := by obtain ⟨a, b, e, -⟩ := GeneticDemo.noLimits.deliver s v t; rw [e]; rfl
  occupy s v t d := by obtain ⟨a, e⟩ := GeneticDemo.noLimits.occupy s v t d; rw [e]; rfl
  finish s := by obtain ⟨a, b, e, -⟩ := GeneticDemo.noLimits.finish s; rw [e]; rfl
  eventually _ _ _ := ⟨0, fun _ _ => ⟨rfl, rfl⟩⟩

private def mixed : Project where
  graph := Graph.ofEdges [⟨0, 1, 0, .finishStart⟩]
  nodes := [0, 1]
  contractors := [⟨0, [(0, 1), (1, 9)]⟩, ⟨1, [(1, 5), (0, 2)]⟩]
  reqs v := if v = 1 then [⟨0, 1, 9⟩] else []
  prio _ := 1
  spec _ := ⟨[], []⟩

private def mixedInd : Ind := ⟨[0, 1], fun w k => if w = 1 ∧ k = 0 then 5 else 0, fun _ => 1, mixed.borders⟩

private abbrev IsValid (P : Problem) (i : Ind) : Prop :=
  i.order.Perm (List.range P.n) ∧ (i.order.Pairwise fun v p => ¬ p ∈ P.parents v) ∧ (i.order.Pairwise fun a b => P.prio a ≤ P.prio b) ∧
    (∀ w < P.n, ∀ k < P.m, P.lo w k ≤ i.res.amount w k) ∧ (∀ w < P.n, ∀ k < P.m, i.res.amount w k ≤ P.hi w k) ∧
    (∀ w < P.n, ∀ k < P.m, i.res.amount w k ≤ i.res.border (i.res.contractor w) k) ∧ (∀ w < P.n, i.res.contractor w < P.nc) ∧
    (∀ w < P.n, P.enabled w (i.res.contractor w) = true) ∧ (∀ c < P.nc, ∀ k < P.m, i.res.border c k = P.cap c k) ∧
    ∀ c < P.nc, ∀ k < P.m, 0 ≤ i.res.border c k

/-- Not proved because false: for all contractors.  When they list the kinds of workers in different orders, a chromosome passes the
check and is decoded to a schedule in which five workers of kind 0 of a contractor are busy that has two. -/
theorem mixed_up_kinds_exceed_capacity : ∃ (J : Project) (heads : List Nat) (P : Problem) (i : Ind) (L : Decode.Loop Unit),
    C22.WorkGraph J.graph J.nodes ∧ C16.SoundContractors J.contractors ∧ (∀ v, C16.SoundReqs (J.reqs v)) ∧
    prepare J = some (heads, P) ∧ Good P false i ∧ Genetic.correct P i = true ∧
    schedule GeneticDemo.site J heads base 1000 () 20 i = some (some L) ∧
    ∃ a n t, LFT.agents J.contractors a = some n ∧ n < busy L.st.sched.placements a t := by
  have hg : C22.WorkGraph mixed.graph mixed.nodes :=
    ⟨by decide, Graph.linked_ofEdges _, Graph.closed_ofEdges (by decide), Graph.chains_ofEdges (by decide),
      Graph.acyclic_ofEdges (fun v => v) (by decide)⟩
  have key : ((prepare mixed).bind fun hp => (schedule GeneticDemo.site mixed hp.1 base 1000 () 20 mixedInd).join.map fun L =>
        (L.st.sched, Genetic.correct hp.2 mixedInd, decide (IsValid hp.2 mixedInd))) =
      some ([(1, ⟨5, 15, [⟨1, 0, 5⟩], 1⟩), (0, ⟨5, 5, [], 1⟩)], true, true) := by decide +kernel
  simp only [Option.bind_eq_some_iff, Option.map_eq_some_iff, Option.join_eq_some_iff, Prod.mk.injEq, decide_eq_true_eq] at key
  obtain ⟨⟨heads, P⟩, hp, L, hL, h1, h2, h3, h4, h5, h6, h7, h8, h9, h10, h11, h12⟩ := key
  refine ⟨mixed, heads, P, mixedInd, L, hg, by unfold C16.SoundContractors; decide, fun v => ?_, hp,
    ⟨⟨h3, h4, h5, ⟨h6, h7, h8, h9, h10, fun c hc k hk => Int.le_of_eq (h11 c hc k hk)⟩⟩, h12, .inr h11⟩, h2, hL, (1, 0), 2, 5, by decide, ?_⟩
  · simp only [mixed, C16.SoundReqs]; split <;> simp
  · rw [h1]; decide

/-! ### A concrete project -/

-- hypotheses of the theorems
private theorem plain : Plain GeneticDemo.J where
  dependencies := GeneticDemo.deps
  lags v e he _ := GeneticDemo.lag he
  counts v := by simp only [GeneticDemo.J]; split <;> rfl
  begins := by
    refine ⟨0, rfl, fun v hv hne => ?_⟩
    have hm := ((C22.collapse_preserves_dependencies GeneticDemo.graph GeneticDemo.collapse).2.1 v).2 hv
    have key : ∀ v ∈ [0, 3, 1, 4], v ≠ 0 → ∃ p, p ∈ (List.lookup v [(0, []), (1, [0, 3]), (3, [0]), (4, [1])]).getD [] := by
      intro v hv hne
      simp only [List.mem_cons, List.not_mem_nil, or_false] at hv
      rcases hv with rfl | rfl | rfl | rfl
      · exact absurd rfl hne
      · exact ⟨0, by decide⟩
      · exact ⟨0, by decide⟩
      · exact ⟨1, by decide⟩
    obtain ⟨p, hp⟩ := key v hm hne
    exact ⟨p, ((C22.collapse_tables GeneticDemo.graph GeneticDemo.collapse v p).1).1 hp⟩

private def still : Randomness where
  shuffle _ l := l.reverse
  mate _ _ := ⟨fun i => ((3 * (i / 4), 2), (3 * (i / 4), 2)), [1]⟩
  mutation _ _ := ⟨fun _ _ => true, fun _ _ l => l.getLastD 0, fun _ _ => [], fun _ _ l => l.getLast?, fun _ => false, fun _ => 0,
    fun w _ => w == 1, fun _ _ l => l.getLastD 0⟩
  inTime _ := true

private theorem picks : GeneticRes.Picks fun _ _ l => l.getLastD 0 := by
  intro _ _ l hl
  show l.getLastD 0 ∈ l
  rw [List.getLastD_eq_getLast?, List.getLast?_eq_some_getLast hl]
  exact List.getLast_mem hl

private theorem still_possible (P : Problem) : still.Possible P where
  shuffle _ l := List.reverse_perm l
  draws g := by
    refine ⟨fun j i => by simp only [still, Genetic.Draw]; omega, fun j => ⟨picks, fun i n => ?_, fun w _ h => by simp [still] at h, picks⟩⟩
    exact ⟨by simp [still], by simp [still], fun k l hl => ⟨l.getLast hl, List.getLast_mem hl, List.getLast?_eq_some_getLast hl⟩⟩

-- there is enough time before 1000
private theorem roomy : Roomy GeneticDemo.J GeneticDemo.site base 5 40 1000 where
  limits := GeneticDemo.noLimits
  allowed _ _ _ _ := ⟨rfl, rfl⟩
  lag0 := by decide
  lags v e he := (by decide : ∀ e ∈ GeneticDemo.edges, e.lag ≤ 5) e (GeneticDemo.edge he).1
  time0 := by decide
  times u _ v _ team _ _ := by simp only [GeneticDemo.site]; split <;> omega
  given v t h := by simp [base] at h
  room := by decide

-- a run without deadline over ten generations, started from the schedule of LFT
example : ∃ heads P pop s, prepare GeneticDemo.J = some (heads, P) ∧ pop ≠ [] ∧ (∀ i ∈ pop, Converted GeneticDemo.J heads i) ∧
    runFree (fun i => [i.res.amount 0 0, 1]) (fun l => l.take 5) (stage P true still) none 10 pop = some s ∧
    ∀ i ∈ s.hof, ∃ fuel L, schedule GeneticDemo.site GeneticDemo.J heads base 1000 () fuel i = some (some L) ∧
      Feasible C22.demo GeneticDemo.works (LFT.agents GeneticDemo.J.contractors) (Serves GeneticDemo.J) L.st.sched ∧
      ∀ e ∈ L.st.sched, e.2.finish ≤ 260 := by
  obtain ⟨heads, P, hp, -⟩ := C91.tables_describe_project GeneticDemo.sound
  have hgood := C89.lft_order GeneticDemo.graph _ (fun v => Int.natCast_nonneg v) _ GeneticDemo.agrees
  obtain ⟨st, -, hf⟩ := C89.lft_jit_schedules GeneticDemo.graph GeneticDemo.deps (fun v e he _ => GeneticDemo.lag he)
    GeneticDemo.site GeneticDemo.noLimits GeneticDemo.est (Scheduler.lftRule (fun v => (v : Int)) GeneticDemo.J.prio) hgood
    (C89.rules_answer GeneticDemo.graph GeneticDemo.acyclic (fun v => (v : Int)) (fun v => (v : Int)) GeneticDemo.J.prio).2.1
    GeneticDemo.J.contractors GeneticDemo.contractors.sound GeneticDemo.J.spec
    (by intro v k n; simp only [GeneticDemo.J]; split <;> simp) GeneticDemo.J.reqs (fun _ _ => 0) (fun _ _ h => h) (fun _ => false) 5
    (by decide) () GeneticDemo.staff
  have ho : C89.GoodOrder C22.demo GeneticDemo.works [0, 3, 1, 4] := hgood _ (by decide +kernel)
  have hfirst : ∀ l : List Nat, l ≠ [] → l.headD 0 ∈ l := fun l hl => by cases l <;> simp_all
  obtain ⟨ind, h1, -⟩ := C91.feasible_schedule_converts GeneticDemo.sound hp (fun l => l.headD 0) hfirst _ st.sched hf [0, 3, 1, 4] ho
    (byPriority_iff.2 (by decide))
  have hc : ∀ i ∈ [ind, ind], Converted GeneticDemo.J heads i := by
    intro i hi
    have : i = ind := by simpa using hi
    rw [this]
    exact ⟨_, _, st.sched, _, hfirst, hf, ho, byPriority_iff.2 (by decide), h1⟩
  obtain ⟨s, hs, hh⟩ := free_schedules_complete GeneticDemo.sound plain hp GeneticDemo.site base calm.toSteady 5 40 1000 roomy () true still (still_possible P)
    (fun i => [i.res.amount 0 0, 1]) 2 (fun _ => rfl) (fun l => l.take 5) (fun l a ha => List.mem_of_mem_take ha) none 10 [ind, ind]
    (by simp) hc
  exact ⟨heads, P, [ind, ind], s, hp, by simp, hc, hs, hh⟩

-- a chromosome of the project and its schedule
example : ((prepare GeneticDemo.J).bind fun hp => (schedule GeneticDemo.site GeneticDemo.J hp.1 base 1000 () 30
    ⟨[0, 1, 2, 3], fun w k => if w = 1 then 1 else if w = 2 ∧ k = 0 then 2 else 0, fun _ => 0, GeneticDemo.J.borders⟩).join.map
      fun L => (L.st.sched, L.events.all (· < 1000))) =
    some ([(4, ⟨52, 52, [], 0⟩), (2, ⟨37, 52, [⟨0, 0, 2⟩], 0⟩), (1, ⟨7, 22, [⟨0, 0, 2⟩], 0⟩), (3, ⟨7, 37, [⟨0, 0, 1⟩, ⟨0, 1, 1⟩], 0⟩),
      (0, ⟨5, 5, [], 0⟩)], true) := by decide +kernel

end Sampo.C92
