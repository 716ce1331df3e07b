import Verif.Spec.GeneticSite
import Verif.Lemmas.GeneticBreed
import Verif.Lemmas.Schedulers
import Verif.Lemmas.DecodeLive
import Verif.Lemmas.DecodeSane

/-! Decoding of valid chromosomes. -/

namespace Sampo.Decode

variable {σ : Type} {D : Input σ} {E : Env σ}

theorem parallelTeam_has {i : Nat} {team : List Worker} (h : parallelTeam D i = some team) {k : Nat} (hk : k < D.kinds)
    (ha : 0 < D.chrom.amount i k) : ∃ w ∈ team, w.name = k := by
  unfold parallelTeam at h
  have hm : k ∈ (List.range D.kinds).filter fun k => D.chrom.amount i k > 0 := by simp [hk, ha]
  have := mapM_option_map (g := (·.name)) (g' := fun k => k) h fun k _ w hw => by
    simp only [Option.map_eq_some_iff] at hw
    obtain ⟨_, _, rfl⟩ := hw; rfl
  rw [List.map_id'] at this
  rw [← this, List.mem_map] at hm
  exact hm

/-- All works of a decoded schedule have the team and the contractor of the chromosome. -/
theorem parallel_staffed {S : Nat → List Worker → Nat → Prop} {inf : Int} {fuel : Nat} {env : σ} {L : Loop σ}
    (hest : ∀ v team, 0 ≤ E.estimate v team)
    (hts : ∀ idx, ∀ i ∈ D.order, ∀ it, decode D E idx i = some it → GoodTimes D E it)
    (hS : ∀ idx, ∀ i ∈ D.order, ∀ it team, decode D E idx i = some it →
      respec (D.reqs it.node) (D.spec it.node).assigned it.team = some team → S it.node team it.contractor)
    (hnd : ((D.order.map D.node).flatMap E.chain).Nodup)
    (h : parallel D E inf env fuel = some (some L)) (hdone : L.items = []) :
    ∀ i ∈ D.order, ∀ u ∈ E.chain (D.node i), ∃ x, L.st.sched.get u = some x ∧ S (D.node i) x.team x.contractor := by
  let Q : List Item → JIT.State σ → Prop := fun l st =>
    (∀ it ∈ l, GoodTimes D E it ∧ ∀ team, respec (D.reqs it.node) (D.spec it.node).assigned it.team = some team →
      S it.node team it.contractor) ∧
    ∃ vs, (vs ++ l.map (·.node)).Perm (D.order.map D.node) ∧
      ∀ v ∈ vs, ∀ u ∈ E.chain v, ∃ x, st.sched.get u = some x ∧ S v x.team x.contractor
  have hQ : Q L.items L.st := by
    apply parallel_inv (Inv := Q) ?_ ?_ ?_ h
    · rintro l l' st hp ⟨h1, vs, h2, h3⟩
      exact ⟨fun it hit => h1 it (hp.mem_iff.mpr hit), vs, ((hp.map _).symm.append_left vs).trans h2, h3⟩
    · rintro t it l st r hok hp ⟨h1, vs, h2, h3⟩
      obtain ⟨g1, g2⟩ := h1 it (by simp)
      obtain ⟨team, fin, hre, hrow, _⟩ := place_spec hest g1 hp
      refine ⟨fun x hx => h1 x (by simp [hx]), vs ++ [it.node], by simpa using h2, ?_⟩
      have hnd' : ((vs ++ (it :: l).map (·.node)).flatMap E.chain).Nodup := (List.Perm.nodup_iff (h2.flatMap_right E.chain)).2 hnd
      rw [List.map_cons, List.flatMap_append, List.flatMap_cons, List.nodup_append] at hnd'
      obtain ⟨-, hnd1, hnd2⟩ := hnd'
      rw [List.nodup_append] at hnd1
      intro v hv u hu
      rcases List.mem_append.1 hv with hv | hv
      · obtain ⟨x, hx, hs⟩ := h3 v hv u hu
        refine ⟨x, ?_, hs⟩
        rw [hrow.get_of_not_mem fun hc => ?_, hx]
        exact hnd2 u (List.mem_flatMap.2 ⟨v, hv, hu⟩) u (List.mem_append_left _ hc) rfl
      · rw [List.mem_singleton] at hv
        subst hv
        obtain ⟨x, hx, -, -, -, e1, e2⟩ := hrow.mem hnd1.1 hu
        exact ⟨x, hx, by rw [e1, e2]; exact g2 team hre⟩
    · intro items hi
      obtain ⟨h1, h2⟩ := decodeAll_mem hi
      refine ⟨fun it hit => ?_, [], by simp [h1], by simp⟩
      obtain ⟨j, i, h3, h4⟩ := h2 it hit
      exact ⟨hts _ i (List.mem_of_getElem? h3) it h4, fun team ht => hS _ i (List.mem_of_getElem? h3) it team h4 ht⟩
  obtain ⟨-, vs, h2, h3⟩ := hQ
  rw [hdone, List.map_nil, List.append_nil] at h2
  intro i hi
  exact h3 _ (h2.mem_iff.2 (List.mem_map_of_mem hi))

end Sampo.Decode

namespace Sampo.OnGraph
open C22 (WorkGraph)

variable {σ : Type} {g : Graph} {nodes : List Nat}

theorem chain_pairwise (h : WorkGraph g nodes) (v : Nat) :
    (g.chainWithSelf nodes.length v).Pairwise fun a b => Relation.TransGen g.Follows a b := by
  unfold Graph.chainWithSelf
  split
  · exact (Graph.chainFrom_pairwise h.linked nodes.length v).2
  · exact List.pairwise_singleton _ _

theorem chainOrdered (h : WorkGraph g nodes) (hdep : C89.OnlyDependencies g) (site : Env σ) :
    Decode.ChainOrdered (Scheduler.onGraph site g nodes) := by
  intro v l₁ u l₂ hl e he hin
  simp only [Scheduler.onGraph, List.mem_map] at he hl hin
  obtain ⟨e, he, rfl⟩ := he
  have hd : g.DependsOn u e.start := ⟨e, he, rfl, hdep u e he⟩
  have hpw := chain_pairwise h v
  rw [hl] at hin hpw
  rcases List.mem_append.1 hin with hin | hin
  · exact hin
  · rw [List.pairwise_append, List.pairwise_cons] at hpw
    rcases List.mem_cons.1 hin with heq | hin
    · dsimp only at heq
      rw [heq] at hd
      exact absurd (Relation.TransGen.single hd) (h.acyclic u)
    · have := Expand.follows_depends (hpw.2.1.1 _ hin)
      exact absurd (Relation.TransGen.head hd this) (h.acyclic u)

theorem chainLinked (h : WorkGraph g nodes) {site : Env σ} (hpos : ∀ v, ∀ e ∈ g.edgesTo v, e.type = .inseparable → 0 ≤ e.lag) {k : Nat}
    (hk : g.IsHead nodes k) : ∀ l₁ u l₂, (Scheduler.onGraph site g nodes).chain k = l₁ ++ u :: l₂ → ∀ p,
      (Scheduler.onGraph site g nodes).insepParent u = some p →
      p ∈ l₁ ∧ ∃ lag, (p, lag) ∈ (Scheduler.onGraph site g nodes).edgesTo u ∧ 0 ≤ lag := by
  intro l₁ u l₂ hl p hp
  obtain ⟨lag, h1, h2⟩ := chainEdges site hpos u p hp
  refine ⟨?_, lag, h2, h1⟩
  simp only [Scheduler.onGraph] at hl hp
  have hf : g.Follows p u := by
    simp only [Graph.insepParent] at hp
    have := List.mem_of_head? hp
    rw [List.mem_map] at this
    obtain ⟨e, he, rfl⟩ := this
    rw [List.mem_filter, decide_eq_true_eq] at he
    exact ⟨e, he.1, rfl, he.2⟩
  have hu : g.InChain k u := (Heads.mem_chain h.ok hk).1 (by rw [hl]; simp)
  have hun : u ∈ nodes := Graph.follows_closed h.linked h.closed hk.1 hu
  have hpn : p ∈ nodes := by
    obtain ⟨e, he, rfl, -⟩ := hf
    exact (h.closed u hun).1 e he
  obtain ⟨k', ⟨hk', hc⟩, -⟩ := C22.one_head h p hpn
  obtain ⟨_, -, huniq⟩ := C22.one_head h u hun
  have e1 := huniq k ⟨hk, hu⟩
  have e2 := huniq k' ⟨hk', Relation.ReflTransGen.tail hc hf⟩
  rw [e2, ← e1] at hc
  have hpc : p ∈ g.chainWithSelf nodes.length k := (Heads.mem_chain h.ok hk).2 hc
  have hpw := Expand.chain_pairwise h hk
  rw [hl] at hpc hpw
  rw [List.pairwise_append, List.pairwise_cons] at hpw
  rcases List.mem_append.1 hpc with hin | hin
  · exact hin
  · exfalso
    rcases List.mem_cons.1 hin with heq | hin
    · rw [heq] at hf
      exact h.acyclic u (Expand.follows_depends (.single hf))
    · exact h.acyclic u (Expand.follows_depends (.tail (hpw.2.1.1 p hin) hf))

end Sampo.OnGraph

namespace Sampo.GeneticRun
open Genetic (Ind Problem)

variable {σ : Type} {J : Project} {m : Nat} {heads : List Nat} {P : Problem} {i : Ind}

theorem Prepared.lt (hp : Prepared J m heads P) (hv : C55.ValidInd P i) {j : Nat} (hj : j ∈ i.order) : j < heads.length := by
  rw [← hp.n]
  exact List.mem_range.1 (hv.works.mem_iff.1 hj)

/-- The order of a valid chromosome is an order of all chains by dependencies. -/
theorem Prepared.goodOrder (hp : Prepared J m heads P) (hv : C55.ValidInd P i) :
    C89.GoodOrder J.graph J.nodes (i.order.map (node heads)) := by
  have hnd : i.order.Nodup := hv.works.nodup_iff.2 List.nodup_range
  refine ⟨?_, fun v => ?_, ?_⟩
  · rw [List.nodup_map_iff_inj_on hnd]
    intro a ha b hb hab
    have h1 := (index_node hp.nodup (hp.lt hv ha)).1
    have h2 := (index_node hp.nodup (hp.lt hv hb)).1
    rw [hab, h2] at h1
    exact (Option.some.inj h1).symm
  · rw [← hp.isHead, List.mem_map]
    constructor
    · rintro ⟨a, ha, rfl⟩
      exact (index_node hp.nodup (hp.lt hv ha)).2
    · intro hm
      obtain ⟨j, hj, hl⟩ := index_of_mem hm
      refine ⟨j, hv.works.mem_iff.2 (List.mem_range.2 (by rw [hp.n]; exact hl)), node_of_index hp.nodup hj⟩
  · unfold OrderRespects
    rw [List.pairwise_map]
    refine List.Pairwise.imp_of_mem (fun {a b} ha hb hab hd => hab ?_) hv.topological
    dsimp only
    rw [hp.parents]
    exact ⟨_, _, (index_node hp.nodup (hp.lt hv ha)).1, (index_node hp.nodup (hp.lt hv hb)).1, hd⟩

variable {B : Decode.Input σ} {site : Env σ}

theorem sane (hB : Steady site B) (heads : List Nat) (i : Ind) :
    C28.Sane (input J heads B i) (Scheduler.onGraph site J.graph J.nodes) :=
  ⟨hB.estimate, hB.volume, hB.share, hB.assigned, hB.start⟩

theorem fits (h : Sound J m) (hp : Prepared J m heads P) {o : Bool} (hg : Good P o i) : C28.Fits (input J heads B i) := by
  constructor
  · intro j hj k hk
    have hj' := hp.lt hg.valid hj
    rw [← hp.n] at hj'
    refine hg.valid.resources.fits j hj' k ?_
    rw [hp.kinds, ← h.kinds]
    exact hk
  · intro c k n hn
    obtain ⟨hc, hk, hb⟩ := h.contractors.pool_inv hn
    have hc' : c < P.nc := by rw [hp.nc]; exact hc
    have hk' : k < P.m := by rw [hp.kinds]; exact hk
    refine ⟨hg.nonneg c hc' k hk', ?_⟩
    have := hg.valid.resources.capacity c hc' k hk'
    rw [hp.cap] at this
    simp only [input]
    rw [hb]
    exact this

theorem amount_le (h : Sound J m) (hp : Prepared J m heads P) {o : Bool} (hg : Good P o i) (hb : Begins J) (j : Nat)
    (hj : i.order[0]? = some j) : ∀ k < J.kinds, i.res.amount j k ≤ 0 := by
  intro k hk
  obtain ⟨s, hs, hdep⟩ := hb
  have hm := List.mem_of_getElem? hj
  have hlt := hp.lt hg.valid hm
  obtain ⟨h1, h2, h3⟩ := hp.goodOrder hg.valid
  have hn : node heads j = s := by
    by_contra hne
    have hh := (h2 (node heads j)).1 (List.mem_map_of_mem hm)
    obtain ⟨p, hd⟩ := hdep _ hh hne
    have hpm := (h2 p).2 hd.2.1
    cases ho : i.order with
    | nil => rw [ho] at hj; cases hj
    | cons a as =>
      rw [ho] at hj h3 hpm
      simp only [List.getElem?_cons_zero, Option.some.injEq] at hj
      subst hj
      rw [List.map_cons] at h3 hpm
      rcases List.mem_cons.1 hpm with rfl | hpm
      · exact hd.2.2.1 rfl
      · exact (List.pairwise_cons.1 h3).1 p hpm hd
  have := hg.valid.resources.high j (by rw [hp.n]; exact hlt) k (by rw [hp.kinds, ← h.kinds]; exact hk)
  rw [hp.hi, hn, hs] at this
  simpa [limit] using this

theorem works_eq : C28.works (input J heads B i) (Scheduler.onGraph site J.graph J.nodes) =
    (i.order.map (node heads)).flatMap (Scheduler.onGraph site J.graph J.nodes).chain := rfl

theorem respec_nil {reqs : List WorkerReq} {team team' : List Worker} (h : Decode.respec reqs [] team = some team') : team' = team :=
  Decode.respec_agrees (by simp) h

theorem serves (h : Sound J m) (hp : Prepared J m heads P) {o : Bool} (hg : Good P o i) (hspec : ∀ v, (J.spec v).assigned = [])
    {E : Env σ} {idx j : Nat} (hj : j ∈ i.order) {it : Decode.Item} {team : List Worker}
    (hd : Decode.decode (input J heads B i) E idx j = some it)
    (hr : Decode.respec ((input J heads B i).reqs it.node) ((input J heads B i).spec it.node).assigned it.team = some team) :
    Serves J it.node team it.contractor := by
  simp only [Decode.decode, Option.map_eq_some_iff] at hd
  obtain ⟨t0, ht0, rfl⟩ := hd
  simp only [input] at hr ⊢
  rw [hspec] at hr
  have := respec_nil hr
  subst this
  have hlt := hp.lt hg.valid hj
  have hltP : j < P.n := by rw [hp.n]; exact hlt
  obtain ⟨hnd, hw⟩ := Decode.parallelTeam_spec ht0
  have hknown := hg.valid.resources.known j hltP
  rw [hp.nc] at hknown
  have hget : J.contractors[i.res.contractor j]? = some J.contractors[i.res.contractor j] := List.getElem?_eq_getElem hknown
  refine ⟨J.contractors[i.res.contractor j], List.getElem_mem _, h.contractors.ids _ _ hget, ?_, ⟨hnd, fun w hw' => ?_⟩, ?_, ?_⟩
  · have he := hg.valid.resources.allowed j hltP
    rw [hp.enabled] at he
    have hid := h.contractors.ids _ _ hget
    simpa [WorkSpec.enabled, C14.Admissible, hid] using he
  · have := (hw w hw').2.2.2.1; omega
  · intro w hw'
    obtain ⟨e1, e2, e3, e4, e5⟩ := hw w hw'
    simp only [input] at e1 e2 e3
    rw [h.kinds] at e2
    have hkP : w.name < P.m := by rw [hp.kinds]; exact e2
    refine ⟨e1, e4, ⟨_, (h.contractors.pool hget e2).2, ?_⟩, ?_⟩
    · have h1 := hg.valid.resources.fits j hltP w.name hkP
      have h2 := hg.valid.resources.capacity _ (hg.valid.resources.known j hltP) w.name hkP
      rw [hp.cap] at h2
      rw [e3]
      exact Int.le_trans h1 h2
    · have hlo := hg.valid.resources.low j hltP w.name hkP
      have hhi := hg.valid.resources.high j hltP w.name hkP
      rw [hp.lo] at hlo
      rw [hp.hi] at hhi
      by_cases hr : ∀ r ∈ J.reqs (node heads j), r.kind ≠ w.name
      · rw [limit_absent hr] at hhi
        omega
      · push Not at hr
        obtain ⟨r, hr, hk⟩ := hr
        refine ⟨r, hr, hk, ?_⟩
        have hnodup := (h.reqs (node heads j)).2.1
        rw [← hk] at hlo hhi e3
        rw [limit_of_mem hnodup hr] at hlo hhi
        omega
  · intro r hr' hpos
    have hk := (h.reqs (node heads j)).2.2 r hr'
    have hlo := hg.valid.resources.low j hltP r.kind (by rw [hp.kinds]; exact hk)
    rw [hp.lo, limit_of_mem (h.reqs (node heads j)).2.1 hr'] at hlo
    exact Decode.parallelTeam_has ht0 (by simp only [input]; rw [h.kinds]; exact hk) (by simp only [input]; omega)

end Sampo.GeneticRun
