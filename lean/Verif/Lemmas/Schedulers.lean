import Verif.Spec.Schedulers
import Verif.Lemmas.Expand
import Verif.Lemmas.Staffed
import Verif.Lemmas.HorizonRun
import Verif.Props.C10_EveryWorkOnce
import Verif.Props.C11_Precedence
import Verif.Props.C12_Chains
import Verif.Props.C51_ScheduleCapacity
import Verif.Props.C54_Delivers

/-! Lemmas: chain heads of a graph and the works of the schedule. -/

namespace Sampo.OnGraph
open Scheduler C89
open C22 (WorkGraph)

variable {σ : Type} {g : Graph} {nodes : List Nat}

theorem expand (hw : WorkGraph g nodes) (hdep : OnlyDependencies g) (site : Env σ) {order : List Nat}
    (ho : GoodOrder g nodes order) :
    C10.CompleteOrder (onGraph site g nodes).chain order nodes ∧
    TopoList (C11.preds (onGraph site g nodes)) (order.flatMap (onGraph site g nodes).chain) ∧
    (order.flatMap (onGraph site g nodes).chain).Nodup := by
  have hperm := Expand.perm hw ho.1 ho.2.1
  refine ⟨hperm, ?_, hperm.nodup_iff.2 hw.once⟩
  intro l₁ v l₂ hl p hp
  refine Expand.topo hw ho.1 ho.2.1 ho.2.2 l₁ v l₂ hl p ?_
  simp only [C11.preds, onGraph, List.map_map, List.mem_map, Function.comp] at hp
  obtain ⟨e, he, rfl⟩ := hp
  exact (Graph.mem_parents v e.start).2 ⟨e, he, rfl, hdep v e he⟩

theorem chain_of (hw : WorkGraph g nodes) {sw : Sched} {order : List Nat} (ho : GoodOrder g nodes order)
    (h : ∀ v ∈ order, OneAfterAnother sw (g.chainWithSelf nodes.length v)) :
    ∀ p v, v ∈ nodes → g.Follows p v → ∃ x y, sw.get p = some x ∧ sw.get v = some y ∧ x.finish ≤ y.start ∧
      x.team = y.team ∧ x.contractor = y.contractor := by
  intro p v hv hf
  have hpn : p ∈ nodes := by
    obtain ⟨e, he, rfl, -⟩ := hf
    exact (hw.closed v hv).1 e he
  obtain ⟨k, ⟨hk, hc⟩, -⟩ := C22.one_head hw p hpn
  have hcv : g.InChain k v := Relation.ReflTransGen.tail hc hf
  have hp' := (Heads.mem_chain hw.ok hk).2 hc
  have hv' := (Heads.mem_chain hw.ok hk).2 hcv
  have h1 := h k ((ho.2.1 k).2 hk)
  have h2 := Expand.chain_pairwise hw hk
  obtain ⟨i, hi, hip⟩ := List.mem_iff_getElem.mp hp'
  obtain ⟨j, hj, hjv⟩ := List.mem_iff_getElem.mp hv'
  have hloop : ∀ x, ¬ Relation.TransGen g.Follows x x := fun x hx => hw.acyclic x (Expand.follows_depends hx)
  rcases Nat.lt_trichotomy i j with hlt | heq | hgt
  · have := List.pairwise_iff_getElem.mp h1 i j hi hj hlt
    rwa [hip, hjv] at this
  · subst heq
    rw [hip] at hjv
    subst hjv
    exact absurd (Relation.TransGen.single hf) (hloop p)
  · have := List.pairwise_iff_getElem.mp h2 j i hj hi hgt
    rw [hip, hjv] at this
    exact absurd (Relation.TransGen.tail this hf) (hloop v)

theorem precedence_of {site : Env σ} {sw : Sched} (h : RespectsPrecedence (onGraph site g nodes).edgesTo sw) :
    ∀ v x, sw.get v = some x → ∀ e ∈ g.edgesTo v, ∃ y, sw.get e.start = some y ∧ y.finish + e.lag ≤ x.start :=
  fun v x hx e he => h v x hx (e.start, e.lag) (List.mem_map.2 ⟨e, he, rfl⟩)

theorem noSite {site : Env σ} (h : NoSiteLimits site) : NoSiteLimits (onGraph site g nodes) :=
  ⟨h.material, h.zone, h.deliver, h.occupy, h.finish⟩

theorem chainEdges (site : Env σ) (hpos : ∀ v, ∀ e ∈ g.edgesTo v, e.type = .inseparable → 0 ≤ e.lag) :
    ChainEdges (onGraph site g nodes) := by
  intro v p hp
  simp only [onGraph, Graph.insepParent] at hp
  have := List.mem_of_head? hp
  rw [List.mem_map] at this
  obtain ⟨e, he, rfl⟩ := this
  rw [List.mem_filter, decide_eq_true_eq] at he
  exact ⟨e.lag, hpos v e he.1 he.2, List.mem_map.2 ⟨e, he.1, rfl⟩⟩

theorem lft_staffs (contractors : List Contractor) (hcs : C16.SoundContractors contractors) (spec : Nat → WorkSpec)
    (hneg : ∀ v k n, (spec v).assigned.lookup k = some n → n ≠ -1) (reqs : Nat → List WorkerReq)
    (hreqs : ∀ v, C16.SoundReqs (reqs v)) (index : Nat → Nat → Nat) {v : Nat} {team : List Worker} {cid : Nat}
    (h : LFT.choose contractors spec reqs index v = some (team, cid)) : Staffs contractors spec reqs v team cid := by
  unfold LFT.choose at h
  split at h
  · rename_i ct hct
    simp only [Option.some.injEq, Prod.mk.injEq] at h
    obtain ⟨rfl, rfl⟩ := h
    obtain ⟨h1, h2, h3, -⟩ := C16.lft_team_meets_requirements contractors hcs (spec v) (hneg v) (reqs v) (hreqs v) (index v)
      ct.1 ct.2 hct
    exact ⟨ct.1, h1, rfl, h2, h3⟩
  · simp at h

theorem staffs_ok {contractors : List Contractor} (hcs : C16.SoundContractors contractors) {spec : Nat → WorkSpec}
    {reqs : Nat → List WorkerReq} (hreqs : ∀ v, C16.SoundReqs (reqs v)) (hkinds : ∀ v, ((reqs v).map (·.kind)).Nodup)
    (v : Nat) (team : List Worker) (cid : Nat) (h : Staffs contractors spec reqs v team cid) :
    WellFormedTeam team ∧ WithinPool (LFT.agents contractors) team := by
  obtain ⟨c, hc, -, -, hm⟩ := h
  exact meets_ok hcs hc (hreqs v) (hkinds v) hm

end Sampo.OnGraph
