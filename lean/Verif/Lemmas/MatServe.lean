import Verif.Lemmas.MatAsked
import Verif.Spec.MatSite
import Verif.Props.C41_Supply

/-! The deliveries made while a schedule was built serve it. -/

namespace Sampo.MatSite

open Supply (Modest InCalendar Served)

variable {τ : Type}

theorem deliver_le {land : Supply.Land} (hl : ∀ i, 0 < land.overcome i) {E : Env (ZoneSite.State (State τ))}
    {needs : Nat → List Supply.Mat} (hs : Supplied E land needs fun s => (s.mat.supply, s.mat.log)) {s s' : ZoneSite.State (State τ)}
    {v : Nat} {t t' : Int} (h : E.deliver s v t = some (s', t')) : t ≤ t' := by
  obtain ⟨out, h1, -, rfl⟩ := hs.deliver h
  exact (C41.delivery_in_time hl h1).1

theorem serves {land : Supply.Land} (hc : Supply.Clear land) {E : Env (ZoneSite.State (State τ))} {needs : Nat → List Supply.Mat}
    (hm : ∀ v service, Modest land ⟨v, service, needs v⟩) {s : Supply.State} {log : List Served} {sched : Sched}
    (hk : Kept E land needs (s, log) sched) (hcal : InCalendar log) : ServesSchedule land needs log sched := by
  have hwork : ∀ s ∈ log, ∃ e ∈ sched, s.work = workOf E.service needs e.1 ∧ s.time = e.2.start := by
    intro s hs
    have : (s.work, s.time) ∈ log.map fun s => (s.work, s.time) := List.mem_map_of_mem (f := fun s : Served => (s.work, s.time)) hs
    rw [hk.2, List.mem_map] at this
    obtain ⟨e, he, h⟩ := this
    simp only [Prod.mk.injEq] at h
    exact ⟨e, he, h.1.symm, h.2.symm⟩
  have hmod : ∀ s ∈ log, Modest land s.work := fun s hs => by
    obtain ⟨e, -, h, -⟩ := hwork s hs
    rw [h]
    exact hm _ _
  refine ⟨⟨?_, fun s hs => ?_⟩, fun v x hx => ?_, fun d hd m hmm hv h0 => ?_, fun i hi h0 t => ?_⟩
  · have := congrArg (List.map fun p : Supply.Work × Int => p.1.id) hk.2
    simpa [workOf, Sched.works, Function.comp_def] using this
  · obtain ⟨e, -, h, -⟩ := hwork s hs
    rw [h]
    rfl
  · have hmem : (workOf E.service needs v, x.start) ∈ sched.map fun e => (workOf E.service needs e.1, e.2.start) :=
      List.mem_map.2 ⟨(v, x), mem_of_get hx, rfl⟩
    rw [← hk.2, List.mem_map] at hmem
    obtain ⟨s', hs', h⟩ := hmem
    simp only [Prod.mk.injEq] at h
    have hid : s'.work.id = v := by rw [h.1]; rfl
    obtain ⟨st, out, hout, e1, e2⟩ := history_mem hk.1 s' hs'
    obtain ⟨h1, h2⟩ := C41.delivery_in_time hc.long hout
    refine ⟨s', hs', hid, by omega, h.2, fun r hr => ?_⟩
    obtain ⟨a, b, c, d⟩ := h2 r (e1 ▸ hr)
    rw [hid] at d
    exact ⟨a, b, by omega, d⟩
  · exact C41.stock_not_exceeded hc.long hk.1 hmod hcal hc.depots hd (hc.stock d hd) hmm hv h0
  · exact C41.road_not_overcrowded hc.long hk.1 hmod hcal hi h0 t

end Sampo.MatSite
