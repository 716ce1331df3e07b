import Verif.Lemmas.Staffed
import Verif.Spec.Terms
import Verif.Props.C13_AssignedDuration

/-! Durations of finished schedules are the assigned ones. -/

namespace Sampo

variable {σ : Type} {E : Env σ}

theorem JIT.placeChain_durations {team c times} : ∀ {vs : List Nat} {cur s sw r}, vs.Nodup →
    JIT.placeChain E team c times vs cur s sw = some r → (∀ u, u ∉ vs → r.2.2.get u = sw.get u) ∧
    ∀ u ∈ vs, ∀ l d, times u = some (l, d) → ∃ x, r.2.2.get u = some x ∧ x.finish = x.start + d
  | [], cur, s, sw, r, _, h => by
    simp only [JIT.placeChain, Option.some.injEq] at h
    subst h
    exact ⟨fun _ _ => rfl, by simp⟩
  | v :: vs, cur, s, sw, r, hnd, h => by
    simp only [JIT.placeChain] at h
    split at h
    · simp only [Option.bind_eq_some_iff] at h
      obtain ⟨d, -, h⟩ := h
      obtain ⟨h1, h2⟩ := JIT.placeChain_durations (List.nodup_cons.1 hnd).2 h
      refine ⟨fun u hu => ?_, fun u hu l t ht => ?_⟩
      · rw [h1 u fun hm => hu (List.mem_cons_of_mem _ hm), get_cons, if_neg]
        rintro rfl
        exact hu List.mem_cons_self
      · rcases List.mem_cons.1 hu with rfl | hu
        · rw [h1 u (List.nodup_cons.1 hnd).1, get_cons, if_pos rfl]
          exact ⟨_, rfl, by simp [ht]⟩
        · exact h2 u hu l t ht
    · simp at h

theorem Momentum.placeChain_durations {team c times} : ∀ {vs : List Nat} {cur s sw r}, vs.Nodup →
    Momentum.placeChain E team c times vs cur s sw = some r → (∀ u, u ∉ vs → r.2.2.get u = sw.get u) ∧
    ∀ u ∈ vs, ∀ l d, times u = some (l, d) → ∃ x, r.2.2.get u = some x ∧ x.finish = x.start + d
  | [], cur, s, sw, r, _, h => by
    simp only [Momentum.placeChain, Option.some.injEq] at h
    subst h
    exact ⟨fun _ _ => rfl, by simp⟩
  | v :: vs, cur, s, sw, r, hnd, h => by
    simp only [Momentum.placeChain, Option.bind_eq_some_iff] at h
    obtain ⟨d, -, h⟩ := h
    obtain ⟨h1, h2⟩ := Momentum.placeChain_durations (List.nodup_cons.1 hnd).2 h
    refine ⟨fun u hu => ?_, fun u hu l t ht => ?_⟩
    · rw [h1 u fun hm => hu (List.mem_cons_of_mem _ hm), get_cons, if_neg]
      rintro rfl
      exact hu List.mem_cons_self
    · rcases List.mem_cons.1 hu with rfl | hu
      · rw [h1 u (List.nodup_cons.1 hnd).1, get_cons, if_pos rfl]
        exact ⟨_, rfl, by simp [ht]⟩
      · exact h2 u hu l t ht

theorem JIT.step_durations {P : Plan (State σ)} {fuel : Nat} {first last : Bool} {st st' : State σ} {v : Nat} (hnd : (E.chain v).Nodup)
    (h : step E P fuel first last st v = some (some st')) {ts : ExecTimes} (hv : P.assignedTimes v = some ts) :
    ∀ u ∈ E.chain v, ∀ l d, ts u = some (l, d) → ∃ x, st'.sched.get u = some x ∧ x.finish = x.start + d := by
  simp only [step] at h
  split at h
  · simp at h
  · split at h
    · simp at h
    · simp at h
    · simp only [Option.some.injEq, Option.bind_eq_some_iff, scheduleAt, Option.map_eq_some_iff] at h
      obtain ⟨es, hes, r, hr, tl', htl, env', henv, rfl⟩ := h
      rw [hv] at hr
      exact (JIT.placeChain_durations hnd hr).2

theorem Momentum.step_durations {P : Plan (State σ)} {inf : Int} {fuelIn fuel : Nat} {first last : Bool} {st st' : State σ} {v : Nat}
    (hnd : (E.chain v).Nodup) (h : step E P inf fuelIn fuel first last st v = some (some st')) {ts : ExecTimes}
    (hv : P.assignedTimes v = some ts) :
    ∀ u ∈ E.chain v, ∀ l d, ts u = some (l, d) → ∃ x, st'.sched.get u = some x ∧ x.finish = x.start + d := by
  simp only [step] at h
  split at h
  · simp at h
  · split at h
    · simp at h
    · simp at h
    · split at h
      · simp at h
      · simp only [schedule, Option.map_eq_some_iff, Option.bind_eq_some_iff, scheduleAt] at h
        obtain ⟨f, hf, h⟩ := h
        obtain ⟨f', rfl, r, hr, tl', htl, env', henv, rfl⟩ := h
        rw [hv] at hr
        exact (Momentum.placeChain_durations hnd hr).2

theorem JIT.buildFrom_durations {P : Plan (State σ)} {fuel : Nat} {first : Bool} {order : List Nat} {st st' : State σ}
    (hest : ∀ v team, 0 ≤ E.estimate v team) (hts : ∀ v ts, P.assignedTimes v = some ts → NonNegTimes ts)
    (hnd : (order.flatMap E.chain).Nodup) (h : buildFrom E P fuel first order st = some (some st')) :
    ∀ v ∈ order, ∀ ts, P.assignedTimes v = some ts → ∀ u ∈ E.chain v, ∀ l d, ts u = some (l, d) →
      ∃ x, st'.sched.get u = some x ∧ x.finish = x.start + d := by
  induction order generalizing first st with
  | nil => simp
  | cons v vs ih =>
    simp only [buildFrom] at h
    rw [List.flatMap_cons, List.nodup_append] at hnd
    split at h
    · simp at h
    · simp at h
    · rename_i st1 h1
      intro w hw ts hwt u hu l d hud
      rcases List.mem_cons.mp hw with rfl | hw
      · rw [(buildFrom_run hest hts h).get_of_not_mem fun hm => hnd.2.2 u hu u hm rfl]
        exact step_durations hnd.1 h1 hwt u hu l d hud
      · exact ih hnd.2.1 h w hw ts hwt u hu l d hud

theorem Momentum.buildFrom_durations {P : Plan (State σ)} {inf : Int} {fuelIn fuel : Nat} {first : Bool} {order : List Nat}
    {st st' : State σ} (hest : ∀ v team, 0 ≤ E.estimate v team) (hts : ∀ v ts, P.assignedTimes v = some ts → NonNegTimes ts)
    (hP : 0 ≤ P.parentTime) (hinf : P.parentTime ≤ inf) (hnd : (order.flatMap E.chain).Nodup)
    (h : buildFrom E P inf fuelIn fuel first order st = some (some st')) :
    ∀ v ∈ order, ∀ ts, P.assignedTimes v = some ts → ∀ u ∈ E.chain v, ∀ l d, ts u = some (l, d) →
      ∃ x, st'.sched.get u = some x ∧ x.finish = x.start + d := by
  induction order generalizing first st with
  | nil => simp
  | cons v vs ih =>
    simp only [buildFrom] at h
    rw [List.flatMap_cons, List.nodup_append] at hnd
    split at h
    · simp at h
    · simp at h
    · rename_i st1 h1
      intro w hw ts hwt u hu l d hud
      rcases List.mem_cons.mp hw with rfl | hw
      · rw [(buildFrom_run hest hts hP hinf h).get_of_not_mem fun hm => hnd.2.2 u hu u hm rfl]
        exact step_durations hnd.1 h1 hwt u hu l d hud
      · exact ih hnd.2.1 h w hw ts hwt u hu l d hud

theorem lookup_zip {l : List Nat} (hnd : l.Nodup) : ∀ {ds : List Int}, ds.length = l.length →
    l.map (fun u => (l.zip ds).lookup u) = ds.map some := by
  induction l with
  | nil => intro ds h; rw [List.length_eq_zero_iff.1 h]; rfl
  | cons a l ih =>
    intro ds h
    cases ds with
    | nil => simp at h
    | cons d ds =>
      have ⟨h1, h2⟩ := List.nodup_cons.1 hnd
      simp only [List.zip_cons_cons, List.map_cons, List.lookup_cons, beq_self_eq_true]
      rw [← ih h2 (by simpa using h)]
      refine congrArg _ (List.map_congr_left fun u hu => ?_)
      have : (u == a) = false := by simpa using fun he : u = a => h1 (he ▸ hu)
      rw [this]

/-- Durations in a schedule that are the assigned ones sum up to the assigned time. -/
theorem durations_sum {share volume T} {chain : List Nat} (hnd : chain.Nodup) (hne : chain ≠ []) {sw : Sched}
    (h : ∀ u ∈ chain, ∀ l d, Assigned.timesFor share volume chain T u = some (l, d) →
      ∃ x, sw.get u = some x ∧ x.finish = x.start + d) : (chain.map sw.duration).sum = T := by
  obtain ⟨h1, h2⟩ := C13.durations_sum_to_assigned share (chain.map volume) (by simpa using hne) T
  rw [List.length_map] at h1
  have hz := lookup_zip hnd h1
  rw [← h2]
  congr 1
  have : (chain.map sw.duration).map some = (Assigned.execTimes share (chain.map volume) T).map some := by
    rw [← hz, List.map_map]
    refine List.map_congr_left fun u hu => ?_
    have hm : (chain.zip (Assigned.execTimes share (chain.map volume) T)).lookup u ∈
        (Assigned.execTimes share (chain.map volume) T).map some := by
      rw [← hz]; exact List.mem_map_of_mem hu
    obtain ⟨d, -, hd⟩ := List.mem_map.1 hm
    obtain ⟨x, hx, hx'⟩ := h u hu 0 d (by simp [Assigned.timesFor, ← hd])
    rw [← hd]
    simp only [Function.comp_apply, Sched.duration, hx, hx']
    congr 1; omega
  exact List.map_injective_iff.2 (Option.some_injective _) this

theorem Assigned.timesFor_nonneg {share volume T} (hs : C13.FairShare share) (hv : ∀ v, 0 ≤ volume v) (hT : 0 ≤ T) (chain : List Nat) :
    NonNegTimes (Assigned.timesFor share volume chain T) := by
  intro v l d h
  simp only [Assigned.timesFor, Option.map_eq_some_iff, Prod.mk.injEq] at h
  obtain ⟨d, h, rfl, rfl⟩ := h
  refine ⟨Int.le_refl _, (C13.durations_nonneg share hs (chain.map volume) (by simpa using fun v _ => hv v) T hT d ?_).1⟩
  have : ∀ (l : List (Nat × Int)), l.lookup v = some d → (v, d) ∈ l := by
    intro l
    induction l with
    | nil => simp
    | cons e l ih =>
      obtain ⟨a, b⟩ := e
      rw [List.lookup_cons]
      split
      · rename_i he
        rintro ⟨⟩
        rw [beq_iff_eq] at he
        simp [he]
      · exact fun h => List.mem_cons_of_mem _ (ih h)
  exact (List.of_mem_zip (this _ h)).2

end Sampo
