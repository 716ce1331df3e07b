import Verif.Lemmas.SchedJIT
import Verif.Lemmas.SchedMomentumRun

/-! Teams of finished schedules are chosen teams. -/

namespace Sampo

variable {σ : Type} {E : Env σ}

theorem Row.staffed {R chain vs sw sw' team c cur cur' v sw1} {S : List Worker → Nat → Prop}
    (hrow : Row R team c (chain v) cur sw cur' sw1) (hS : S team c) (hnd : ((v :: vs).flatMap chain).Nodup)
    {R' : Nat → Sched → Int → Prop} (hrun : Run R' chain vs sw1 sw') :
    ∀ u ∈ chain v, ∃ x, sw'.get u = some x ∧ S x.team x.contractor := by
  intro u hu
  simp only [List.flatMap_cons, List.nodup_append] at hnd
  obtain ⟨x, h1, -, -, -, h2, h3⟩ := hrow.mem hnd.1 hu
  refine ⟨x, ?_, by rw [h2, h3]; exact hS⟩
  rw [hrun.get_of_not_mem fun h => hnd.2.2 u hu u h rfl, h1]

theorem JIT.buildFrom_staffed {P : Plan (State σ)} {fuel : Nat} {first : Bool} {order : List Nat} {st st' : State σ}
    {S : Nat → List Worker → Nat → Prop} (hS : ∀ st v team c, P.choose st v = some (team, c) → S v team c)
    (hest : ∀ v team, 0 ≤ E.estimate v team) (hts : ∀ v ts, P.assignedTimes v = some ts → NonNegTimes ts)
    (hnd : (order.flatMap E.chain).Nodup)
    (h : buildFrom E P fuel first order st = some (some st')) :
    ∀ v ∈ order, ∀ u ∈ E.chain v, ∃ x, st'.sched.get u = some x ∧ S v x.team x.contractor := by
  induction order generalizing first st with
  | nil => simp
  | cons v vs ih =>
    simp only [buildFrom] at h
    split at h
    · simp at h
    · simp at h
    · rename_i st1 h1
      obtain ⟨team, c, start, fin, hch, hrow, _⟩ := step_spec hest hts h1
      intro w hw
      rcases List.mem_cons.mp hw with rfl | hw
      · exact hrow.staffed (hS _ _ _ _ hch) hnd (buildFrom_run hest hts h)
      · rw [List.flatMap_cons, List.nodup_append] at hnd
        exact ih hnd.2.1 h w hw

theorem Momentum.buildFrom_staffed {P : Plan (State σ)} {inf : Int} {fuelIn fuel : Nat} {first : Bool} {order : List Nat}
    {st st' : State σ} {S : Nat → List Worker → Nat → Prop}
    (hS : ∀ st v team c, P.choose st v = some (team, c) → S v team c) (hest : ∀ v team, 0 ≤ E.estimate v team)
    (hts : ∀ v ts, P.assignedTimes v = some ts → NonNegTimes ts)
    (hP : 0 ≤ P.parentTime) (hinf : P.parentTime ≤ inf) (hnd : (order.flatMap E.chain).Nodup)
    (h : buildFrom E P inf fuelIn fuel first order st = some (some st')) :
    ∀ v ∈ order, ∀ u ∈ E.chain v, ∃ x, st'.sched.get u = some x ∧ S v x.team x.contractor := by
  induction order generalizing first st with
  | nil => simp
  | cons v vs ih =>
    simp only [buildFrom] at h
    split at h
    · simp at h
    · simp at h
    · rename_i st1 h1
      obtain ⟨team, c, start, fin, hch, hrow, _⟩ := step_row hest hts hP hinf h1
      intro w hw
      rcases List.mem_cons.mp hw with rfl | hw
      · exact hrow.staffed (hS _ _ _ _ hch) hnd (buildFrom_run hest hts hP hinf h)
      · rw [List.flatMap_cons, List.nodup_append] at hnd
        exact ih hnd.2.1 h w hw

end Sampo
