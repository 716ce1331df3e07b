import Verif.Spec.Decoding
import Verif.Lemmas.Decode

/-! Times of decoded works are not negative. -/

namespace Sampo.C28
open Decode

variable {σ : Type}

private theorem lookup_zip_mem {l : List Nat} {ds : List Int} {v : Nat} {d : Int} (h : (l.zip ds).lookup v = some d) : d ∈ ds := by
  induction l generalizing ds with
  | nil => simp at h
  | cons a l ih =>
    cases ds with
    | nil => simp at h
    | cons b ds =>
      simp only [List.zip_cons_cons, List.lookup_cons] at h
      split at h
      · simp only [Option.some.injEq] at h; simp [h]
      · exact List.mem_cons_of_mem _ (ih h)

private theorem chainTimes_nonneg {D : Input σ} {E : Env σ} (hs : Sane D E) (chain : List Nat) {t : Int} (ht : 0 ≤ t) :
    NonNegTimes (chainTimes D chain t) := by
  intro v l d h
  simp only [chainTimes, Option.map_eq_some_iff, Prod.mk.injEq] at h
  obtain ⟨a, ha, rfl, rfl⟩ := h
  have := C13.durations_nonneg D.share hs.share (chain.map D.volume) (by
    intro x hx
    obtain ⟨u, _, rfl⟩ := List.mem_map.mp hx
    exact hs.volume u) t ht a (lookup_zip_mem ha)
  exact ⟨Int.le_refl _, this.1⟩

private theorem sum_nonneg {l : List Int} (h : ∀ x ∈ l, 0 ≤ x) : 0 ≤ l.sum := by
  induction l with
  | nil => simp
  | cons a l ih =>
    have := h a (by simp)
    have := ih fun x hx => h x (by simp [hx])
    simp only [List.sum_cons]; omega

theorem good_times {D : Input σ} {E : Env σ} (hs : Sane D E) (idx i : Nat) (it : Item)
    (h : decode D E idx i = some it) : GoodTimes D E it := by
  simp only [decode, Option.map_eq_some_iff] at h
  obtain ⟨team, _, rfl⟩ := h
  apply chainTimes_nonneg hs
  simp only
  cases ha : D.assignedTime (D.node i) with
  | some t => exact hs.assigned _ _ ha
  | none =>
    simp only [Option.getD_none, cascade]
    split
    · exact Int.le_refl _
    · apply sum_nonneg
      intro x hx
      obtain ⟨u, _, rfl⟩ := List.mem_map.mp hx
      exact hs.estimate u _

theorem serial_times {D : Input σ} {E : Env σ} (hs : Sane D E) :
    ∀ v t, D.assignedTime v = some t → NonNegTimes (chainTimes D (E.chain v) t) :=
  fun v t h => chainTimes_nonneg hs _ (hs.assigned v t h)

end Sampo.C28
