import Verif.Prelude
import Verif.Model.Assigned

/-! # C13: an assigned duration is fully distributed over a chain -/

namespace Sampo.C13
open Sampo.Assigned

private theorem loop_length (share) : ∀ vs total r, (loop share vs total r).length = vs.length
  | [], _, _ => rfl
  | [_], _, _ => rfl
  | v :: w :: vs, total, r => by
    simp only [loop, List.length_cons]
    rw [loop_length share (w :: vs)]
    rfl

private theorem loop_sum (share) : ∀ vs total r, vs ≠ [] → (loop share vs total r).sum = r
  | [], _, _, h => absurd rfl h
  | [_], _, _, _ => by simp [loop]
  | v :: w :: vs, total, r, _ => by
    simp only [loop, List.sum_cons]
    rw [loop_sum share (w :: vs) _ _ (by simp)]
    omega

private theorem sum_replicate (a : Int) : ∀ n : Nat, (List.replicate n a).sum = a * n
  | 0 => by simp
  | n + 1 => by
    rw [List.replicate_succ, List.sum_cons, sum_replicate a n]
    push_cast
    ring

/-- Every work of the chain gets one duration and the durations sum to the assigned one, whatever the volumes are and
however the float product is rounded. -/
theorem durations_sum_to_assigned (share : Int → Int → Int → Int) (volumes : List Int) (hne : volumes ≠ [])
    (assigned : Int) :
    (execTimes share volumes assigned).length = volumes.length ∧ (execTimes share volumes assigned).sum = assigned := by
  have hl : 1 ≤ volumes.length := by
    cases volumes with
    | nil => exact absurd rfl hne
    | cons a l => simp
  unfold execTimes
  simp only
  split
  · refine ⟨by simp; omega, ?_⟩
    simp only [List.sum_append, sum_replicate, List.sum_cons, List.sum_nil]
    omega
  · exact ⟨loop_length _ _ _ _, loop_sum _ _ _ _ hne⟩

/-- The rounded product stays between 0 and the remaining time, as it must when the work's volume is at most the
remaining volume. -/
def FairShare (share : Int → Int → Int → Int) : Prop :=
  ∀ r v t, 0 ≤ r → 0 ≤ v → v ≤ t → 0 ≤ share r v t ∧ share r v t ≤ r

/-- Without rounding errors the product is such a share. -/
theorem exactShare_fair : FairShare exactShare := by
  intro r v t hr hv hvt
  unfold exactShare
  split
  · rename_i ht
    have hm : 0 ≤ r * v := Int.mul_nonneg hr hv
    rw [Int.tdiv_eq_ediv_of_nonneg hm]
    refine ⟨Int.ediv_nonneg hm (by omega), ?_⟩
    have : r * v ≤ r * t := Int.mul_le_mul_of_nonneg_left hvt hr
    calc r * v / t ≤ r * t / t := Int.ediv_le_ediv (by omega) this
      _ = r := Int.mul_ediv_cancel _ (by omega)
  · exact ⟨by omega, hr⟩

private theorem sum_nonneg : ∀ l : List Int, (∀ v ∈ l, 0 ≤ v) → 0 ≤ l.sum
  | [], _ => by simp
  | a :: l, h => by
    have := sum_nonneg l fun v hv => h v (by simp [hv])
    have := h a (by simp)
    simp only [List.sum_cons]
    omega

private theorem loop_bounds {share} (hs : FairShare share) : ∀ vs r, (∀ v ∈ vs, 0 ≤ v) → 0 ≤ r →
    ∀ d ∈ loop share vs vs.sum r, 0 ≤ d ∧ d ≤ r
  | [], _, _, _ => by simp [loop]
  | [_], r, _, hr => by simp [loop, hr]
  | v :: w :: vs, r, hv, hr => by
    intro d hd
    have h0 := hv v (by simp)
    have hsum := sum_nonneg (w :: vs) fun x hx => hv x (by simp at hx ⊢; tauto)
    have hshare := hs r v (v :: w :: vs).sum hr h0 (by simp only [List.sum_cons] at hsum ⊢; omega)
    simp only [loop, List.mem_cons] at hd
    rcases hd with rfl | hd
    · exact hshare
    · have he : (v :: w :: vs).sum - v = (w :: vs).sum := by simp only [List.sum_cons]; omega
      rw [he] at hd
      have := loop_bounds hs (w :: vs) (r - share r v (v :: w :: vs).sum)
        (fun x hx => hv x (by simp at hx ⊢; tauto)) (by omega) d hd
      omega

/-- With non-negative volumes and a non-negative assigned duration every work's duration is between 0 and the assigned
one (so no intermediate value leaves the range of `Time`). -/
theorem durations_nonneg (share : Int → Int → Int → Int) (hs : FairShare share) (volumes : List Int)
    (hv : ∀ v ∈ volumes, 0 ≤ v) (assigned : Int) (ha : 0 ≤ assigned) :
    ∀ d ∈ execTimes share volumes assigned, 0 ≤ d ∧ d ≤ assigned := by
  intro d hd
  unfold execTimes at hd
  simp only at hd
  split at hd
  · cases hl : volumes.length with
    | zero =>
      simp [hl] at hd
      omega
    | succ n =>
      rw [hl] at hd
      have h1 : (((n + 1 : Nat) : Int)) = n + 1 := by simp
      have hf : Int.fdiv assigned ((n + 1 : Nat) : Int) = assigned / (n + 1) := by
        rw [Int.fdiv_eq_ediv_of_nonneg _ (by omega), h1]
      have h0 : 0 ≤ assigned / ((n : Int) + 1) := Int.ediv_nonneg ha (by omega)
      have h2 : assigned / ((n : Int) + 1) * (n + 1) ≤ assigned := Int.ediv_mul_le _ (by omega)
      have h3 : assigned / ((n : Int) + 1) * (n + 1) = assigned / ((n : Int) + 1) * n + assigned / ((n : Int) + 1) := by
        rw [Int.mul_add, Int.mul_one]
      have h4 : 0 ≤ assigned / ((n : Int) + 1) * n := Int.mul_nonneg h0 (by omega)
      simp only [hf, Nat.add_sub_cancel, List.mem_append, List.mem_replicate, List.mem_singleton] at hd
      rcases hd with ⟨_, rfl⟩ | rfl <;> omega
  · exact loop_bounds hs volumes assigned hv ha d hd

/-- The exact (unrounded) product is fair, hence the exact computation gives non-negative durations. -/
theorem exact_durations_nonneg (volumes : List Int) (hv : ∀ v ∈ volumes, 0 ≤ v) (assigned : Int) (ha : 0 ≤ assigned) :
    ∀ d ∈ execTimes exactShare volumes assigned, 0 ≤ d ∧ d ≤ assigned :=
  durations_nonneg _ exactShare_fair volumes hv assigned ha

private theorem loop_proportional (A T : Int) (hT : 0 < T) : ∀ vs r, (∀ v ∈ vs, 0 ≤ v) → 0 ≤ r →
    A * vs.sum ≤ r * T →
    ∀ (i : Nat) (v d : Int), vs[i]? = some v → (loop exactShare vs vs.sum r)[i]? = some d → A * v < (d + 1) * T
  | [], _, _, _, _ => by simp
  | [w], r, _, _, hA => by
    intro i v d h1 h2
    cases i with
    | zero =>
      simp only [loop, List.getElem?_cons_zero, Option.some.injEq, List.sum_cons, List.sum_nil, Int.add_zero] at h1 h2 hA
      subst h1; subst h2
      rw [Int.add_mul]
      omega
    | succ i => simp at h1
  | u :: w :: vs, r, hv, hr, hA => by
    intro i v d h1 h2
    have h0 := hv u (by simp)
    have hsum := sum_nonneg (w :: vs) fun x hx => hv x (by simp at hx ⊢; tauto)
    have hS : (u :: w :: vs).sum = u + (w :: vs).sum := List.sum_cons
    have hshare := exactShare_fair r u (u :: w :: vs).sum hr h0 (by omega)
    have he : (u :: w :: vs).sum - u = (w :: vs).sum := by omega
    generalize hd0 : exactShare r u (u :: w :: vs).sum = d0 at hshare
    generalize hSt : (w :: vs).sum = S at *
    -- the defining bounds of the truncated product
    have hkey : 0 < u + S → d0 * (u + S) ≤ r * u ∧ r * u < (d0 + 1) * (u + S) := by
      intro hpos
      have hm : 0 ≤ r * u := Int.mul_nonneg hr h0
      have : d0 = r * u / (u + S) := by
        rw [← hd0, hS, exactShare, if_pos hpos, Int.tdiv_eq_ediv_of_nonneg hm]
      rw [this]
      exact ⟨Int.ediv_mul_le _ (by omega), Int.lt_ediv_add_one_mul_self _ hpos⟩
    rw [hS] at hA
    cases i with
    | zero =>
      simp only [loop, List.getElem?_cons_zero, Option.some.injEq] at h1 h2
      rw [hd0] at h2
      subst h1; subst h2
      by_cases hpos : 0 < u + S
      · obtain ⟨_, hk2⟩ := hkey hpos
        -- A*u*(u+S) ≤ r*T*u < (d0+1)*(u+S)*T
        have h3 : A * (u + S) * u ≤ r * T * u := Int.mul_le_mul_of_nonneg_right hA h0
        have h4 : r * u * T < (d0 + 1) * (u + S) * T := Int.mul_lt_mul_of_pos_right hk2 hT
        by_contra hcon
        have h5 : (d0 + 1) * T * (u + S) ≤ A * u * (u + S) :=
          Int.mul_le_mul_of_nonneg_right (by omega) (by omega)
        have e1 : A * (u + S) * u = A * u * (u + S) := by ring
        have e2 : r * T * u = r * u * T := by ring
        have e3 : (d0 + 1) * (u + S) * T = (d0 + 1) * T * (u + S) := by ring
        omega
      · have : u = 0 := by omega
        subst this
        have : 0 < (d0 + 1) * T := Int.mul_pos (by omega) hT
        simpa using this
    | succ i =>
      simp only [loop, List.getElem?_cons_succ] at h1 h2
      rw [hd0, he, ← hSt] at h2
      refine loop_proportional A T hT (w :: vs) (r - d0) (fun x hx => hv x (by simp at hx ⊢; tauto)) (by omega) ?_
        i v d h1 h2
      rw [hSt]
      by_cases hpos : 0 < u + S
      · obtain ⟨hk1, _⟩ := hkey hpos
        -- A*S*(u+S) ≤ r*T*S ≤ (r-d0)*T*(u+S)
        have h3 : A * (u + S) * S ≤ r * T * S := Int.mul_le_mul_of_nonneg_right hA hsum
        have h4 : d0 * (u + S) * T ≤ r * u * T := Int.mul_le_mul_of_nonneg_right hk1 (by omega)
        by_contra hcon
        have h5 : ((r - d0) * T + 1) * (u + S) ≤ A * S * (u + S) :=
          Int.mul_le_mul_of_nonneg_right (by omega) (by omega)
        have e1 : A * (u + S) * S = A * S * (u + S) := by ring
        have e2 : ((r - d0) * T + 1) * (u + S) = r * T * S + r * u * T - d0 * (u + S) * T + (u + S) := by ring
        omega
      · have : S = 0 := by omega
        subst this
        have := Int.mul_nonneg (show 0 ≤ r - d0 by omega) (show 0 ≤ T by omega)
        simpa using this

/-- When some volume is positive, every work gets its proportional part `assigned · volume / total` of the time, or
less by a fraction of one unit. -/
theorem durations_proportional (volumes : List Int) (hv : ∀ v ∈ volumes, 0 ≤ v) (hpos : 0 < volumes.sum)
    (assigned : Int) (ha : 0 ≤ assigned) (i : Nat) (v d : Int) (hi : volumes[i]? = some v)
    (hd : (execTimes exactShare volumes assigned)[i]? = some d) :
    assigned * v < (d + 1) * volumes.sum := by
  rw [execTimes, if_neg (by omega)] at hd
  exact loop_proportional assigned volumes.sum hpos volumes assigned hv ha (Int.le_refl _) i v d hi hd

/-- When no volume is positive the time is divided equally, up to one remainder given to the last work. -/
theorem zero_volumes_equal (share : Int → Int → Int → Int) (volumes : List Int) (hz : volumes.sum ≤ 0)
    (assigned : Int) (i : Nat) (hi : i + 1 < volumes.length) :
    ∃ d, (execTimes share volumes assigned)[i]? = some d ∧
      d * volumes.length ≤ assigned ∧ assigned < (d + 1) * volumes.length := by
  refine ⟨assigned / volumes.length, ?_, Int.ediv_mul_le _ (by omega), Int.lt_ediv_add_one_mul_self _ (by omega)⟩
  rw [execTimes, if_pos hz, Int.fdiv_eq_ediv_of_nonneg _ (by omega)]
  simp only
  rw [List.getElem?_append_left (by simp; omega)]
  rw [List.getElem?_replicate, if_pos (by omega)]

-- volumes 1, 0, 3, 3 and 10 units of time; all volumes zero; a rounding that is not exact
example : execTimes exactShare [1, 0, 3, 3] 10 = [1, 0, 4, 5] := by decide
example : execTimes exactShare [0, 0, 0] 11 = [3, 3, 5] := by decide
example : (∀ v ∈ [1, 0, 3, 3], (0 : Int) ≤ v) ∧ 0 < ([1, 0, 3, 3] : List Int).sum := by decide
example : FairShare (fun r v t => max 0 (exactShare r v t - 1)) := by
  intro r v t hr hv hvt
  have := exactShare_fair r v t hr hv hvt
  show 0 ≤ max 0 (exactShare r v t - 1) ∧ max 0 (exactShare r v t - 1) ≤ r
  omega

end Sampo.C13
