import Verif.Model.SwapOrder
import Mathlib.Data.List.Perm.Basic

/-!
# Lemmas about `SwapOrderLocalOptimizer`
-/

namespace Sampo.SwapOrder

theorem getElem?_swap {l : List Nat} {i j x y : Nat} (hi : l[i]? = some y) (hj : l[j]? = some x) (k : Nat) :
    ((l.set i x).set j y)[k]? = if k = j then some y else if k = i then some x else l[k]? := by
  obtain ⟨hi', _⟩ := List.getElem?_eq_some_iff.1 hi
  obtain ⟨hj', _⟩ := List.getElem?_eq_some_iff.1 hj
  by_cases h1 : k = j
  · subst h1
    rw [if_pos rfl, List.getElem?_set_self (by rw [List.length_set]; exact hj')]
  · rw [if_neg h1, List.getElem?_set_ne (Ne.symm h1)]
    by_cases h2 : k = i
    · subst h2
      rw [if_pos rfl, List.getElem?_set_self hi']
    · rw [if_neg h2, List.getElem?_set_ne (Ne.symm h2)]

theorem perm_swap {l : List Nat} {i j x y : Nat} (hi : l[i]? = some y) (hj : l[j]? = some x) :
    ((l.set i x).set j y).Perm l := by
  obtain ⟨hi', rfl⟩ := List.getElem?_eq_some_iff.1 hi
  obtain ⟨hj', rfl⟩ := List.getElem?_eq_some_iff.1 hj
  exact List.set_set_perm hi' hj'

/-- Pairwise relations by positions. -/
theorem pairwise_iff_getElem? (R : Nat → Nat → Prop) (l : List Nat) :
    l.Pairwise R ↔ ∀ a b x y : Nat, a < b → l[a]? = some x → l[b]? = some y → R x y := by
  rw [List.pairwise_iff_getElem]
  constructor
  · intro h a b x y hab hx hy
    obtain ⟨ha, rfl⟩ := List.getElem?_eq_some_iff.1 hx
    obtain ⟨hb, rfl⟩ := List.getElem?_eq_some_iff.1 hy
    exact h a b ha hb hab
  · intro h a b ha hb hab
    exact h a b _ _ hab (List.getElem?_eq_getElem ha) (List.getElem?_eq_getElem hb)

theorem indexOf_iff {order : List Nat} (hnd : order.Nodup) {start stop : Nat} (v k : Nat) :
    indexOf order start stop v = some k ↔ start ≤ k ∧ k < stop ∧ order[k]? = some v := by
  unfold indexOf
  rw [Option.map_eq_some_iff]
  have hget : ∀ m, ((order.take stop).drop start)[m]? = if start + m < stop then order[start + m]? else none := by
    intro m
    rw [List.getElem?_drop, List.getElem?_take]
  constructor
  · rintro ⟨m, hm, rfl⟩
    rw [List.findIdx?_eq_some_iff_getElem] at hm
    obtain ⟨hl, hv, _⟩ := hm
    have := List.getElem?_eq_getElem hl
    rw [hget] at this
    by_cases hlt : start + m < stop
    · rw [if_pos hlt] at this
      refine ⟨by omega, hlt, ?_⟩
      rw [this]
      exact congrArg some (of_decide_eq_true hv)
    · rw [if_neg hlt] at this; exact absurd this (by simp)
  · rintro ⟨h1, h2, h3⟩
    obtain ⟨m, rfl⟩ : ∃ m, k = start + m := ⟨k - start, by omega⟩
    refine ⟨m, ?_, rfl⟩
    have hm : ((order.take stop).drop start)[m]? = some v := by rw [hget, if_pos h2, h3]
    obtain ⟨hl, hv⟩ := List.getElem?_eq_some_iff.1 hm
    rw [List.findIdx?_eq_some_iff_getElem]
    refine ⟨hl, decide_eq_true hv, ?_⟩
    intro j hj hj2
    have hj3 := of_decide_eq_true hj2
    have hsub : ((order.take stop).drop start).Nodup :=
      hnd.sublist ((List.drop_sublist _ _).trans (List.take_sublist _ _))
    have := (List.getElem_inj hsub).1 (hj3.trans hv.symm)
    omega

/-- What the loop keeps. -/
structure Inv (par : Nat → List Nat) (start stop : Nat) (order : List Nat) (s : State) : Prop where
  perm : s.order.Perm order
  ind : ∀ v k, s.ind v = some k ↔ start ≤ k ∧ k < stop ∧ s.order[k]? = some v
  valid : s.order.Pairwise fun x y => x ∉ par y
  outside : ∀ k, k < start ∨ stop ≤ k → s.order[k]? = order[k]?

variable {par chi : Nat → List Nat} {start stop : Nat} {order : List Nat}

theorem step_inv (hinv : ∀ v c, c ∈ chi v ↔ v ∈ par c) (hnd : order.Nodup) (hs : stop ≤ order.length) (s : State) (i : Nat)
    (h1 : start ≤ i) (h2 : i < stop) (h : Inv par start stop order s) :
    ∃ s', step par chi start s i = some s' ∧ Inv par start stop order s' := by
  unfold step
  have hl := h.perm.length_eq
  have hi : s.order[i]? = some s.order[i] := List.getElem?_eq_getElem (by omega)
  generalize s.order[i] = node at hi
  rw [hi]
  simp only
  by_cases hpr : node ∈ s.processed
  · rw [if_pos hpr]; exact ⟨s, rfl, h⟩
  · rw [if_neg hpr]
    cases hf : ((s.order.take i).drop start).find? (accepted par chi s.ind s.processed node i) with
    | none => exact ⟨_, rfl, h.perm, h.ind, h.valid, h.outside⟩
    | some cand =>
      simp only
      have hacc := List.find?_some hf
      have hmem := List.mem_of_find?_eq_some hf
      obtain ⟨m, hm⟩ := List.mem_iff_getElem?.1 hmem
      rw [List.getElem?_drop, List.getElem?_take] at hm
      by_cases hmi : start + m < i
      swap
      · rw [if_neg hmi] at hm; exact absurd hm (by simp)
      rw [if_pos hmi] at hm
      generalize hj : start + m = j at hm hmi
      have hindc : s.ind cand = some j := (h.ind cand j).2 ⟨by omega, by omega, hm⟩
      rw [hindc]
      simp only [Option.getD_some, hm]
      unfold accepted at hacc
      rw [hindc] at hacc
      simp only [Option.getD_some, Bool.and_eq_true, decide_eq_true_eq, List.all_eq_true, Bool.not_eq_true',
        decide_eq_false_iff_not, not_le] at hacc
      obtain ⟨⟨⟨a1, _⟩, a3⟩, a4⟩ := hacc
      have hswap := fun k => getElem?_swap hi hm k
      have hv := (pairwise_iff_getElem? _ _).1 h.valid
      refine ⟨_, rfl, (perm_swap hi hm).trans h.perm, ?_, ?_, ?_⟩
      · intro v k
        simp only
        rw [hswap]
        have hndS : s.order.Nodup := h.perm.nodup_iff.2 hnd
        have uniq : ∀ a b w : Nat, s.order[a]? = some w → s.order[b]? = some w → a = b := by
          intro a b w ha hb
          obtain ⟨ha', _⟩ := List.getElem?_eq_some_iff.1 ha
          exact (List.getElem?_inj ha' hndS).1 (ha.trans hb.symm)
        have hne : node ≠ cand := by
          rintro rfl
          have := uniq i j node hi hm
          omega
        by_cases c1 : v = node
        · subst c1
          rw [if_pos rfl]
          constructor
          · intro e
            have := Option.some.inj e
            subst this
            exact ⟨by omega, by omega, by rw [if_pos rfl]⟩
          · rintro ⟨_, _, e⟩
            by_cases hkj : k = j
            · rw [hkj]
            · rw [if_neg hkj] at e
              by_cases hki : k = i
              · rw [if_pos hki] at e; exact absurd (Option.some.inj e).symm hne
              · rw [if_neg hki] at e
                exact absurd (uniq k i _ e hi) hki
        · rw [if_neg c1]
          by_cases c2 : v = cand
          · subst c2
            rw [if_pos rfl]
            constructor
            · intro e
              have := Option.some.inj e
              subst this
              refine ⟨by omega, by omega, ?_⟩
              rw [if_neg (by omega), if_pos rfl]
            · rintro ⟨_, _, e⟩
              by_cases hkj : k = j
              · rw [if_pos hkj] at e; exact absurd (Option.some.inj e) hne
              · rw [if_neg hkj] at e
                by_cases hki : k = i
                · rw [hki]
                · rw [if_neg hki] at e
                  exact absurd (uniq k j _ e hm) hkj
          · rw [if_neg c2, h.ind]
            constructor
            · rintro ⟨e1, e2, e3⟩
              refine ⟨e1, e2, ?_⟩
              have hkj : k ≠ j := by rintro rfl; rw [hm] at e3; exact c2 (Option.some.inj e3).symm
              have hki : k ≠ i := by rintro rfl; rw [hi] at e3; exact c1 (Option.some.inj e3).symm
              rw [if_neg hkj, if_neg hki, e3]
            · rintro ⟨e1, e2, e3⟩
              refine ⟨e1, e2, ?_⟩
              by_cases hkj : k = j
              · rw [if_pos hkj] at e3; exact absurd (Option.some.inj e3).symm c1
              · rw [if_neg hkj] at e3
                by_cases hki : k = i
                · rw [if_pos hki] at e3; exact absurd (Option.some.inj e3).symm c2
                · rw [if_neg hki] at e3; exact e3
      · -- between the two places there is no child of the one and no parent of the other
        have childless : ∀ b y : Nat, j < b → b < i → s.order[b]? = some y → node ∉ par y := by
          intro b y hb1 hb2 hy hc
          have := a3 y ((hinv _ _).2 hc)
          rw [(h.ind y b).2 ⟨by omega, by omega, hy⟩] at this
          simp only [Option.getD_some] at this
          omega
        have parentless : ∀ a x : Nat, j < a → a < i → s.order[a]? = some x → x ∉ par cand := by
          intro a x ha1 ha2 hx hc
          have := a4 x hc
          rw [(h.ind x a).2 ⟨by omega, by omega, hx⟩] at this
          simp only [Option.getD_some] at this
          omega
        have direct : node ∉ par cand := fun hc => a1 ((hinv _ _).2 hc)
        simp only
        rw [pairwise_iff_getElem?]
        intro a b x y hab hx hy
        rw [hswap] at hx hy
        by_cases ha1 : a = j
        · rw [if_pos ha1] at hx
          have hxe := Option.some.inj hx
          subst hxe
          rw [if_neg (by omega : b ≠ j)] at hy
          by_cases hb2 : b = i
          · rw [if_pos hb2] at hy
            rw [← Option.some.inj hy]; exact direct
          · rw [if_neg hb2] at hy
            by_cases hbi : b < i
            · exact childless b y (by omega) hbi hy
            · exact hv i b _ _ (by omega) hi hy
        · rw [if_neg ha1] at hx
          by_cases ha2 : a = i
          · rw [if_pos ha2] at hx
            have hxe := Option.some.inj hx
            subst hxe
            rw [if_neg (by omega : b ≠ j), if_neg (by omega : b ≠ i)] at hy
            exact hv j b _ _ (by omega) hm hy
          · rw [if_neg ha2] at hx
            by_cases hb1 : b = j
            · rw [if_pos hb1] at hy
              rw [← Option.some.inj hy]
              exact hv a i _ _ (by omega) hx hi
            · rw [if_neg hb1] at hy
              by_cases hb2 : b = i
              · rw [if_pos hb2] at hy
                rw [← Option.some.inj hy]
                by_cases haj : a < j
                · exact hv a j _ _ haj hx hm
                · exact parentless a x (by omega) (by omega) hx
              · rw [if_neg hb2] at hy
                exact hv a b _ _ hab hx hy
      · intro k hk
        simp only
        rw [hswap, if_neg (by omega), if_neg (by omega)]
        exact h.outside k hk

theorem loop_inv (hinv : ∀ v c, c ∈ chi v ↔ v ∈ par c) (hnd : order.Nodup) (hs : stop ≤ order.length) :
    ∀ (is : List Nat) (s : State), (∀ i ∈ is, start ≤ i ∧ i < stop) → Inv par start stop order s →
      ∃ s', is.foldlM (step par chi start) s = some s' ∧ Inv par start stop order s' := by
  intro is
  induction is with
  | nil => intro s _ h; exact ⟨s, rfl, h⟩
  | cons i is ih =>
    intro s hr h
    obtain ⟨s1, e1, h1⟩ := step_inv hinv hnd hs s i (hr i (by simp)).1 (hr i (by simp)).2 h
    obtain ⟨s2, e2, h2⟩ := ih s1 (fun k hk => hr k (by simp [hk])) h1
    refine ⟨s2, ?_, h2⟩
    rw [List.foldlM_cons, e1]
    exact e2

theorem optimize_inv (hinv : ∀ v c, c ∈ chi v ↔ v ∈ par c) (hnd : order.Nodup) (hs : stop ≤ order.length)
    (hv : order.Pairwise fun x y => x ∉ par y) :
    ∃ r, optimize par chi start stop order = some r ∧ r.Perm order ∧ (r.Pairwise fun x y => x ∉ par y) ∧
      ∀ k, k < start ∨ stop ≤ k → r[k]? = order[k]? := by
  unfold optimize
  obtain ⟨s, e, h⟩ := loop_inv hinv hnd hs (List.range' start (stop - start)).reverse ⟨order, indexOf order start stop, []⟩
    (by
      intro i hi
      rw [List.mem_reverse, List.mem_range'_1] at hi
      omega)
    ⟨List.Perm.refl _, fun v k => indexOf_iff hnd v k, hv, fun _ _ => rfl⟩
  exact ⟨s.order, by rw [e]; rfl, h.perm, h.valid, h.outside⟩

/-- In an order with predecessors first, no work with a predecessor is accepted as a candidate. -/
theorem forward_loop (hnd : order.Nodup) (hv : order.Pairwise fun x y => y ∉ par x)
    (hpar : ∀ k v, start ≤ k → k < stop → order[k]? = some v → ∃ p, p ∈ par v) :
    ∀ (is : List Nat) (processed : List Nat), (∀ i ∈ is, start ≤ i ∧ i < stop ∧ i < order.length) →
      ∃ processed', is.foldlM (step par chi start) ⟨order, indexOf order start stop, processed⟩ =
        some ⟨order, indexOf order start stop, processed'⟩ := by
  intro is
  induction is with
  | nil => intro processed _; exact ⟨processed, rfl⟩
  | cons i is ih =>
    intro processed hr
    obtain ⟨h1, h2, h3⟩ := hr i (by simp)
    rw [List.foldlM_cons]
    have hstep : ∃ processed', step par chi start ⟨order, indexOf order start stop, processed⟩ i =
        some ⟨order, indexOf order start stop, processed'⟩ := by
      unfold step
      simp only [List.getElem?_eq_getElem h3]
      by_cases hpr : order[i] ∈ processed
      · rw [if_pos hpr]; exact ⟨_, rfl⟩
      · rw [if_neg hpr]
        have hf : ((order.take i).drop start).find? (accepted par chi (indexOf order start stop) processed order[i] i) =
            none := by
          rw [List.find?_eq_none]
          intro cand hmem hacc
          obtain ⟨m, hm⟩ := List.mem_iff_getElem?.1 hmem
          rw [List.getElem?_drop, List.getElem?_take] at hm
          by_cases hmi : start + m < i
          swap
          · rw [if_neg hmi] at hm; exact absurd hm (by simp)
          rw [if_pos hmi] at hm
          obtain ⟨p, hp⟩ := hpar (start + m) cand (by omega) (by omega) hm
          unfold accepted at hacc
          simp only [Bool.and_eq_true, decide_eq_true_eq, List.all_eq_true, Bool.not_eq_true',
            decide_eq_false_iff_not, not_le] at hacc
          have h4 := hacc.2 p hp
          cases hi : indexOf order start stop p with
          | none => rw [hi] at h4; simp at h4
          | some k =>
            rw [hi] at h4
            simp only [Option.getD_some] at h4
            obtain ⟨_, _, hk⟩ := (indexOf_iff hnd p k).1 hi
            exact (pairwise_iff_getElem? _ _).1 hv (start + m) k cand p (by omega) hm hk hp
        rw [hf]
        exact ⟨_, rfl⟩
    obtain ⟨p1, e1⟩ := hstep
    rw [e1]
    exact ih p1 fun k hk => hr k (by simp [hk])

end Sampo.SwapOrder
