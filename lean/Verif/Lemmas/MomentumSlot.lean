import Verif.Lemmas.MomentumUpdate

/-! # The slot search of the momentum timeline -/

namespace Sampo.Momentum

/-- The list reports at least `n` available workers at every moment of `[q, q + d)`. -/
def FreeIn (s : List Event) (n q d : Int) : Prop := ∀ t, q ≤ t → t < q + d → ∃ v, available s t = some v ∧ n ≤ v

theorem lastAt_append {pre rest : List Event} {x : Event} {xs : List Event} (hr : rest = x :: xs)
    (hs : Sorted (pre ++ rest)) {t : Int} (hx : x.key ≤ t) : lastAt (pre ++ rest) t = lastAt rest t := by
  induction pre with
  | nil => rfl
  | cons p ps ih =>
    have hs' := List.pairwise_cons.mp hs
    have hp := hs'.1 x (by simp [hr])
    have ih := ih hs'.2
    have : p.key ≤ t := by omega
    simp only [List.cons_append, lastAt, this, if_true]
    rw [ih, hr]
    simp only [lastAt, hx, if_true]
    cases lastAt xs t <;> rfl

theorem lastAt_stop {b : Event} {r : List Event} {t : Int} (hb : b.key ≤ t)
    (hr : ∀ e ∈ r, t < e.key) : lastAt (b :: r) t = some b := by
  have : lastAt r t = none := by
    cases hz : lastAt r t with
    | none => rfl
    | some z => have h1 := lastAt_mem hz; have := hr z h1.1; omega
  simp [lastAt, hb, this]

theorem lastShort_some {n end_ : Int} {rest r' : List Event} (h : lastShort n end_ rest = some r') :
    ∃ pre b, rest = pre ++ b :: r' ∧ b.count < n ∧ b.key < end_ ∧
      ∀ e ∈ (r'.takeWhile fun e => e.key < end_), n ≤ e.count := by
  have hnone : ∀ l, lastShort n end_ l = none → ∀ e ∈ (l.takeWhile fun e => decide (e.key < end_)), n ≤ e.count := by
    intro l
    induction l with
    | nil => simp
    | cons y ys ih =>
      intro hl e he
      unfold lastShort at hl
      split at hl
      · rename_i hy
        simp only [List.takeWhile_cons, hy, decide_true, if_true] at he
        simp only [Option.or_eq_none_iff] at hl
        rcases List.mem_cons.mp he with rfl | he
        · have := hl.2; split at this
          · simp at this
          · omega
        · exact ih hl.1 e he
      · rename_i hy
        simp [hy] at he
  induction rest with
  | nil => simp [lastShort] at h
  | cons x xs ih =>
    unfold lastShort at h
    split at h
    · rename_i hx
      cases hl : lastShort n end_ xs with
      | none =>
        simp only [hl, Option.none_or] at h
        split at h
        · rename_i hc
          cases h
          exact ⟨[], x, rfl, hc, hx, fun e he => hnone _ hl e (by simpa using he)⟩
        · simp at h
      | some r =>
        simp only [hl, Option.some_or, Option.some.injEq] at h
        subst h
        obtain ⟨pre, b, h1, h2⟩ := ih hl
        exact ⟨x :: pre, b, by simp [h1], h2⟩
    · simp at h

theorem lastShort_none {n end_ : Int} {rest : List Event} (hs : Sorted rest) (h : lastShort n end_ rest = none) :
    ∀ e ∈ rest, e.key < end_ → n ≤ e.count := by
  induction rest with
  | nil => simp
  | cons x xs ih =>
    have hs' := List.pairwise_cons.mp hs
    unfold lastShort at h
    split at h
    · simp only [Option.or_eq_none_iff] at h
      intro e he hk
      rcases List.mem_cons.mp he with rfl | he
      · have := h.2; split at this
        · simp at this
        · omega
      · exact ih hs'.2 h.1 e he hk
    · intro e he hk
      rcases List.mem_cons.mp he with rfl | he
      · omega
      · have := hs'.1 e he; omega

theorem slotLoop_spec {cap idx n exec last : Int} {s : List Event} {lst : Event} (hinv : Inv cap idx s) (hn : n ≤ cap)
    (hexec : 0 < exec) (hlst : s.getLast? = some lst) (hlast : last = lst.time) :
    ∀ (fuel : Nat) (cur : Int) (pre : List Event) (x : Event) (xs : List Event), s = pre ++ x :: xs →
      0 ≤ cur → x.key ≤ cur → (∀ y ∈ xs, cur ≤ y.key) → (x :: xs).length ≤ fuel →
      ∃ r, slotLoop n exec last fuel cur (x :: xs) = some (some r) ∧ cur ≤ r ∧ FreeIn s n r exec ∧
        ∀ q, cur ≤ q → q < r → ¬ FreeIn s n q exec := by
  intro fuel
  induction fuel with
  | zero => intro cur pre x xs _ _ _ _ hf; simp at hf
  | succ fuel ih =>
    intro cur pre x xs hsplit hcur hxk htail hf
    unfold slotLoop
    by_cases hcl : cur < last
    · simp only [hcl, if_true]
      have hsr : Sorted (x :: xs) := (List.pairwise_append.mp (hsplit ▸ hinv.sorted)).2.1
      cases hshort : lastShort n (cur + exec) (x :: xs) with
      | none =>
        refine ⟨cur, rfl, by omega, ?_, by intro q h1 h2; omega⟩
        intro t ht1 ht2
        have hla := lastAt_append (rest := x :: xs) rfl (hsplit ▸ hinv.sorted) (show x.key ≤ t by omega)
        rw [← hsplit] at hla
        obtain ⟨l, hl⟩ := hinv.lastAt_isSome (show 0 ≤ t by omega)
        refine ⟨l.count, by simp [available, hl], ?_⟩
        rw [hla] at hl
        have hm := lastAt_mem hl
        exact lastShort_none hsr hshort l hm.1 (by omega)
      | some r' =>
        obtain ⟨pre', b, hsp, hbc, hbk, hok⟩ := lastShort_some hshort
        have hs2 : s = (pre ++ pre') ++ b :: r' := by rw [hsplit, hsp]; simp
        have hsorted := hinv.sorted
        rw [hs2] at hsorted
        have hsb := List.pairwise_append.mp hsorted
        have hbr := List.pairwise_cons.mp hsb.2.1
        cases r' with
        | nil =>
          -- the last event has all workers
          exfalso
          have hall : ∀ e ∈ s, e.key ≤ b.key := by
            intro e he
            rw [hs2] at he
            rcases List.mem_append.mp he with he | he
            · exact hsb.2.2 e he b (by simp)
            · simp at he; subst he; omega
          have hfull := hinv.full b.key hall
          have hla := lastAt_append (rest := [b]) rfl hsorted (le_refl b.key)
          rw [← hs2] at hla
          simp [available, hla, lastAt] at hfull
          omega
        | cons e es =>
          have hgrp := hinv.group
          rw [hs2] at hgrp
          have hgb := List.pairwise_cons.mp (List.pairwise_append.mp hgrp).2.1
          have hbe : b.key < e.key := by
            rcases Int.lt_or_eq_of_le (hbr.1 e (by simp)) with h | h
            · exact h
            · exfalso
              have h1 := hgb.1 e (by simp) h
              have h2 := hok e (by simp [List.takeWhile_cons]; omega)
              omega
          have hem : e ∈ s := by rw [hs2]; simp
          have hbm : b ∈ s := by rw [hs2]; simp
          have hb1 := hinv.key_nonneg hbm
          have hkt := (hinv.key_eq hem (by omega)).2
          have hexs : e ∈ xs := by
            cases pre' with
            | nil => simp at hsp; rw [hsp.2]; simp
            | cons p ps => simp at hsp; rw [hsp.2]; simp
          have hce := htail e hexs
          have hse := List.pairwise_cons.mp hbr.2
          obtain ⟨r, hr, h1, h2, h3⟩ := ih e.time (pre ++ pre' ++ [b]) e es (by rw [hs2]; simp) (by omega) (by omega)
            (by intro y hy; have := hse.1 y hy; omega)
            (by
              have := congrArg List.length hsp
              simp at this hf ⊢; omega)
          refine ⟨r, hr, by omega, h2, ?_⟩
          intro q hq1 hq2
          by_cases hqe : e.time ≤ q
          · exact h3 q hqe hq2
          · intro hfree
            have hav : ∀ t, b.key ≤ t → t < e.key → available s t = some b.count := by
              intro t ht1 ht2
              have hla := lastAt_append (rest := b :: e :: es) rfl hsorted ht1
              rw [← hs2] at hla
              have hst := lastAt_stop (b := b) (r := e :: es) ht1 (by
                intro y hy
                rcases List.mem_cons.mp hy with rfl | hy
                · omega
                · have := hse.1 y hy; omega)
              simp [available, hla, hst]
            by_cases hqb : b.key ≤ q
            · obtain ⟨v, hv, hnv⟩ := hfree q (by omega) (by omega)
              rw [hav q hqb (by omega)] at hv; cases hv; omega
            · obtain ⟨v, hv, hnv⟩ := hfree b.key (by omega) (by omega)
              rw [hav b.key (by omega) hbe] at hv; cases hv; omega
    · simp only [hcl, if_false]
      refine ⟨cur, rfl, by omega, ?_, by intro q h1 h2; omega⟩
      intro t ht1 ht2
      refine ⟨cap, hinv.full t ?_, hn⟩
      intro e he
      obtain ⟨init, hinit⟩ := List.getLast?_eq_some_iff.mp hlst
      have hle : e.key ≤ lst.key := by
        rw [hinit] at he
        have hsl := List.pairwise_append.mp (hinit ▸ hinv.sorted)
        rcases List.mem_append.mp he with he | he
        · exact hsl.2.2 e he lst (by simp)
        · simp at he; subst he; omega
      have : lst.key ≤ lst.time ∨ lst.key ≤ 0 := by
        by_cases h : lst.type = .initial
        · right; simp [Event.key, h]
        · left; simp [Event.key, h]
      omega

theorem fromLast_spec {s : List Event} {t : Int} {x0 : Event} {xs0 : List Event} (h0 : s = x0 :: xs0)
    (hx0 : x0.key ≤ t) (hs : Sorted s) :
    ∃ pre x xs, s = pre ++ x :: xs ∧ fromLast s t = x :: xs ∧ x.key ≤ t ∧ ∀ y ∈ xs, t < y.key := by
  induction xs0 generalizing s x0 with
  | nil => subst h0; exact ⟨[], x0, [], rfl, rfl, hx0, by simp⟩
  | cons e es ih =>
    subst h0
    have hs' := List.pairwise_cons.mp hs
    by_cases he : e.key ≤ t
    · obtain ⟨pre, x, xs, h1, h2, h3⟩ := ih rfl he hs'.2
      exact ⟨x0 :: pre, x, xs, by rw [h1]; rfl, by simp [fromLast, he, h2], h3⟩
    · refine ⟨[], x0, e :: es, rfl, by simp [fromLast, he], hx0, ?_⟩
      intro y hy
      have hse := List.pairwise_cons.mp hs'.2
      rcases List.mem_cons.mp hy with rfl | hy
      · omega
      · have := hse.1 y hy; omega

/-- The search ends, finds a feasible slot, and no earlier slot is feasible. -/
theorem findSlot_spec {cap idx n exec parent : Int} {s : List Event} (hinv : Inv cap idx s) (hn : n ≤ cap)
    (hexec : 0 < exec) (hp : 0 ≤ parent) :
    ∃ r, findSlot s parent exec n false = some (some r) ∧ parent ≤ r ∧ FreeIn s n r exec ∧
      ∀ q, parent ≤ q → q < r → ¬ FreeIn s n q exec := by
  obtain ⟨es, hes, _⟩ := hinv.head
  have hk0 : Event.key ⟨-1, .initial, 0, cap⟩ = -1 := rfl
  obtain ⟨pre, x, xs, h1, h2, h3, h4⟩ := fromLast_spec (t := parent) hes (by rw [hk0]; omega) hinv.sorted
  have hne : exec ≠ 0 := by omega
  cases hl : s.getLast? with
  | none => simp [hes] at hl
  | some l =>
    have hlen : (x :: xs).length ≤ s.length + 1 := by rw [h1]; simp; omega
    obtain ⟨r, hr, h5⟩ := slotLoop_spec hinv hn hexec hl rfl (s.length + 1) parent pre x xs h1 hp h3
      (fun y hy => by have := h4 y hy; omega) hlen
    exact ⟨r, by simp [findSlot, hne, hl, h2, hr], h5⟩

/-- The search never runs out of its fuel, whatever the arguments. -/
theorem slotLoop_total (n exec last : Int) :
    ∀ (fuel : Nat) (cur : Int) (rest : List Event), rest.length < fuel → ∃ r, slotLoop n exec last fuel cur rest = some r := by
  have hlen : ∀ (e : Int) (l r : List Event), lastShort n e l = some r → r.length < l.length := by
    intro e l r h
    obtain ⟨pre, b, h1, _⟩ := lastShort_some h
    rw [h1]; simp; omega
  intro fuel
  induction fuel with
  | zero => intro cur rest h; omega
  | succ fuel ih =>
    intro cur rest h
    unfold slotLoop
    split
    · cases hs : lastShort n (cur + exec) rest with
      | none => exact ⟨_, rfl⟩
      | some r =>
        have := hlen _ _ _ hs
        cases r with
        | nil => exact ⟨_, rfl⟩
        | cons e es => exact ih e.time (e :: es) (by omega)
    · exact ⟨_, rfl⟩

end Sampo.Momentum
