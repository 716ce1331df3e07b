import Verif.Lemmas.MomentumHistory

/-! # The queue loop over the worker types of a team -/

namespace Sampo.Momentum

/-- The queue loop returns the least common admissible start, if every type's search returns the least admissible start
not before the requested one and every start from `M` on is admissible. -/
theorem queueLoop_least {rt : Resources} {cnt : Nat → Option Int} {exec : Int} {ind : Bool} (P : Nat → Int → Prop)
    (kinds : List Nat) (M : Int)
    (hfind : ∀ k ∈ kinds, ∀ start, 0 ≤ start → ∃ s n r, rt k = some s ∧ cnt k = some n ∧
      findSlot s start exec n ind = some (some r) ∧ start ≤ r ∧ P k r ∧ ∀ q, start ≤ q → q < r → ¬ P k q)
    (hM : ∀ k ∈ kinds, ∀ q, M ≤ q → P k q) :
    ∀ (fuel : Nat) (queue sched : List Nat) (start : Int), (queue ++ sched).Perm kinds → 0 ≤ start →
      (∀ k ∈ sched, P k start) →
      (M - start).toNat * (kinds.length + 1) + queue.length < fuel →
      ∃ r, queueLoop rt cnt exec ind fuel queue sched start = some (some r) ∧ start ≤ r ∧ (∀ k ∈ kinds, P k r) ∧
        ∀ q, start ≤ q → q < r → ∃ k ∈ kinds, ¬ P k q := by
  intro fuel
  induction fuel with
  | zero => intro queue sched start _ _ _ h; omega
  | succ fuel ih =>
    intro queue sched start hperm h0 hsched hfuel
    cases queue with
    | nil =>
      refine ⟨start, rfl, le_refl _, ?_, by intro q h1 h2; omega⟩
      intro k hk
      exact hsched k ((List.Perm.mem_iff hperm).mpr hk)
    | cons k queue =>
      have hk : k ∈ kinds := (List.Perm.mem_iff hperm).mp (by simp)
      obtain ⟨s, n, f, h1, h2, h3, h4, h5, h6⟩ := hfind k hk start h0
      have hlen := hperm.length_eq
      simp at hlen
      have hfM : M ≤ start → f = start := by
        intro hm
        by_contra hne
        exact h6 start (le_refl _) (by omega) (hM k hk start hm)
      have hfM' : f ≤ max start M := by
        by_contra hcon
        exact h6 (max start M) (by omega) (by omega) (hM k hk _ (by omega))
      unfold queueLoop
      simp only [h1, h2, h3]
      have hnlt : ¬ f < start := by omega
      simp only [hnlt, if_false]
      by_cases hreset : sched ≠ [] ∧ start ≠ f
      · simp only [hreset, ne_eq, not_false_eq_true, and_self, if_true]
        have hp : ((queue ++ sched) ++ [k]).Perm kinds := by
          refine List.Perm.trans ?_ hperm
          exact List.perm_append_comm
        have hmeas : (M - f).toNat * (kinds.length + 1) + (queue ++ sched).length < fuel := by
          have hlt : start < f := by omega
          have hfle : f ≤ M := by omega
          have e1 : (M - start).toNat = (M - f).toNat + (f - start).toNat := by omega
          have e2 : 1 ≤ (f - start).toNat := by omega
          have e3 : ((M - f).toNat + 1) * (kinds.length + 1) ≤ (M - start).toNat * (kinds.length + 1) :=
            Nat.mul_le_mul_right _ (by omega)
          rw [Nat.add_mul] at e3
          simp at hfuel ⊢
          omega
        obtain ⟨r, hr, hle, hall, hmin⟩ := ih (queue ++ sched) [k] f hp (by omega) (by simpa using h5) hmeas
        refine ⟨r, hr, by omega, hall, ?_⟩
        intro q hq1 hq2
        by_cases hqf : f ≤ q
        · exact hmin q hqf hq2
        · exact ⟨k, hk, h6 q hq1 (by omega)⟩
      · simp only [hreset, if_false]
        have hp : (queue ++ (sched ++ [k])).Perm kinds := by
          refine List.Perm.trans ?_ hperm
          rw [← List.append_assoc]
          exact List.perm_append_comm
        have hmeas : (M - f).toNat * (kinds.length + 1) + queue.length < fuel := by
          have e3 : (M - f).toNat * (kinds.length + 1) ≤ (M - start).toNat * (kinds.length + 1) :=
            Nat.mul_le_mul_right _ (by omega)
          simp at hfuel
          omega
        have hs' : ∀ j ∈ sched ++ [k], P j f := by
          intro j hj
          rcases List.mem_append.mp hj with hj | hj
          · have : start = f := by
              by_contra hne
              exact hreset ⟨by rintro rfl; simp at hj, hne⟩
            exact this ▸ hsched j hj
          · simp at hj; subst hj; exact h5
        obtain ⟨r, hr, hle, hall, hmin⟩ := ih queue (sched ++ [k]) f hp (by omega) hs' hmeas
        refine ⟨r, hr, by omega, hall, ?_⟩
        intro q hq1 hq2
        by_cases hqf : f ≤ q
        · exact hmin q hqf hq2
        · exact ⟨k, hk, h6 q hq1 (by omega)⟩

/-- A moment after all events of a list. -/
theorem exists_bound (s : List Event) : ∃ M : Int, 0 ≤ M ∧ ∀ e ∈ s, e.key ≤ M ∧ e.time ≤ M := by
  induction s with
  | nil => exact ⟨0, by omega, by simp⟩
  | cons x xs ih =>
    obtain ⟨M, h0, h⟩ := ih
    refine ⟨max M (max x.key x.time), by omega, ?_⟩
    intro e he
    rcases List.mem_cons.mp he with rfl | he
    · omega
    · have := h e he; omega

theorem exists_common_bound (rt : Resources) (kinds : List Nat) :
    ∃ M : Int, 0 ≤ M ∧ ∀ k ∈ kinds, ∀ s, rt k = some s → ∀ e ∈ s, e.key ≤ M ∧ e.time ≤ M := by
  induction kinds with
  | nil => exact ⟨0, by omega, by simp⟩
  | cons k ks ih =>
    obtain ⟨M, h0, h⟩ := ih
    cases hk : rt k with
    | none =>
      refine ⟨M, h0, ?_⟩
      intro j hj s hs
      rcases List.mem_cons.mp hj with rfl | hj
      · rw [hk] at hs; cases hs
      · exact h j hj s hs
    | some s =>
      obtain ⟨N, hN, hN'⟩ := exists_bound s
      refine ⟨max M N, by omega, ?_⟩
      intro j hj s' hs' e he
      rcases List.mem_cons.mp hj with rfl | hj
      · rw [hk] at hs'; cases hs'
        have := hN' e he; omega
      · have := h j hj s' hs' e he; omega

/-- The search for a team of ordinary workers: terminates with the earliest common slot. -/
theorem queueLoop_ordinary {rt : Resources} {cnt : Nat → Option Int} {exec parent : Int} (kinds : List Nat)
    (hexec : 0 ≤ exec) (hp : 0 ≤ parent)
    (hk : ∀ k ∈ kinds, ∃ s n cap idx, rt k = some s ∧ cnt k = some n ∧ Inv cap idx s ∧ n ≤ cap) :
    ∃ fuel0 r, (∀ fuel, fuel0 ≤ fuel → queueLoop rt cnt exec false fuel kinds [] parent = some (some r)) ∧ parent ≤ r ∧
      (∀ k ∈ kinds, ∀ s n, rt k = some s → cnt k = some n → FreeIn s n r exec) ∧
      ∀ q, parent ≤ q → q < r → ∃ k ∈ kinds, ∃ s n, rt k = some s ∧ cnt k = some n ∧ ¬ FreeIn s n q exec := by
  obtain ⟨M, hM0, hM⟩ := exists_common_bound rt kinds
  let P : Nat → Int → Prop := fun k q => ∀ s n, rt k = some s → cnt k = some n → FreeIn s n q exec
  have hfind : ∀ k ∈ kinds, ∀ start, 0 ≤ start → ∃ s n r, rt k = some s ∧ cnt k = some n ∧
      findSlot s start exec n false = some (some r) ∧ start ≤ r ∧ P k r ∧ ∀ q, start ≤ q → q < r → ¬ P k q := by
    intro k hkm start hs
    obtain ⟨s, n, cap, idx, h1, h2, h3, h4⟩ := hk k hkm
    by_cases he : exec = 0
    · refine ⟨s, n, start, h1, h2, by simp [findSlot, he], le_refl _, ?_, by intro q _ _; omega⟩
      intro s' n' _ _ t ht1 ht2; omega
    · obtain ⟨r, hr, h5, h6, h7⟩ := findSlot_spec (exec := exec) h3 h4 (by omega) hs
      refine ⟨s, n, r, h1, h2, hr, h5, ?_, ?_⟩
      · intro s' n' hs' hn'
        rw [h1] at hs'; rw [h2] at hn'; cases hs'; cases hn'; exact h6
      · intro q hq1 hq2 hP
        exact h7 q hq1 hq2 (hP s n h1 h2)
  have hMP : ∀ k ∈ kinds, ∀ q, M ≤ q → P k q := by
    intro k hkm q hq s n h1 h2 t ht1 ht2
    obtain ⟨s', n', cap, idx, h1', h2', h3, h4⟩ := hk k hkm
    rw [h1] at h1'; rw [h2] at h2'; cases h1'; cases h2'
    exact ⟨cap, h3.full t (fun e he => by have := hM k hkm s h1 e he; omega), h4⟩
  let fuel0 := (M - parent).toNat * (kinds.length + 1) + kinds.length + 1
  obtain ⟨r, hr, h1, h2, h3⟩ := queueLoop_least P kinds M hfind hMP fuel0 kinds [] parent (by simp) hp (by simp)
    (by show _ < (M - parent).toNat * (kinds.length + 1) + kinds.length + 1; omega)
  refine ⟨fuel0, r, ?_, h1, h2, ?_⟩
  · intro fuel hf
    obtain ⟨r', hr', h1', h2', h3'⟩ := queueLoop_least P kinds M hfind hMP fuel kinds [] parent (by simp) hp (by simp)
      (by have : (M - parent).toNat * (kinds.length + 1) + kinds.length + 1 ≤ fuel := hf
          omega)
    have : r' = r := by
      rcases Int.lt_trichotomy r' r with h | h | h
      · obtain ⟨k, hk1, hk2⟩ := h3 r' h1' h; exact absurd (h2' k hk1) hk2
      · exact h
      · obtain ⟨k, hk1, hk2⟩ := h3' r h1 h; exact absurd (h2 k hk1) hk2
    rw [hr', this]
  · intro q hq1 hq2
    obtain ⟨k, hk1, hk2⟩ := h3 q hq1 hq2
    obtain ⟨s, n, cap, idx, e1, e2, _⟩ := hk k hk1
    refine ⟨k, hk1, s, n, e1, e2, ?_⟩
    intro hfree
    apply hk2
    intro s' n' hs' hn'
    rw [e1] at hs'; rw [e2] at hn'; cases hs'; cases hn'; exact hfree

/-- The search for an independent work: terminates with the first moment after everything. -/
theorem queueLoop_independent {rt : Resources} {cnt : Nat → Option Int} {exec parent : Int} (kinds : List Nat)
    (hexec : 0 < exec) (hp : 0 ≤ parent)
    (hk : ∀ k ∈ kinds, ∃ s n cap idx, rt k = some s ∧ cnt k = some n ∧ Inv cap idx s) :
    ∃ fuel0 r, (∀ fuel, fuel0 ≤ fuel → queueLoop rt cnt exec true fuel kinds [] parent = some (some r)) ∧ parent ≤ r ∧
      (∀ k ∈ kinds, ∀ s, rt k = some s → ∀ e ∈ s, e.key ≤ r) := by
  obtain ⟨M, hM0, hM⟩ := exists_common_bound rt kinds
  let P : Nat → Int → Prop := fun k q => ∀ s, rt k = some s → ∀ l, s.getLast? = some l → l.time ≤ q
  have hfind : ∀ k ∈ kinds, ∀ start, 0 ≤ start → ∃ s n r, rt k = some s ∧ cnt k = some n ∧
      findSlot s start exec n true = some (some r) ∧ start ≤ r ∧ P k r ∧ ∀ q, start ≤ q → q < r → ¬ P k q := by
    intro k hkm start hs
    obtain ⟨s, n, cap, idx, h1, h2, h3⟩ := hk k hkm
    obtain ⟨es, hes, _⟩ := h3.head
    obtain ⟨l, hl⟩ : ∃ l, s.getLast? = some l := by
      rw [hes, List.getLast?_cons]; exact ⟨_, rfl⟩
    have hne : exec ≠ 0 := by omega
    refine ⟨s, n, max start l.time, h1, h2, by simp [findSlot, hne, hl], by omega, ?_, ?_⟩
    · intro s' hs' l' hl'
      rw [h1] at hs'; cases hs'; rw [hl] at hl'; cases hl'; omega
    · intro q hq1 hq2 hP
      have := hP s h1 l hl; omega
  have hMP : ∀ k ∈ kinds, ∀ q, M ≤ q → P k q := by
    intro k hkm q hq s h1 l hl
    have := (hM k hkm s h1 l (List.mem_of_getLast? hl)).2
    omega
  let fuel0 := (M - parent).toNat * (kinds.length + 1) + kinds.length + 1
  obtain ⟨r, hr, h1, h2, h3⟩ := queueLoop_least P kinds M hfind hMP fuel0 kinds [] parent (by simp) hp (by simp)
    (by show _ < (M - parent).toNat * (kinds.length + 1) + kinds.length + 1; omega)
  refine ⟨fuel0, r, ?_, h1, ?_⟩
  · intro fuel hf
    obtain ⟨r', hr', h1', h2', h3'⟩ := queueLoop_least P kinds M hfind hMP fuel kinds [] parent (by simp) hp (by simp)
      (by have : (M - parent).toNat * (kinds.length + 1) + kinds.length + 1 ≤ fuel := hf
          omega)
    have : r' = r := by
      rcases Int.lt_trichotomy r' r with h | h | h
      · obtain ⟨k, hk1, hk2⟩ := h3 r' h1' h; exact absurd (h2' k hk1) hk2
      · exact h
      · obtain ⟨k, hk1, hk2⟩ := h3' r h1 h; exact absurd (h2 k hk1) hk2
    rw [hr', this]
  · intro k hkm s hs e he
    obtain ⟨s', n, cap, idx, e1, e2, h4⟩ := hk k hkm
    rw [hs] at e1; cases e1
    obtain ⟨es, hes, hall⟩ := h4.head
    obtain ⟨l, hl⟩ : ∃ l, s.getLast? = some l := by
      rw [hes, List.getLast?_cons]; exact ⟨_, rfl⟩
    have hlt := h2 k hkm s hs l hl
    obtain ⟨init, hinit⟩ := List.getLast?_eq_some_iff.mp hl
    have hle : e.key ≤ l.key := by
      rw [hinit] at he
      have hsl := List.pairwise_append.mp (hinit ▸ h4.sorted)
      rcases List.mem_append.mp he with he | he
      · exact hsl.2.2 e he l (by simp)
      · simp at he; subst he; omega
    by_cases h : l.type = .initial
    · have : l.key = -1 := by simp [Event.key, h]
      omega
    · have : l.key = l.time := by simp [Event.key, h]
      omega

end Sampo.Momentum
