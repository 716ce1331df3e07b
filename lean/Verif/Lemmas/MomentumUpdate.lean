import Verif.Lemmas.Momentum

/-! # The effect of one update of a momentum timeline -/

namespace Sampo.Momentum

theorem lastAt_restrict {s : List Event} {t t' : Int} {y : Event} (h : lastAt s t = some y)
    (h1 : y.key ≤ t') (h2 : t' ≤ t) (hs : Sorted s) : lastAt s t' = some y := by
  induction s with
  | nil => simp [lastAt] at h
  | cons x xs ih =>
    have hs' := List.pairwise_cons.mp hs
    unfold lastAt at h
    split at h
    · cases hx : lastAt xs t with
      | none =>
        simp [hx] at h; subst h
        have hn : lastAt xs t' = none := by
          cases hz : lastAt xs t' with
          | none => rfl
          | some z =>
            have h3 := lastAt_mem hz
            have h4 := lastAt_none hs'.2 hx z h3.1
            omega
        simp [lastAt, h1, hn]
      | some z =>
        simp [hx] at h; subst h
        have hz := hs'.1 z (lastAt_mem hx).1
        have : x.key ≤ t' := by omega
        simp [lastAt, this, ih hx hs'.2]
    · simp at h

theorem seq_keyLe {s : List Event} {idx : Int} (hseq : ∀ e ∈ s, e.seq < idx) (e : Event) (he : e.seq = idx) :
    ∀ x ∈ s, x.key = e.key → keyLe x e = true := by
  intro x hx hk
  have := hseq x hx
  unfold keyLe
  simp [hk, he, this]

theorem dec_seq (start end_ n : Int) (e : Event) : (dec start end_ n e).seq = e.seq := by
  unfold dec; split <;> rfl

theorem dec_time (start end_ n : Int) (e : Event) : (dec start end_ n e).time = e.time := by
  unfold dec; split <;> rfl

theorem dec_type (start end_ n : Int) (e : Event) : (dec start end_ n e).type = e.type := by
  unfold dec; split <;> rfl

theorem updateState_spec {cap idx start end_ n : Int} {s s' : List Event} (hinv : Inv cap idx s)
    (hstart : 0 ≤ start) (hlt : start < end_) (hn : 0 ≤ n) (h : updateState idx start end_ n s = some s') :
    Inv cap (idx + 1) s' ∧ ∀ t, 0 ≤ t → ∃ v, available s t = some v ∧
      available s' t = some (if start ≤ t ∧ t < end_ then v - n else v) ∧ (start ≤ t ∧ t < end_ → n ≤ v) := by
  unfold updateState at h
  simp only [Option.bind_eq_some_iff] at h
  obtain ⟨a, ha, h⟩ := h
  split at h
  swap; · simp at h
  rename_i hna
  simp only [Option.bind_eq_some_iff] at h
  obtain ⟨s1, hd, h⟩ := h
  obtain ⟨rfl, hin⟩ := decrement_eq hd
  unfold insertPair at h
  simp only [Option.map_eq_some_iff] at h
  obtain ⟨l, hl, rfl⟩ := h
  -- the two new events
  generalize he1 : (⟨idx, .start, start, a - n⟩ : Event) = e1 at *
  have k1 : e1.key = start := by subst he1; rfl
  have c1 : e1.count = a - n := by subst he1; rfl
  have t1 : e1.time = start := by subst he1; rfl
  have q1 : e1.seq = idx := by subst he1; rfl
  have y1 : e1.type ≠ .initial := by subst he1; simp
  have p1 : e1.type.priority = 0 := by subst he1; rfl
  generalize he2 : (⟨idx, .finish, end_, if l.time = end_ then l.count else l.count + n⟩ : Event) = e2 at *
  have k2 : e2.key = end_ := by subst he2; rfl
  have c2 : e2.count = if l.time = end_ then l.count else l.count + n := by subst he2; rfl
  have t2 : e2.time = end_ := by subst he2; rfl
  have q2 : e2.seq = idx := by subst he2; rfl
  have y2 : e2.type ≠ .initial := by subst he2; simp
  generalize hs1 : s.map (dec start end_ n) = s1 at *
  have sorted1 : Sorted s1 := by subst hs1; exact sorted_map (dec_key start end_ n) hinv.sorted
  have seq1 : ∀ e ∈ s1, e.seq < idx := by
    subst hs1; intro e he
    obtain ⟨x, hx, rfl⟩ := List.mem_map.mp he
    rw [dec_seq]; exact hinv.seq x hx
  have last1 := seq_keyLe seq1 e1 q1
  have sorted2 : Sorted (add e1 s1) := add_sorted sorted1 last1
  have last2 : ∀ x ∈ add e1 s1, x.key = e2.key → keyLe x e2 = true := by
    intro x hx hk
    rcases mem_add.mp hx with rfl | hx
    · omega
    · exact seq_keyLe seq1 e2 q2 x hx hk
  have sorted3 : Sorted (add e2 (add e1 s1)) := add_sorted sorted2 last2
  have mem1 : ∀ t y, lastAt s t = some y → lastAt s1 t = some (dec start end_ n y) := by
    intro t y hy
    rw [← hs1, lastAt_map _ (dec_key start end_ n), hy]; rfl
  -- the last event of the list with the start event
  have key2 : ∀ t y, start ≤ t → lastAt s t = some y →
      lastAt (add e1 s1) t = some (if y.key ≤ start then e1 else dec start end_ n y) := by
    intro t y ht hy
    rw [lastAt_add sorted1 last1, mem1 t y hy]
    simp only [k1, ht, if_true, dec_key]
    split <;> rfl
  -- the refinement
  have refine_ : ∀ t, 0 ≤ t → ∃ v, available s t = some v ∧
      available (add e2 (add e1 s1)) t = some (if start ≤ t ∧ t < end_ then v - n else v) ∧
      (start ≤ t ∧ t < end_ → n ≤ v) := by
    intro t ht
    obtain ⟨y, hy⟩ := hinv.lastAt_isSome ht
    refine ⟨y.count, by simp [available, hy], ?_⟩
    have hym := lastAt_mem hy
    unfold available
    rw [lastAt_add sorted2 last2]
    by_cases hts : start ≤ t
    · rw [key2 t y hts hy]
      by_cases hte : t < end_
      · have : ¬ e2.key ≤ t := by omega
        simp only [this, if_false, hts, hte, and_self, if_true, Option.map_some, forall_const]
        by_cases hk : y.key ≤ start
        · have hr := lastAt_restrict hy hk hts hinv.sorted
          have : a = y.count := by simp [available, hr] at ha; exact ha.symm
          simp [hk, c1]; omega
        · have hi : inside start end_ y = true := by simp [inside]; omega
          have := hin y hym.1 hi
          simp [hk, dec, hi]; omega
      · have h2 : e2.key ≤ t := by omega
        have hnot : ¬ (start ≤ t ∧ t < end_) := by omega
        simp only [h2, if_true, hnot, if_false, false_implies, and_true]
        by_cases hk : y.key ≤ start
        · have hr := lastAt_restrict hy hk hts hinv.sorted
          have ha' : a = y.count := by simp [available, hr] at ha; exact ha.symm
          have hre := lastAt_restrict hy (show y.key ≤ end_ by omega) (by omega) hinv.sorted
          have hl' := key2 end_ y (by omega) hre
          rw [hl] at hl'
          simp only [hk, if_true, Option.some.injEq] at hl'
          subst hl'
          have h3 : l.key ≤ e2.key := by omega
          have h4 : l.time ≠ end_ := by omega
          simp only [hk, if_true, h3, Option.map_some, c2, h4, if_false]
          congr 1; omega
        · simp only [hk, if_false, dec_key]
          by_cases hk2 : y.key ≤ e2.key
          · simp only [hk2, if_true, Option.map_some, c2]
            have hre := lastAt_restrict hy (show y.key ≤ end_ by omega) (by omega) hinv.sorted
            have hl' := key2 end_ y (by omega) hre
            rw [hl] at hl'
            simp only [hk, if_false, Option.some.injEq] at hl'
            subst hl'
            have hkt := (hinv.key_eq hym.1 (by omega)).2
            rw [dec_time]
            by_cases hye : y.time = end_
            · have hi : ¬ inside start end_ y = true := by simp [inside]; omega
              simp [hye, dec, hi]
            · have hi : inside start end_ y = true := by simp [inside]; omega
              simp [hye, dec, hi]
          · have hi : ¬ inside start end_ y = true := by simp [inside]; omega
            simp [hk2, dec, hi]
    · have h2 : ¬ e2.key ≤ t := by omega
      have hnot : ¬ (start ≤ t ∧ t < end_) := by omega
      have h1 : ¬ e1.key ≤ t := by omega
      simp only [h2, if_false, hnot, false_implies, and_true]
      rw [lastAt_add sorted1 last1, mem1 t y hy]
      have hi : ¬ inside start end_ y = true := by simp [inside]; omega
      simp [h1, dec, hi]
  refine ⟨?_, refine_⟩
  have group1 : s1.Pairwise fun a b => a.key = b.key → b.count ≤ a.count := by subst hs1; exact dec_group hinv.group
  -- the start event has the fewest workers of its moment
  have cnt1 : ∀ x ∈ s1, x.key = e1.key → e1.count ≤ x.count := by
    intro x hx hk
    obtain ⟨y, hy⟩ := hinv.lastAt_isSome hstart
    have hy1 := mem1 start y hy
    have hay : a = y.count := by simp [available, hy] at ha; exact ha.symm
    have hym := lastAt_mem hy
    have hmax := lastAt_max sorted1 hy1 x hx (by omega)
    rw [dec_key] at hmax
    have hg := group_last group1 sorted1 hy1 x hx (by rw [dec_key]; omega)
    have hi : ¬ inside start end_ y = true := by simp [inside]; omega
    simp [dec, hi] at hg
    omega
  have group2 := add_group sorted1 group1 last1 cnt1
  have cnt2 : ∀ x ∈ add e1 s1, x.key = e2.key → e2.count ≤ x.count := by
    intro x hx hk
    have hlm := lastAt_mem hl
    have hmax := lastAt_max sorted2 hl x hx (by omega)
    have hg := group_last group2 sorted2 hl x hx (by omega)
    -- `l` is an event at `end_`
    have hlt' : l.time = end_ := by
      rcases mem_add.mp hlm.1 with rfl | hm
      · omega
      · rw [← hs1] at hm
        obtain ⟨y, hy, rfl⟩ := List.mem_map.mp hm
        rw [dec_key] at hmax hlm
        rw [dec_time]
        have := (hinv.key_eq hy (by omega)).2
        omega
    simp [c2, hlt']; exact hg
  have mem3 : ∀ x, x ∈ add e2 (add e1 s1) ↔ x = e2 ∨ x = e1 ∨ x ∈ s1 := by
    intro x; rw [mem_add, mem_add]
  constructor
  · exact sorted3
  · intro e he
    rcases (mem3 e).mp he with rfl | rfl | he
    · omega
    · omega
    · have := seq1 e he; omega
  · obtain ⟨es, hes, hall⟩ := hinv.head
    have hk0 : Event.key ⟨-1, .initial, 0, cap⟩ = -1 := rfl
    have hd0 : dec start end_ n ⟨-1, .initial, 0, cap⟩ = ⟨-1, .initial, 0, cap⟩ := by
      have hi : ¬ inside start end_ ⟨-1, .initial, 0, cap⟩ = true := by simp [inside, hk0]; omega
      simp [dec, hi]
    have hs1' : s1 = ⟨-1, .initial, 0, cap⟩ :: es.map (dec start end_ n) := by
      rw [← hs1, hes]; simp [hd0]
    have hle1 : keyLe ⟨-1, .initial, 0, cap⟩ e1 = true := keyLe_of_lt (by rw [hk0]; omega)
    have hle2 : keyLe ⟨-1, .initial, 0, cap⟩ e2 = true := keyLe_of_lt (by rw [hk0]; omega)
    refine ⟨add e2 (add e1 (es.map (dec start end_ n))), ?_, ?_⟩
    · rw [hs1']; simp [add, hle1, hle2]
    · intro e he
      rw [mem_add, mem_add] at he
      rcases he with rfl | rfl | he
      · exact ⟨y2, by omega⟩
      · exact ⟨y1, by omega⟩
      · obtain ⟨y, hy, rfl⟩ := List.mem_map.mp he
        rw [dec_type, dec_time]; exact hall y hy
  · exact add_group sorted2 group2 last2 cnt2
  · intro t ht
    have hte : end_ ≤ t := by have := ht e2 ((mem3 e2).mpr (Or.inl rfl)); omega
    obtain ⟨v, h1, h2, _⟩ := refine_ t (by omega)
    have hnot : ¬ (start ≤ t ∧ t < end_) := by omega
    rw [h2]; simp only [hnot, if_false]; rw [← h1]
    apply hinv.full
    intro e he
    have : dec start end_ n e ∈ s1 := by rw [← hs1]; exact List.mem_map_of_mem he
    have := ht _ ((mem3 _).mpr (Or.inr (Or.inr this)))
    rwa [dec_key] at this

end Sampo.Momentum
