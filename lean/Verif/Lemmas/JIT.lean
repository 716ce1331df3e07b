import Verif.Spec.JIT

namespace Sampo.JIT

/-! ## Basic facts about `total` and `releasedBy` -/

@[simp] theorem total_nil : total [] = 0 := rfl
@[simp] theorem total_cons (e : Rel) (q : Queue) : total (e :: q) = e.count + total q := by simp [total]
@[simp] theorem releasedBy_nil (t : Int) : releasedBy [] t = 0 := rfl
theorem releasedBy_cons (e : Rel) (q : Queue) (t : Int) :
    releasedBy (e :: q) t = (if e.time ≤ t then e.count else 0) + releasedBy q t := by
  unfold releasedBy; by_cases h : e.time ≤ t <;> simp [h]

theorem NonNeg.tail {e : Rel} {q : Queue} (h : NonNeg (e :: q)) : NonNeg q :=
  fun x hx => h x (List.mem_cons_of_mem _ hx)
theorem NonNeg.head {e : Rel} {q : Queue} (h : NonNeg (e :: q)) : 0 ≤ e.count := h e (by simp)

theorem releasedBy_nonneg {q : Queue} (h : NonNeg q) (t : Int) : 0 ≤ releasedBy q t := by
  induction q with
  | nil => simp
  | cons e q ih =>
    rw [releasedBy_cons]; have := ih h.tail; have := h.head; split <;> omega

theorem releasedBy_le_total {q : Queue} (h : NonNeg q) (t : Int) : releasedBy q t ≤ total q := by
  induction q with
  | nil => simp
  | cons e q ih =>
    rw [releasedBy_cons, total_cons]; have := ih h.tail; have := h.head; split <;> omega

theorem releasedBy_mono {q : Queue} (h : NonNeg q) {s t : Int} (hst : s ≤ t) :
    releasedBy q s ≤ releasedBy q t := by
  induction q with
  | nil => simp
  | cons e q ih =>
    rw [releasedBy_cons, releasedBy_cons]; have := ih h.tail; have := h.head
    split <;> split <;> omega

theorem releasedBy_eq_zero {q : Queue} {t : Int} (h : ∀ e ∈ q, t < e.time) : releasedBy q t = 0 := by
  induction q with
  | nil => simp
  | cons e q ih =>
    rw [releasedBy_cons, ih (fun x hx => h x (List.mem_cons_of_mem _ hx))]
    have := h e (by simp)
    split <;> omega

theorem Ordered.tail {e : Rel} {q : Queue} (h : Ordered (e :: q)) : Ordered q := (List.pairwise_cons.mp h).2
theorem Ordered.head_le {e : Rel} {q : Queue} (h : Ordered (e :: q)) : ∀ x ∈ q, e.time ≤ x.time :=
  (List.pairwise_cons.mp h).1

theorem releasedBy_head_late {e : Rel} {q : Queue} (h : Ordered (e :: q)) {t : Int} (ht : t < e.time) :
    releasedBy (e :: q) t = 0 := by
  apply releasedBy_eq_zero
  intro x hx
  rcases List.mem_cons.mp hx with rfl | hx
  · exact ht
  · exact Int.lt_of_lt_of_le ht (h.head_le x hx)

/-! ## `grab` -/

theorem grab_nonpos (q : Queue) {n : Int} (acc : Int) (h : n ≤ 0) : grab q n acc = some acc := by
  unfold grab; simp; omega

theorem grab_cons (e : Rel) (q : Queue) {n : Int} (acc : Int) (h : 0 < n) :
    grab (e :: q) n acc = grab q (n - if n < e.count then n else e.count) (max acc e.time) := by
  conv => lhs; unfold grab
  simp [h]

theorem grab_nil {n : Int} (acc : Int) (h : 0 < n) : grab [] n acc = none := by
  unfold grab; simp [h]

theorem grab_append {q : Queue} {n acc r : Int} (q' : Queue) (h : grab q n acc = some r) :
    grab (q ++ q') n acc = some r := by
  induction q generalizing n acc with
  | nil =>
    by_cases hn : 0 < n
    · rw [grab_nil _ hn] at h; cases h
    · rw [grab_nonpos _ _ (by omega)] at h ⊢; exact h
  | cons e q ih =>
    by_cases hn : 0 < n
    · rw [List.cons_append, grab_cons _ _ _ hn]
      rw [grab_cons _ _ _ hn] at h
      exact ih h
    · rw [grab_nonpos _ _ (by omega)] at h ⊢; exact h

theorem grab_isSome {q : Queue} (hq : NonNeg q) {n : Int} (acc : Int) (h : n ≤ total q) :
    ∃ r, grab q n acc = some r := by
  induction q generalizing n acc with
  | nil => exact ⟨acc, grab_nonpos _ _ (by simpa using h)⟩
  | cons e q ih =>
    by_cases hn : 0 < n
    · rw [grab_cons _ _ _ hn]
      apply ih hq.tail
      rw [total_cons] at h
      have := releasedBy_nonneg hq.tail 0
      have := releasedBy_le_total hq.tail 0
      split <;> omega
    · exact ⟨acc, grab_nonpos _ _ (by omega)⟩

theorem grab_spec {q : Queue} (hs : Ordered q) (hq : NonNeg q) {n acc r : Int} (h : grab q n acc = some r) :
    acc ≤ r ∧ n ≤ releasedBy q r ∧ ∀ s, acc ≤ s → s < r → releasedBy q s < n := by
  induction q generalizing n acc with
  | nil =>
    by_cases hn : 0 < n
    · rw [grab_nil _ hn] at h; cases h
    · rw [grab_nonpos _ _ (by omega)] at h; cases h
      refine ⟨Int.le_refl _, by simp; omega, fun s h1 h2 => by omega⟩
  | cons e q ih =>
    by_cases hn : 0 < n
    · rw [grab_cons _ _ _ hn] at h
      obtain ⟨h1, h2, h3⟩ := ih hs.tail hq.tail h
      have hc := hq.head
      refine ⟨by omega, ?_, ?_⟩
      · rw [releasedBy_cons, if_pos (by omega)]; split at h2 <;> omega
      · intro s hs1 hs2
        by_cases hse : e.time ≤ s
        · have h4 := h3 s (by omega) hs2
          have := releasedBy_nonneg hq.tail s
          rw [releasedBy_cons, if_pos hse]
          split at h4 <;> omega
        · rw [releasedBy_head_late hs (by omega)]; exact hn
    · rw [grab_nonpos _ _ (by omega)] at h; cases h
      refine ⟨Int.le_refl _, ?_, fun s h1 h2 => by omega⟩
      have := releasedBy_nonneg hq r; omega

theorem grabWrap_eq {q : Queue} (hq : NonNeg q) {n : Int} (acc : Int) (h : n ≤ total q) :
    grabWrap q n acc = grab q n acc := by
  obtain ⟨r, hr⟩ := grab_isSome hq acc h
  rw [grabWrap, grab_append _ hr, hr]

/-! ## `consume` -/

theorem consume_nonpos (q : Queue) {n : Int} (h : n ≤ 0) : consume n q = some q := by
  unfold consume; simp; omega

theorem consume_cons (e : Rel) (q : Queue) {n : Int} (h : 0 < n) :
    consume n (e :: q) = if e.count > n ∨ q = [] then some (⟨e.time, e.count - n⟩ :: q)
      else consume (n - e.count) q := by
  conv => lhs; unfold consume
  simp [h]

theorem consume_nil {n : Int} (h : 0 < n) : consume n [] = none := by
  unfold consume; simp [h]

theorem consume_isSome {q : Queue} (n : Int) (h : q ≠ []) : ∃ q', consume n q = some q' := by
  induction q generalizing n with
  | nil => exact absurd rfl h
  | cons e q ih =>
    by_cases hn : 0 < n
    · rw [consume_cons _ _ hn]
      by_cases hc : e.count > n ∨ q = []
      · rw [if_pos hc]; exact ⟨_, rfl⟩
      · rw [if_neg hc]; exact ih _ (by intro hq; exact hc (Or.inr hq))
    · exact ⟨_, consume_nonpos _ (by omega)⟩

theorem consume_total {q q' : Queue} {n : Int} (hn : 0 ≤ n) (h : consume n q = some q') :
    total q' = total q - n := by
  induction q generalizing n with
  | nil =>
    by_cases hn' : 0 < n
    · rw [consume_nil hn'] at h; cases h
    · rw [consume_nonpos _ (by omega)] at h; cases h; simp; omega
  | cons e q ih =>
    by_cases hn' : 0 < n
    · rw [consume_cons _ _ hn'] at h
      split at h
      · cases h; simp; omega
      · rename_i hc
        have := ih (by simp at hc; omega) h
        rw [this, total_cons]; omega
    · rw [consume_nonpos _ (by omega)] at h; cases h; simp; omega

theorem consume_mem_time {q q' : Queue} {n : Int} (h : consume n q = some q') :
    ∀ e ∈ q', ∃ e' ∈ q, e.time = e'.time := by
  induction q generalizing n with
  | nil =>
    by_cases hn' : 0 < n
    · rw [consume_nil hn'] at h; cases h
    · rw [consume_nonpos _ (by omega)] at h; cases h; simp
  | cons e q ih =>
    by_cases hn' : 0 < n
    · rw [consume_cons _ _ hn'] at h
      split at h
      · cases h
        intro x hx
        rcases List.mem_cons.mp hx with rfl | hx
        · exact ⟨e, by simp, rfl⟩
        · exact ⟨x, by simp [hx], rfl⟩
      · intro x hx
        obtain ⟨y, hy, hxy⟩ := ih h x hx
        exact ⟨y, by simp [hy], hxy⟩
    · rw [consume_nonpos _ (by omega)] at h; cases h
      exact fun x hx => ⟨x, hx, rfl⟩

theorem consume_ordered {q q' : Queue} {n : Int} (hs : Ordered q) (h : consume n q = some q') : Ordered q' := by
  induction q generalizing n with
  | nil =>
    by_cases hn' : 0 < n
    · rw [consume_nil hn'] at h; cases h
    · rw [consume_nonpos _ (by omega)] at h; cases h; exact hs
  | cons e q ih =>
    by_cases hn' : 0 < n
    · rw [consume_cons _ _ hn'] at h
      split at h
      · cases h
        exact List.pairwise_cons.mpr ⟨hs.head_le, hs.tail⟩
      · exact ih hs.tail h
    · rw [consume_nonpos _ (by omega)] at h; cases h; exact hs

theorem consume_nonneg {q q' : Queue} {n : Int} (hq : NonNeg q) (hn : n ≤ total q)
    (h : consume n q = some q') : NonNeg q' := by
  induction q generalizing n with
  | nil =>
    by_cases hn' : 0 < n
    · rw [consume_nil hn'] at h; cases h
    · rw [consume_nonpos _ (by omega)] at h; cases h; exact hq
  | cons e q ih =>
    by_cases hn' : 0 < n
    · rw [consume_cons _ _ hn'] at h
      rw [total_cons] at hn
      split at h
      · rename_i hc
        cases h
        intro x hx
        rcases List.mem_cons.mp hx with rfl | hx
        · rcases hc with hc | hc
          · simp; omega
          · subst hc; simp at hn ⊢; omega
        · exact hq.tail x hx
      · exact ih hq.tail (by omega) h
    · rw [consume_nonpos _ (by omega)] at h; cases h; exact hq

/-- Consuming never increases the number of workers released by a moment. -/
theorem consume_releasedBy_le {q q' : Queue} {n : Int} (hq : NonNeg q) (hn : 0 ≤ n) (h : consume n q = some q')
    (t : Int) : releasedBy q' t ≤ releasedBy q t := by
  induction q generalizing n with
  | nil =>
    by_cases hn' : 0 < n
    · rw [consume_nil hn'] at h; cases h
    · rw [consume_nonpos _ (by omega)] at h; cases h; exact Int.le_refl _
  | cons e q ih =>
    by_cases hn' : 0 < n
    · rw [consume_cons _ _ hn'] at h
      split at h
      · cases h; rw [releasedBy_cons, releasedBy_cons]; simp only; split <;> omega
      · rename_i hc
        have := ih hq.tail (by simp at hc; omega) h
        have := hq.head
        rw [releasedBy_cons]; split <;> omega
    · rw [consume_nonpos _ (by omega)] at h; cases h; exact Int.le_refl _

/-- If enough workers are released by `t`, exactly `n` of those are consumed. -/
theorem consume_releasedBy_eq {q q' : Queue} {n : Int} (hs : Ordered q) (hq : NonNeg q) (hn : 0 ≤ n)
    (h : consume n q = some q') {t : Int} (ht : n ≤ releasedBy q t) : releasedBy q' t = releasedBy q t - n := by
  induction q generalizing n with
  | nil =>
    by_cases hn' : 0 < n
    · rw [consume_nil hn'] at h; cases h
    · rw [consume_nonpos _ (by omega)] at h; cases h; omega
  | cons e q ih =>
    by_cases hn' : 0 < n
    · have he : e.time ≤ t := by
        apply Int.not_lt.mp; intro hlt
        rw [releasedBy_head_late hs hlt] at ht; omega
      rw [consume_cons _ _ hn'] at h
      rw [releasedBy_cons, if_pos he] at ht ⊢
      split at h
      · cases h; rw [releasedBy_cons]; simp only; rw [if_pos he]; omega
      · rename_i hc
        have := ih hs.tail hq.tail (by simp at hc; omega) h (by omega)
        omega
    · rw [consume_nonpos _ (by omega)] at h; cases h; omega

/-! ## `bubble` -/

theorem mem_bubble {x e : Rel} {q : Queue} : e ∈ bubble x q ↔ e = x ∨ e ∈ q := by
  induction q with
  | nil => simp [bubble]
  | cons y q ih =>
    unfold bubble; split
    · simp [ih]; constructor
      · rintro (h | h | h) <;> simp [h]
      · rintro (h | h | h) <;> simp [h]
    · simp

theorem bubble_ne_nil (x : Rel) (q : Queue) : bubble x q ≠ [] := by
  cases q <;> unfold bubble <;> (try split) <;> simp

theorem bubble_ordered {x : Rel} {q : Queue} (h : Ordered q) : Ordered (bubble x q) := by
  induction q with
  | nil => simp [bubble, Ordered]
  | cons y q ih =>
    unfold bubble; split
    · rename_i hxy
      refine List.pairwise_cons.mpr ⟨?_, ih h.tail⟩
      intro e he
      rcases mem_bubble.mp he with rfl | he
      · omega
      · exact h.head_le e he
    · rename_i hxy
      refine List.pairwise_cons.mpr ⟨?_, h⟩
      intro e he
      rcases List.mem_cons.mp he with rfl | he
      · omega
      · have := h.head_le e he; omega

theorem bubble_total (x : Rel) (q : Queue) : total (bubble x q) = x.count + total q := by
  induction q with
  | nil => simp [bubble]
  | cons y q ih => unfold bubble; split <;> simp [ih]; omega

theorem bubble_releasedBy (x : Rel) (q : Queue) (t : Int) :
    releasedBy (bubble x q) t = (if x.time ≤ t then x.count else 0) + releasedBy q t := by
  induction q with
  | nil => simp [bubble, releasedBy_cons]
  | cons y q ih =>
    unfold bubble; split
    · rw [releasedBy_cons, ih, releasedBy_cons]; omega
    · rw [releasedBy_cons, releasedBy_cons]

theorem bubble_nonneg {x : Rel} {q : Queue} (hx : 0 ≤ x.count) (hq : NonNeg q) : NonNeg (bubble x q) := by
  intro e he
  rcases mem_bubble.mp he with rfl | he
  · exact hx
  · exact hq e he

/-! ## Timeline level -/

theorem update_not_mem {tl tl' : Timeline} {f : Int} {ind : Bool} {team : List Worker} {a : AgentId}
    (h : update tl f ind team = some tl') (ha : a ∉ team.map (·.agent)) : tl' a = tl a := by
  induction team generalizing tl with
  | nil => simp [update] at h; rw [h]
  | cons w ws ih =>
    unfold update at h
    simp only [Option.bind_eq_bind, Option.bind_eq_some_iff] at h
    obtain ⟨q, hq, q', hq', h⟩ := h
    simp only [List.map_cons, List.mem_cons, not_or] at ha
    rw [ih h ha.2]
    unfold set; rw [if_neg ha.1]

/-- What `update` does to the release list of one member of the team. -/
theorem update_mem {tl tl' : Timeline} {f : Int} {ind : Bool} {team : List Worker} {w : Worker}
    (h : update tl f ind team = some tl') (hnd : (team.map (·.agent)).Nodup) (hw : w ∈ team) :
    ∃ q q', tl w.agent = some q ∧ tl' w.agent = some q' ∧
      stepQueue ind q w.count f = some q' := by
  induction team generalizing tl with
  | nil => cases hw
  | cons v vs ih =>
    unfold update at h
    simp only [Option.bind_eq_bind, Option.bind_eq_some_iff] at h
    obtain ⟨q, hq, q', hq', h⟩ := h
    simp only [List.map_cons, List.nodup_cons] at hnd
    rcases List.mem_cons.mp hw with rfl | hw
    · refine ⟨q, q', hq, ?_, hq'⟩
      rw [update_not_mem h hnd.1]; simp [set]
    · obtain ⟨p, p', hp, hp', h1⟩ := ih h hnd.2 hw
      refine ⟨p, p', ?_, hp', h1⟩
      have hne : w.agent ≠ v.agent := by
        intro he; exact hnd.1 (he ▸ List.mem_map_of_mem hw)
      simpa [set, hne] using hp

theorem grab_le {q : Queue} {n acc r : Int} (h : grab q n acc = some r) : acc ≤ r := by
  induction q generalizing n acc with
  | nil =>
    by_cases hn : 0 < n
    · rw [grab_nil _ hn] at h; cases h
    · rw [grab_nonpos _ _ (by omega)] at h; cases h; omega
  | cons e q ih =>
    by_cases hn : 0 < n
    · rw [grab_cons _ _ _ hn] at h
      have := ih h; omega
    · rw [grab_nonpos _ _ (by omega)] at h; cases h; omega

theorem ask_le {ind : Bool} {q : Queue} {n acc r : Int} (h : ask ind q n acc = some r) : acc ≤ r := by
  unfold ask at h
  split at h
  · simp only [Option.map_eq_some_iff] at h
    obtain ⟨x, _, rfl⟩ := h; omega
  · exact grab_le h

theorem findMinStart_le {tl : Timeline} {ind : Bool} {team : List Worker} {acc r : Int}
    (h : findMinStart tl ind team acc = some r) : acc ≤ r := by
  induction team generalizing acc with
  | nil => simp [findMinStart] at h; omega
  | cons w ws ih =>
    unfold findMinStart at h
    simp only [Option.bind_eq_bind, Option.bind_eq_some_iff] at h
    obtain ⟨q, hq, a', ha', h⟩ := h
    have := ih h
    have := ask_le ha'
    omega

/-- What a successful `findMinStart` says about each member of the team. -/
theorem findMinStart_mem {tl : Timeline} {ind : Bool} {team : List Worker} {acc r : Int} {w : Worker}
    (h : findMinStart tl ind team acc = some r) (hw : w ∈ team) :
    ∃ q a' r', tl w.agent = some q ∧ acc ≤ a' ∧ r' ≤ r ∧ ask ind q w.count a' = some r' := by
  induction team generalizing acc with
  | nil => cases hw
  | cons v vs ih =>
    unfold findMinStart at h
    simp only [Option.bind_eq_bind, Option.bind_eq_some_iff] at h
    obtain ⟨q, hq, a', ha', h⟩ := h
    rcases List.mem_cons.mp hw with rfl | hw
    · exact ⟨q, acc, a', hq, Int.le_refl _, findMinStart_le h, ha'⟩
    · obtain ⟨q1, a1, r1, h1, h2, h3, h4⟩ := ih h hw
      have := ask_le ha'
      exact ⟨q1, a1, r1, h1, by omega, h3, h4⟩

/-- The reported time is the requested one or the answer for some member of the team. -/
theorem findMinStart_attained {tl : Timeline} {ind : Bool} {team : List Worker} {acc r : Int}
    (h : findMinStart tl ind team acc = some r) :
    r = acc ∨ ∃ w ∈ team, ∃ q a', tl w.agent = some q ∧ acc ≤ a' ∧ a' < r ∧ ask ind q w.count a' = some r := by
  induction team generalizing acc with
  | nil => simp [findMinStart] at h; exact Or.inl h.symm
  | cons v vs ih =>
    unfold findMinStart at h
    simp only [Option.bind_eq_bind, Option.bind_eq_some_iff] at h
    obtain ⟨q, hq, a', ha', h⟩ := h
    have hle := ask_le ha'
    rcases ih h with rfl | ⟨w, hw, q1, a1, h1, h2, h3, h4⟩
    · rcases Int.lt_or_eq_of_le hle with hlt | rfl
      · exact Or.inr ⟨v, by simp, q, acc, hq, Int.le_refl _, hlt, ha'⟩
      · exact Or.inl rfl
    · exact Or.inr ⟨w, by simp [hw], q1, a1, h1, by omega, h3, h4⟩

end Sampo.JIT
