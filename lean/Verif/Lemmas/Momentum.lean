import Verif.Prelude
import Verif.Spec.Momentum

/-! # Facts about the event lists of the momentum timeline -/

namespace Sampo.Momentum

/-- Sorted by key time. -/
def Sorted (s : List Event) : Prop := s.Pairwise fun a b => a.key ≤ b.key

theorem lastAt_mem {s : List Event} {t : Int} {e : Event} (h : lastAt s t = some e) : e ∈ s ∧ e.key ≤ t := by
  induction s with
  | nil => simp [lastAt] at h
  | cons x xs ih =>
    unfold lastAt at h
    split at h
    · cases hx : lastAt xs t with
      | none => simp [hx] at h; subst h; exact ⟨by simp, by assumption⟩
      | some y =>
        simp [hx] at h; subst h
        obtain ⟨h1, h2⟩ := ih hx
        exact ⟨by simp [h1], h2⟩
    · simp at h

theorem lastAt_none {s : List Event} (hs : Sorted s) {t : Int} (h : lastAt s t = none) : ∀ e ∈ s, t < e.key := by
  cases s with
  | nil => simp
  | cons x xs =>
    unfold lastAt at h
    split at h
    · cases hx : lastAt xs t <;> simp [hx] at h
    · intro e he
      rcases List.mem_cons.mp he with rfl | he
      · omega
      · have := (List.pairwise_cons.mp hs).1 e he; omega

/-- Every event not later than `t` is not later than the last one, and not more workers are in a tie after it. -/
theorem lastAt_max {s : List Event} (hs : Sorted s) {t : Int} {l : Event} (h : lastAt s t = some l) :
    ∀ e ∈ s, e.key ≤ t → e.key ≤ l.key := by
  induction s with
  | nil => simp
  | cons x xs ih =>
    have hs' := List.pairwise_cons.mp hs
    unfold lastAt at h
    split at h
    · intro e he het
      cases hx : lastAt xs t with
      | none =>
        simp [hx] at h; subst h
        rcases List.mem_cons.mp he with rfl | he
        · omega
        · have := lastAt_none hs'.2 hx e he; omega
      | some y =>
        simp [hx] at h; subst h
        rcases List.mem_cons.mp he with rfl | he
        · exact hs'.1 _ (lastAt_mem hx).1
        · exact ih hs'.2 hx e he het
    · simp at h

theorem mem_add {e x : Event} {s : List Event} : x ∈ add e s ↔ x = e ∨ x ∈ s := by
  induction s with
  | nil => simp [add]
  | cons y ys ih =>
    unfold add; split
    · simp [ih]; constructor
      · rintro (h | h | h) <;> simp [h]
      · rintro (h | h | h) <;> simp [h]
    · simp

theorem keyLe_key {a b : Event} (h : keyLe a b = true) : a.key ≤ b.key := by
  unfold keyLe at h
  simp only [Bool.or_eq_true, decide_eq_true_eq, Bool.and_eq_true, beq_iff_eq] at h
  rcases h with h | ⟨h, _⟩ <;> omega

theorem keyLe_of_lt {a b : Event} (h : a.key < b.key) : keyLe a b = true := by
  unfold keyLe; simp [h]

theorem lt_of_not_keyLe {y e : Event} (hlast : y.key = e.key → keyLe y e = true) (hy : ¬ keyLe y e = true) :
    e.key < y.key := by
  rcases Int.lt_trichotomy y.key e.key with h | h | h
  · exact absurd (keyLe_of_lt h) hy
  · exact absurd (hlast h) hy
  · exact h

theorem add_sorted {e : Event} {s : List Event} (hs : Sorted s) (hlast : ∀ x ∈ s, x.key = e.key → keyLe x e = true) :
    Sorted (add e s) := by
  induction s with
  | nil => simp [add, Sorted]
  | cons y ys ih =>
    have hs' := List.pairwise_cons.mp hs
    unfold add; split
    · rename_i hy
      refine List.pairwise_cons.mpr ⟨?_, ih hs'.2 (fun x hx => hlast x (by simp [hx]))⟩
      intro x hx
      rcases mem_add.mp hx with rfl | hx
      · exact keyLe_key hy
      · exact hs'.1 x hx
    · rename_i hy
      have hlt : e.key < y.key := lt_of_not_keyLe (hlast y (by simp)) hy
      refine List.pairwise_cons.mpr ⟨?_, hs⟩
      intro x hx
      rcases List.mem_cons.mp hx with rfl | hx
      · omega
      · have := hs'.1 x hx; omega

/-- The effect of an insertion on the last event at any moment. -/
theorem lastAt_add {e : Event} {s : List Event} (hs : Sorted s)
    (hlast : ∀ x ∈ s, x.key = e.key → keyLe x e = true) (t : Int) :
    lastAt (add e s) t =
      if e.key ≤ t then
        match lastAt s t with
        | none => some e
        | some x => if x.key ≤ e.key then some e else some x
      else lastAt s t := by
  induction s with
  | nil => simp [add, lastAt]
  | cons y ys ih =>
    have hs' := List.pairwise_cons.mp hs
    have ih := ih hs'.2 (fun x hx => hlast x (by simp [hx]))
    unfold add; split
    · rename_i hy
      have hye := keyLe_key hy
      unfold lastAt
      rw [ih]
      by_cases h1 : y.key ≤ t
      · by_cases h2 : e.key ≤ t
        · simp only [h1, h2, if_true]
          cases hx : lastAt ys t with
          | none => simp [hye]
          | some x => simp only [Option.some_or]; split <;> rfl
        · simp [h1, h2]
      · have : ¬ e.key ≤ t := by omega
        simp [h1, this]
    · rename_i hy
      have hlt : e.key < y.key := lt_of_not_keyLe (hlast y (by simp)) hy
      rw [lastAt]
      by_cases h2 : e.key ≤ t
      · simp only [h2, if_true]
        cases hx : lastAt (y :: ys) t with
        | none => rfl
        | some x =>
          have hxm := (lastAt_mem hx).1
          have : ¬ x.key ≤ e.key := by
            rcases List.mem_cons.mp hxm with rfl | h
            · omega
            · have := hs'.1 x h; omega
          simp [this]
      · have : ¬ y.key ≤ t := by omega
        simp [h2, lastAt, this]

/-- The effect of the decrement on single events. -/
def dec (start end_ n : Int) (e : Event) : Event :=
  if inside start end_ e then {e with count := e.count - n} else e

theorem dec_key (start end_ n : Int) (e : Event) : (dec start end_ n e).key = e.key := by
  unfold dec; split <;> rfl

theorem decrement_eq {start end_ n : Int} {s s' : List Event} (h : decrement start end_ n s = some s') :
    s' = s.map (dec start end_ n) ∧ ∀ e ∈ s, inside start end_ e = true → n ≤ e.count := by
  induction s generalizing s' with
  | nil => simp [decrement] at h; subst h; simp
  | cons e es ih =>
    unfold decrement at h
    split at h
    · split at h
      · rename_i h1 h2
        simp only [Option.map_eq_some_iff] at h
        obtain ⟨r, hr, rfl⟩ := h
        obtain ⟨h3, h4⟩ := ih hr
        refine ⟨by simp [h3, dec, h1], ?_⟩
        intro x hx hin
        rcases List.mem_cons.mp hx with rfl | hx
        · exact h2
        · exact h4 x hx hin
      · simp at h
    · rename_i h1
      simp only [Option.map_eq_some_iff] at h
      obtain ⟨r, hr, rfl⟩ := h
      obtain ⟨h3, h4⟩ := ih hr
      refine ⟨by simp [h3, dec, h1], ?_⟩
      intro x hx hin
      rcases List.mem_cons.mp hx with rfl | hx
      · exact absurd hin h1
      · exact h4 x hx hin

theorem decrement_some {start end_ n : Int} {s : List Event}
    (h : ∀ e ∈ s, inside start end_ e = true → n ≤ e.count) :
    decrement start end_ n s = some (s.map (dec start end_ n)) := by
  induction s with
  | nil => rfl
  | cons e es ih =>
    have ih := ih (fun x hx => h x (by simp [hx]))
    unfold decrement
    split
    · rename_i h1
      simp [h e (by simp) h1, ih, dec, h1]
    · rename_i h1
      simp [ih, dec, h1]

theorem lastAt_map (f : Event → Event) (hf : ∀ e, (f e).key = e.key) (s : List Event) (t : Int) :
    lastAt (s.map f) t = (lastAt s t).map f := by
  induction s with
  | nil => rfl
  | cons e es ih =>
    simp only [List.map_cons, lastAt, hf, ih]
    split
    · cases lastAt es t <;> simp
    · rfl

theorem sorted_map {f : Event → Event} (hf : ∀ e, (f e).key = e.key) {s : List Event} (hs : Sorted s) :
    Sorted (s.map f) := by
  unfold Sorted
  rw [List.pairwise_map]
  exact hs.imp (fun h => by simpa [hf] using h)

/-- What is known about the event list of one worker type with `cap` workers. -/
structure Inv (cap idx : Int) (s : List Event) : Prop where
  sorted : Sorted s
  seq : ∀ e ∈ s, e.seq < idx
  head : ∃ es, s = ⟨-1, .initial, 0, cap⟩ :: es ∧ ∀ e ∈ es, e.type ≠ .initial ∧ 0 ≤ e.time
  group : s.Pairwise fun a b => a.key = b.key → b.count ≤ a.count
  full : ∀ t, (∀ e ∈ s, e.key ≤ t) → available s t = some cap

theorem inv_init {cap : Int} : Inv cap 0 [⟨-1, .initial, 0, cap⟩] where
  sorted := by simp [Sorted]
  seq := by simp
  head := ⟨[], rfl, by simp⟩
  group := by simp
  full := by intro t h; simp [available, lastAt] at *; exact h

theorem Inv.lastAt_isSome {cap idx : Int} {s : List Event} (h : Inv cap idx s) {t : Int} (ht : 0 ≤ t) :
    ∃ l, lastAt s t = some l := by
  obtain ⟨es, rfl, _⟩ := h.head
  unfold lastAt
  have : Event.key ⟨-1, .initial, 0, cap⟩ ≤ t := by simp [Event.key]; omega
  simp only [this, if_true]
  cases lastAt es t <;> simp

theorem Inv.key_eq {cap idx : Int} {s : List Event} (h : Inv cap idx s) {e : Event} (he : e ∈ s) (hk : 0 ≤ e.key) :
    e.type ≠ .initial ∧ e.key = e.time := by
  obtain ⟨es, rfl, h1⟩ := h.head
  rcases List.mem_cons.mp he with rfl | he
  · simp [Event.key] at hk
  · have := (h1 e he).1
    exact ⟨this, by simp [Event.key, this]⟩

theorem Inv.key_nonneg {cap idx : Int} {s : List Event} (h : Inv cap idx s) {e : Event} (he : e ∈ s) :
    -1 ≤ e.key := by
  obtain ⟨es, rfl, h1⟩ := h.head
  rcases List.mem_cons.mp he with rfl | he
  · simp [Event.key]
  · have := h1 e he
    simp [Event.key, this.1]; omega

/-- Within the events of one moment, the last one has the fewest workers. -/
theorem group_last {s : List Event} (hg : s.Pairwise fun a b => a.key = b.key → b.count ≤ a.count) (hs : Sorted s)
    {t : Int} {l : Event} (h : lastAt s t = some l) : ∀ e ∈ s, e.key = l.key → l.count ≤ e.count := by
  induction s with
  | nil => simp
  | cons x xs ih =>
    have hs' := List.pairwise_cons.mp hs
    have hg' := List.pairwise_cons.mp hg
    unfold lastAt at h
    split at h
    · rename_i hxt
      intro e he hek
      cases hx : lastAt xs t with
      | none =>
        simp [hx] at h; subst h
        rcases List.mem_cons.mp he with rfl | he
        · omega
        · have := lastAt_none hs'.2 hx e he; omega
      | some y =>
        simp [hx] at h; subst h
        rcases List.mem_cons.mp he with rfl | he
        · exact hg'.1 _ (lastAt_mem hx).1 hek
        · exact ih hg'.2 hs'.2 hx e he hek
    · simp at h

theorem add_group {e : Event} {s : List Event} (hs : Sorted s) (hg : s.Pairwise fun a b => a.key = b.key → b.count ≤ a.count)
    (hlast : ∀ x ∈ s, x.key = e.key → keyLe x e = true)
    (hcount : ∀ x ∈ s, x.key = e.key → e.count ≤ x.count) :
    (add e s).Pairwise fun a b => a.key = b.key → b.count ≤ a.count := by
  induction s with
  | nil => simp [add]
  | cons y ys ih =>
    have hg' := List.pairwise_cons.mp hg
    have hs' := List.pairwise_cons.mp hs
    unfold add; split
    · refine List.pairwise_cons.mpr ⟨?_, ih hs'.2 hg'.2 (fun x hx => hlast x (by simp [hx]))
        (fun x hx => hcount x (by simp [hx]))⟩
      intro x hx hk
      rcases mem_add.mp hx with rfl | hx
      · exact hcount y (by simp) hk
      · exact hg'.1 x hx hk
    · rename_i hy
      refine List.pairwise_cons.mpr ⟨?_, hg⟩
      intro x hx hk
      have := lt_of_not_keyLe (hlast y (by simp)) hy
      rcases List.mem_cons.mp hx with rfl | hx
      · omega
      · have := hs'.1 x hx; omega

theorem dec_group {start end_ n : Int} {s : List Event}
    (hg : s.Pairwise fun a b => a.key = b.key → b.count ≤ a.count) :
    (s.map (dec start end_ n)).Pairwise fun a b => a.key = b.key → b.count ≤ a.count := by
  rw [List.pairwise_map]
  refine hg.imp ?_
  intro a b hab hk
  rw [dec_key, dec_key] at hk
  have := hab hk
  unfold dec inside
  rw [hk]
  split <;> simp <;> omega

end Sampo.Momentum
