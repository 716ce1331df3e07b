import Verif.Spec.Zone
import Verif.Lemmas.MomentumSlot

namespace Sampo.Zone

open Momentum (Event add lastAt fromLast keyLe)

/-- Sorted by the whole key. -/
def Ordered (s : List Event) : Prop := s.Pairwise fun a b => keyLe a b = true

theorem keyLe_trans {a b c : Event} (h1 : keyLe a b = true) (h2 : keyLe b c = true) : keyLe a c = true := by
  unfold keyLe at *
  simp only [Bool.or_eq_true, Bool.and_eq_true, decide_eq_true_eq, beq_iff_eq] at *
  omega

theorem keyLe_total (a b : Event) : keyLe a b = true ∨ keyLe b a = true := by
  unfold keyLe
  simp only [Bool.or_eq_true, Bool.and_eq_true, decide_eq_true_eq, beq_iff_eq]
  omega

theorem keyLe_refl (a : Event) : keyLe a a = true := by
  rcases keyLe_total a a with h | h <;> exact h

theorem Ordered.sorted {s : List Event} (h : Ordered s) : Momentum.Sorted s :=
  List.Pairwise.imp (fun h => Momentum.keyLe_key h) h

theorem add_perm (e : Event) : ∀ s : List Event, (add e s).Perm (e :: s)
  | [] => .refl _
  | x :: xs => by
    unfold add
    by_cases h : keyLe x e = true
    · rw [if_pos h]
      exact ((add_perm e xs).cons x).trans (.swap e x xs)
    · rw [if_neg h]

theorem add_ordered (e : Event) : ∀ {s : List Event}, Ordered s → Ordered (add e s)
  | [], _ => List.pairwise_singleton _ _
  | x :: xs, h => by
    obtain ⟨h1, h2⟩ := List.pairwise_cons.mp h
    unfold add
    by_cases hx : keyLe x e = true
    · rw [if_pos hx]
      refine List.pairwise_cons.mpr ⟨fun y hy => ?_, add_ordered e h2⟩
      rcases Momentum.mem_add.mp hy with rfl | hy
      · exact hx
      · exact h1 y hy
    · rw [if_neg hx]
      have hex := (keyLe_total x e).resolve_left hx
      refine List.pairwise_cons.mpr ⟨fun y hy => ?_, h⟩
      rcases List.mem_cons.mp hy with rfl | hy
      · exact hex
      · exact keyLe_trans hex (h1 y hy)

/-- The last event at or before a moment is the largest one. -/
theorem lastAt_largest : ∀ {s : List Event}, Ordered s → ∀ {t : Int} {l : Event}, lastAt s t = some l →
    ∀ e ∈ s, e.key ≤ t → keyLe e l = true
  | [], _, _, _, h, _, _, _ => by cases h
  | x :: xs, ho, t, l, h, e, he, hk => by
    obtain ⟨h1, h2⟩ := List.pairwise_cons.mp ho
    unfold lastAt at h
    by_cases hx : x.key ≤ t
    · rw [if_pos hx] at h
      cases hl : lastAt xs t with
      | none =>
        rw [hl] at h
        have hxl : x = l := by simpa using h
        rcases List.mem_cons.mp he with rfl | he
        · rw [hxl]; exact keyLe_refl _
        · have := Momentum.lastAt_none (Ordered.sorted h2) hl e he
          omega
      | some l' =>
        rw [hl] at h
        have hll : l' = l := by simpa using h
        subst hll
        rcases List.mem_cons.mp he with rfl | he
        · exact h1 l' (Momentum.lastAt_mem hl).1
        · exact lastAt_largest h2 hl e he hk
    · rw [if_neg hx] at h; cases h

open Classical in
/-- The last event at or before a moment after an insertion. -/
theorem lastAt_add (e : Event) : ∀ {s : List Event}, Ordered s → ∀ t : Int,
    lastAt (add e s) t = if e.key ≤ t ∧ ∀ x ∈ s, x.key ≤ t → keyLe x e = true then some e else lastAt s t
  | [], _, t => by
    by_cases h : e.key ≤ t <;> simp [add, lastAt, h]
  | x :: xs, ho, t => by
    obtain ⟨h1, h2⟩ := List.pairwise_cons.mp ho
    unfold add
    by_cases hx : keyLe x e = true
    · rw [if_pos hx]
      show (if x.key ≤ t then (lastAt (add e xs) t).or (some x) else none) = _
      rw [lastAt_add e h2 t]
      by_cases hxt : x.key ≤ t
      · rw [if_pos hxt]
        by_cases hc : e.key ≤ t ∧ ∀ y ∈ xs, y.key ≤ t → keyLe y e = true
        · have hc' : ∀ y ∈ x :: xs, y.key ≤ t → keyLe y e = true := by
            intro y hy hyt
            rcases List.mem_cons.mp hy with rfl | hy
            · exact hx
            · exact hc.2 y hy hyt
          rw [if_pos hc, if_pos ⟨hc.1, hc'⟩, Option.some_or]
        · rw [if_neg hc, if_neg]
          · simp only [lastAt, hxt, if_true]
          · rintro ⟨k1, k2⟩
            exact hc ⟨k1, fun y hy => k2 y (List.mem_cons_of_mem _ hy)⟩
      · rw [if_neg hxt, if_neg]
        · show _ = (if x.key ≤ t then (lastAt xs t).or (some x) else none)
          rw [if_neg hxt]
        · rintro ⟨k1, _⟩
          have := Momentum.keyLe_key hx
          omega
    · rw [if_neg hx]
      have hex := Momentum.keyLe_key ((keyLe_total x e).resolve_left hx)
      show (if e.key ≤ t then (lastAt (x :: xs) t).or (some e) else none) = _
      by_cases het : e.key ≤ t
      · rw [if_pos het]
        cases hl : lastAt (x :: xs) t with
        | none =>
          have hc' : ∀ y ∈ x :: xs, y.key ≤ t → keyLe y e = true := by
            intro y hy hyt
            have := Momentum.lastAt_none (Ordered.sorted ho) hl y hy
            omega
          rw [if_pos ⟨het, hc'⟩]; rfl
        | some l =>
          rw [if_neg]
          · rfl
          · rintro ⟨_, k2⟩
            have hxt : x.key ≤ t := by
              by_contra hxt
              unfold lastAt at hl
              rw [if_neg hxt] at hl; cases hl
            exact hx (k2 x List.mem_cons_self hxt)
      · rw [if_neg het, if_neg fun h => het h.1]
        show none = (if x.key ≤ t then (lastAt xs t).or (some x) else none)
        rw [if_neg (by omega)]

theorem matchStatus_iff {s r : Int} : matchStatus s r = true ↔ r = 0 ∨ s = r := by unfold matchStatus; simp

/-! ### The search for a slot -/

theorem lastWrong_none {r end_ : Int} : ∀ {s : List Event}, Momentum.Sorted s → lastWrong r end_ s = none →
    ∀ e ∈ s, e.key ≤ end_ → matchStatus e.count r = true
  | [], _, _, _, he, _ => by cases he
  | x :: xs, hs, h, e, he, hk => by
    obtain ⟨h1, h2⟩ := List.pairwise_cons.mp hs
    have hxe : x.key ≤ end_ := by
      rcases List.mem_cons.mp he with rfl | he
      · exact hk
      · exact le_trans (h1 e he) hk
    unfold lastWrong at h
    rw [if_pos hxe, Option.or_eq_none_iff] at h
    rcases List.mem_cons.mp he with rfl | he
    · by_contra hm
      rw [if_neg hm] at h
      cases h.2
    · exact lastWrong_none h2 h.1 e he hk

theorem lastWrong_some {r end_ : Int} : ∀ {s s' : List Event}, lastWrong r end_ s = some s' →
    ∃ pre x, s = pre ++ x :: s'
  | [], _, h => by cases h
  | x :: xs, s', h => by
    unfold lastWrong at h
    by_cases hx : x.key ≤ end_
    · rw [if_pos hx] at h
      cases hr : lastWrong r end_ xs with
      | none =>
        rw [hr] at h
        by_cases hm : matchStatus x.count r = true
        · rw [if_pos hm] at h; cases h
        · rw [if_neg hm] at h
          have : xs = s' := by simpa using h
          exact ⟨[], x, by rw [this]; rfl⟩
      | some s'' =>
        rw [hr] at h
        have : s'' = s' := by simpa using h
        obtain ⟨pre, y, hy⟩ := lastWrong_some hr
        exact ⟨x :: pre, y, by rw [hy, this]; rfl⟩
    · rw [if_neg hx] at h; cases h

/-- The conditions on the events of a zone that the search needs: they are sorted, the first one is the initial one, and every
start has a later finish. -/
structure Proper (s : List Event) : Prop where
  ordered : Ordered s
  initial : ∃ x xs, s = x :: xs ∧ x.type = .initial ∧ x.time = 0 ∧ ∀ e ∈ xs, e.type ≠ .initial ∧ 0 ≤ e.time
  paired : ∀ x ∈ s, x.type = .start → ∃ y ∈ s, y.type = .finish ∧ keyLe y x = false

theorem key_of_ne {e : Event} (h : e.type ≠ .initial) : e.key = e.time := by
  unfold Event.key; rw [if_neg h]

theorem key_of_initial {e : Event} (h : e.type = .initial) : e.key = -1 := by
  unfold Event.key; rw [if_pos h]

namespace Proper

variable {s : List Event} (hp : Proper s)
include hp

theorem time_nonneg {e : Event} (he : e ∈ s) : 0 ≤ e.time := by
  obtain ⟨x, xs, rfl, _, hx2, hx3⟩ := hp.initial
  rcases List.mem_cons.mp he with rfl | he
  · omega
  · exact (hx3 e he).2

theorem key_le_time {e : Event} (he : e ∈ s) : e.key ≤ e.time := by
  by_cases h : e.type = .initial
  · rw [key_of_initial h]; have := hp.time_nonneg he; omega
  · rw [key_of_ne h]

theorem time_le {e : Event} (he : e ∈ s) {t : Int} (ht : 0 ≤ t) (hk : e.key ≤ t) : e.time ≤ t := by
  obtain ⟨x, xs, rfl, _, hx2, hx3⟩ := hp.initial
  rcases List.mem_cons.mp he with rfl | he
  · omega
  · rw [key_of_ne (hx3 e he).1] at hk; exact hk

theorem lastAt_some {t : Int} (ht : 0 ≤ t) : ∃ l, lastAt s t = some l := by
  cases h : lastAt s t with
  | some l => exact ⟨l, rfl⟩
  | none =>
    obtain ⟨x, xs, rfl, hx1, _, _⟩ := hp.initial
    have := Momentum.lastAt_none (Ordered.sorted hp.ordered) h x List.mem_cons_self
    rw [key_of_initial hx1] at this
    omega

theorem last_time {l : Event} (hl : s.getLast? = some l) {e : Event} (he : e ∈ s) : e.time ≤ l.time := by
  obtain ⟨pre, rfl⟩ := List.getLast?_eq_some_iff.mp hl
  have hlm : l ∈ pre ++ [l] := by simp
  have hk : e.key ≤ l.key := by
    rcases List.mem_append.mp he with he | he
    · exact Momentum.keyLe_key ((List.pairwise_append.mp hp.ordered).2.2 e he l (by simp))
    · rw [List.mem_singleton.mp he]
  exact hp.time_le he (hp.time_nonneg hlm) (le_trans hk (hp.key_le_time hlm))

end Proper

/-- A moment is good for a status: the last event at that moment has it, or there is no later event. -/
def Good (s : List Event) (r t : Int) : Prop :=
  (∃ l, lastAt s t = some l ∧ matchStatus l.count r = true) ∨ ∀ e ∈ s, e.time ≤ t

theorem valid_of_all {s : List Event} (hp : Proper s) {t exec r : Int} (ht : 0 ≤ t) (h : ∀ e ∈ s, e.time ≤ t) :
    valid t exec r s = true := by
  obtain ⟨l, hl⟩ := hp.lastAt_some ht
  unfold valid
  rw [hl, Bool.and_eq_true]
  constructor
  · rw [List.all_eq_true]
    intro e he
    have := h e he
    have := hp.key_le_time he
    rw [show (decide (t < e.key)) = false from decide_eq_false (by omega)]; rfl
  · have hlm := (Momentum.lastAt_mem hl).1
    unfold startsWell
    dsimp only
    cases hty : l.type with
    | initial => rfl
    | finish => rfl
    | start =>
      obtain ⟨y, hy, _, hyl⟩ := hp.paired l hlm hty
      have := lastAt_largest hp.ordered hl y hy (le_trans (hp.key_le_time hy) (h y hy))
      rw [this] at hyl; cases hyl

theorem valid_of_match {s : List Event} {t exec r : Int} {l : Event} (hl : lastAt s t = some l)
    (hm : matchStatus l.count r = true) (h : ∀ e ∈ s, t < e.key → e.key ≤ t + exec → matchStatus e.count r = true) :
    valid t exec r s = true := by
  unfold valid
  rw [hl, Bool.and_eq_true]
  constructor
  · rw [List.all_eq_true]
    intro e he
    by_cases h1 : t < e.key ∧ e.key ≤ t + exec
    · rw [h e he h1.1 h1.2]; simp
    · have : (decide (t < e.key) && decide (e.key ≤ t + exec)) = false := by
        rw [Bool.and_eq_false_iff, decide_eq_false_iff_not, decide_eq_false_iff_not]
        by_cases h2 : t < e.key
        · exact Or.inr fun h3 => h1 ⟨h2, h3⟩
        · exact Or.inl h2
      rw [this]; rfl
  · unfold startsWell
    dsimp only
    cases l.type with
    | initial => rfl
    | finish => rfl
    | start => exact hm

/-- The search for a slot: with enough fuel it ends with a good and valid moment. -/
theorem slotLoop_spec {costs : Int → Int → Int} (hc : ∀ a b, 0 ≤ costs a b) {s : List Event} (hp : Proper s) {l : Event}
    (hl : s.getLast? = some l) {parent exec r : Int} (h0 : 0 ≤ parent) (hexec : 0 ≤ exec) :
    ∀ (fuel : Nat) (cur : Int) (pre : List Event) (e : Event) (es : List Event), s = pre ++ e :: es → es.length < fuel →
      e.key ≤ cur → parent ≤ cur → (∀ x ∈ es, cur ≤ x.time) → cur ≤ max parent l.time →
      ∃ t, slotLoop costs parent exec r l.time fuel cur (e :: es) = some t ∧ cur ≤ t ∧ Good s r t ∧ valid t exec r s = true ∧
        t ≤ max cur (max (l.time + 1) (l.time + costs l.count r))
  | 0, _, _, _, _, _, hf, _, _, _, _ => absurd hf (by omega)
  | fuel + 1, cur, pre, e, es, hs, hf, hek, hpc, hes, hcl => by
    have hcur : 0 ≤ cur := le_trans h0 hpc
    have hpre : ∀ y ∈ pre, ∀ x ∈ e :: es, y.key ≤ x.key := fun y hy x hx =>
      Momentum.keyLe_key ((List.pairwise_append.mp (hs ▸ hp.ordered)).2.2 y hy x hx)
    have hsuf : Ordered (e :: es) := (List.pairwise_append.mp (hs ▸ hp.ordered)).2.1
    -- going on with a later event
    have next : ∀ (pre' : List Event) (x : Event) (xs : List Event), e :: es = pre' ++ x :: xs → pre' ≠ [] →
        ∃ t, slotLoop costs parent exec r l.time fuel x.time (x :: xs) = some t ∧ cur ≤ t ∧ Good s r t ∧
          valid t exec r s = true ∧ t ≤ max cur (max (l.time + 1) (l.time + costs l.count r)) := by
      intro pre' x xs heq hne
      have hs' : s = (pre ++ pre') ++ x :: xs := by rw [hs, heq, List.append_assoc]
      have hxm : x ∈ s := by rw [hs']; simp
      obtain ⟨y, ys, rfl⟩ := List.exists_cons_of_ne_nil hne
      have hxes : x ∈ es := by
        have : es = ys ++ x :: xs := (List.cons.inj heq).2
        rw [this]; simp
      have hlen : xs.length < fuel := by
        have := congrArg List.length heq
        simp only [List.length_cons, List.length_append] at this
        omega
      have hxl := hp.last_time hl hxm
      have hcx := hes x hxes
      obtain ⟨t, h1, h2, h3, h4, h5⟩ := slotLoop_spec hc hp hl h0 hexec fuel x.time (pre ++ y :: ys) x xs hs' hlen
        (hp.key_le_time hxm) (by omega) (by
          intro z hz
          have hzm : z ∈ s := by rw [hs']; simp [hz]
          have := Momentum.keyLe_key ((List.pairwise_cons.mp (List.pairwise_append.mp (hs' ▸ hp.ordered)).2.1).1 z hz)
          exact hp.time_le hxm (hp.time_nonneg hzm) (le_trans this (hp.key_le_time hzm))) (by omega)
      exact ⟨t, h1, by omega, h3, h4, by omega⟩
    have hmatch : ∀ {l' : Event}, lastAt s cur = some l' → l' ∈ e :: es := by
      intro l' hl'
      rw [hs, Momentum.lastAt_append rfl (hs ▸ Ordered.sorted hp.ordered) hek] at hl'
      exact (Momentum.lastAt_mem hl').1
    have scanned : ∀ c : Int, (lastWrong r (c + exec) (e :: es) = none → c = cur) → ∃ t,
        (match lastWrong r (c + exec) (e :: es) with
          | none => some c
          | some [] => some (max parent (l.time + 1))
          | some (x :: xs) => slotLoop costs parent exec r l.time fuel x.time (x :: xs)) = some t ∧ cur ≤ t ∧ Good s r t ∧
        valid t exec r s = true ∧ t ≤ max cur (max (l.time + 1) (l.time + costs l.count r)) := by
      intro c hcc
      cases hw : lastWrong r (c + exec) (e :: es) with
      | none =>
        obtain rfl := hcc hw
        have hall := lastWrong_none (Ordered.sorted hsuf) hw
        obtain ⟨l', hl'⟩ := hp.lastAt_some hcur
        have hlm : matchStatus l'.count r = true :=
          hall l' (hmatch hl') (by have := (Momentum.lastAt_mem hl').2; omega)
        refine ⟨c, rfl, le_refl _, Or.inl ⟨l', hl', hlm⟩, valid_of_match hl' hlm ?_, by omega⟩
        intro z hz hz1 hz2
        rw [hs] at hz
        rcases List.mem_append.mp hz with hz | hz
        · have := hpre z hz e List.mem_cons_self
          omega
        · exact hall z hz hz2
      | some rest =>
        cases rest with
        | nil =>
          have hall : ∀ x ∈ s, x.time ≤ max parent (l.time + 1) := fun x hx => by
            have := hp.last_time hl hx
            omega
          refine ⟨max parent (l.time + 1), rfl, by omega, Or.inr hall, valid_of_all hp (by omega) hall, by omega⟩
        | cons x xs =>
          obtain ⟨pre', y, hy⟩ := lastWrong_some hw
          exact next (pre' ++ [y]) x xs (by rw [hy]; simp) (by simp)
    unfold slotLoop
    dsimp only
    by_cases hm : matchStatus e.count r = true
    · rw [if_pos hm]
      exact scanned cur fun _ => rfl
    · rw [if_neg hm]
      cases es with
      | nil =>
        dsimp only
        have hel : e = l := by
          rw [hs, List.getLast?_append] at hl
          simpa using hl
        subst hel
        have hall : ∀ x ∈ s, x.time ≤ cur + max 0 (costs e.count r - (cur - e.time)) := fun x hx => by
          have := hp.last_time hl hx
          have := hp.time_le (e := e) (by rw [hs]; simp) hcur hek
          omega
        refine ⟨_, rfl, by omega, Or.inr hall, valid_of_all hp (by omega) hall, by omega⟩
      | cons x xs =>
        dsimp only
        by_cases hb : (decide (e.type = .start) || balanced (e :: x :: xs)) = true
        · rw [if_pos hb]
          exact next [e] x xs rfl (by simp)
        · rw [if_neg hb]
          refine scanned (cur + costs e.count r) fun hw => ?_
          have := hc e.count r
          exact absurd (lastWrong_none (Ordered.sorted hsuf) hw e List.mem_cons_self (by omega)) hm

end Sampo.Zone
