import Verif.Spec.Supply
import Verif.Lemmas.MomentumHistory
import Verif.Lemmas.MomentumSlot
import Verif.Lemmas.Time

/-! Lemmas about the supply timeline: bookings. -/

namespace Sampo.Supply

open Momentum (Event lastAt available updateState fromLast Inv Sorted FreeIn)

/-! ## Bookings -/

/-- A booking with a proper interval and count. -/
def Booking.Proper (b : Booking) : Prop := 0 ≤ b.start ∧ b.start < b.finish ∧ 0 ≤ b.count

/-- What is known about the list of a resource after some bookings. -/
structure KeyInv (bs : List Booking) (k : Place × Nat) (cap idx : Int) (s : List Event) : Prop extends Inv cap idx s where
  exact_ : ∀ t, 0 ≤ t → available s t = some (cap - inUse bs k t)
  room : 0 ≤ cap → ∀ t, 0 ≤ t → inUse bs k t ≤ cap

theorem inUse_cons (b : Booking) (bs : List Booking) (k : Place × Nat) (t : Int) :
    inUse (b :: bs) k t = (if b.key = k ∧ b.start ≤ t ∧ t < b.finish then b.count else 0) + inUse bs k t := by
  unfold inUse
  rw [List.foldr_cons]
  split <;> simp

theorem inUse_append (bs cs : List Booking) (k : Place × Nat) (t : Int) :
    inUse (bs ++ cs) k t = inUse bs k t + inUse cs k t := by
  induction bs with
  | nil => simp [inUse]
  | cons b bs ih => rw [List.cons_append, inUse_cons, inUse_cons, ih]; omega

theorem inUse_perm {bs cs : List Booking} (h : bs.Perm cs) (k : Place × Nat) (t : Int) : inUse bs k t = inUse cs k t := by
  induction h with
  | nil => rfl
  | cons b _ ih => rw [inUse_cons, inUse_cons, ih]
  | swap a b l => simp only [inUse_cons]; omega
  | trans _ _ h1 h2 => rw [h1, h2]

/-- All lists of a timeline follow the bookings. -/
def Follows (l : Land) (tl : Timeline) (bs : List Booking) : Prop :=
  ∀ k, (l.initial k = none → tl.states k = none) ∧
    ∀ cap, l.initial k = some cap → ∃ s, tl.states k = some s ∧ KeyInv bs k cap tl.taskIndex s

theorem follows_init (l : Land) : Follows l (Timeline.init l) [] := by
  intro k
  refine ⟨fun h => by simp [Timeline.init, h], fun cap h => ⟨fresh cap, by simp [Timeline.init, h], ?_⟩⟩
  refine ⟨by simpa [fresh, Timeline.init] using Momentum.inv_init, ?_, ?_⟩
  · intro t ht
    have : Event.key ⟨-1, .initial, 0, cap⟩ ≤ t := by simp [Event.key]; omega
    simp [available, lastAt, fresh, this, inUse]
  · intro hc t _; simpa [inUse] using hc

theorem follows_book {l : Land} {tl tl' : Timeline} {bs : List Booking} {b : Booking} (h : Follows l tl bs)
    (hb : b.Proper) (hbk : tl.book b = some tl') : Follows l tl' (b :: bs) := by
  unfold Timeline.book at hbk
  simp only [Option.bind_eq_some_iff, Option.map_eq_some_iff] at hbk
  obtain ⟨s, hs, s', hs', rfl⟩ := hbk
  intro k
  by_cases hk : k = b.key
  · subst hk
    constructor
    · intro hn; rw [(h b.key).1 hn] at hs; simp at hs
    · intro cap hcap
      obtain ⟨s0, hs0, hinv⟩ := (h b.key).2 cap hcap
      rw [hs] at hs0; cases hs0
      obtain ⟨hinv', href⟩ := Momentum.updateState_spec hinv.toInv hb.1 hb.2.1 hb.2.2 hs'
      refine ⟨s', by simp, by exact_mod_cast hinv', ?_, ?_⟩
      · intro t ht
        obtain ⟨v, hv, hv', _⟩ := href t ht
        rw [hinv.exact_ t ht] at hv; cases hv
        rw [hv', inUse_cons]
        congr 1
        by_cases hin : b.start ≤ t ∧ t < b.finish
        · simp only [hin, and_self, if_true]; omega
        · simp only [hin, and_false, if_false]; omega
      · intro hc t ht
        obtain ⟨v, hv, _, hle⟩ := href t ht
        rw [hinv.exact_ t ht] at hv; cases hv
        rw [inUse_cons]
        by_cases hin : b.start ≤ t ∧ t < b.finish
        · have := hle hin
          simp only [hin, and_self, if_true]; omega
        · simp only [hin, and_false, if_false]; have := hinv.room hc t ht; omega
  · have hu : ∀ t, inUse (b :: bs) k t = inUse bs k t := by
      intro t; rw [inUse_cons, if_neg (fun hh => hk hh.1.symm)]; simp
    constructor
    · intro hn
      show Function.update tl.states b.key (some s') k = none
      rw [Function.update_of_ne hk]; exact (h k).1 hn
    · intro cap hcap
      obtain ⟨s0, hs0, hinv⟩ := (h k).2 cap hcap
      refine ⟨s0, ?_, ?_, ?_, ?_⟩
      · show Function.update tl.states b.key (some s') k = some s0
        rw [Function.update_of_ne hk]; exact hs0
      · have hm := hinv.toInv.mono (j := (tl.taskIndex : Int) + 1) (by omega)
        exact_mod_cast hm
      · intro t ht; rw [hu]; exact hinv.exact_ t ht
      · intro hc t ht; rw [hu]; exact hinv.room hc t ht

theorem follows_bookAll {l : Land} {cs : List Booking} : ∀ {tl tl' : Timeline} {bs : List Booking}, Follows l tl bs →
    (∀ b ∈ cs, b.Proper) → tl.bookAll cs = some tl' → Follows l tl' (cs.reverse ++ bs) := by
  induction cs with
  | nil => intro tl tl' bs h _ hb; simp [Timeline.bookAll] at hb; subst hb; simpa using h
  | cons c cs ih =>
    intro tl tl' bs h hp hb
    unfold Timeline.bookAll at hb
    simp only [Option.bind_eq_some_iff] at hb
    obtain ⟨tl1, h1, h2⟩ := hb
    have := ih (follows_book h (hp c (by simp)) h1) (fun b hb => hp b (by simp [hb])) h2
    simpa using this

theorem Follows.perm {l : Land} {tl : Timeline} {bs cs : List Booking} (h : Follows l tl bs) (hp : bs.Perm cs) :
    Follows l tl cs := by
  intro k
  refine ⟨(h k).1, fun cap hcap => ?_⟩
  obtain ⟨s, hs, hinv⟩ := (h k).2 cap hcap
  exact ⟨s, hs, hinv.toInv, fun t ht => by rw [← inUse_perm hp]; exact hinv.exact_ t ht,
    fun hc t ht => by rw [← inUse_perm hp]; exact hinv.room hc t ht⟩

/-- The resource is free for a booking. -/
def Free (tl : Timeline) (b : Booking) : Prop :=
  ∃ s, tl.states b.key = some s ∧ FreeIn s b.count b.start (b.finish - b.start)

/-- Bookings that are free and do not overlap each other all succeed. -/
theorem bookAll_isSome {l : Land} {cs : List Booking} : ∀ {tl : Timeline} {bs : List Booking}, Follows l tl bs →
    (∀ b ∈ cs, b.Proper) → (∀ b ∈ cs, Free tl b) →
    (cs.Pairwise fun a b => a.key = b.key → a.finish ≤ b.start ∨ b.finish ≤ a.start) → ∃ tl', tl.bookAll cs = some tl' := by
  induction cs with
  | nil => intro tl bs _ _ _ _; exact ⟨tl, rfl⟩
  | cons c cs ih =>
    intro tl bs h hp hf hd
    obtain ⟨s, hs, hfree⟩ := hf c (by simp)
    have hc := hp c (by simp)
    obtain ⟨cap, hcap⟩ : ∃ cap, l.initial c.key = some cap := by
      cases hi : l.initial c.key with
      | none => rw [(h c.key).1 hi] at hs; simp at hs
      | some cap => exact ⟨cap, rfl⟩
    obtain ⟨s0, hs0, hinv⟩ := (h c.key).2 cap hcap
    rw [hs] at hs0; cases hs0
    obtain ⟨s', hs'⟩ := (Momentum.updateState_isSome hinv.toInv hc.1 hc.2.1 hc.2.2).mpr hfree
    have hb : tl.book c = some ⟨Function.update tl.states c.key (some s'), tl.taskIndex + 1⟩ := by
      simp [Timeline.book, hs, hs']
    have hfol := follows_book h hc hb
    obtain ⟨_, href⟩ := Momentum.updateState_spec hinv.toInv hc.1 hc.2.1 hc.2.2 hs'
    have hd' := List.pairwise_cons.mp hd
    obtain ⟨tl', htl'⟩ := ih hfol (fun b hb => hp b (by simp [hb])) (by
      intro b hb
      obtain ⟨sb, hsb, hfb⟩ := hf b (by simp [hb])
      have hpb := hp b (by simp [hb])
      by_cases hk : b.key = c.key
      · rw [hk, hs] at hsb; cases hsb
        refine ⟨s', by show Function.update tl.states c.key (some s') b.key = some s'; rw [hk]; simp, ?_⟩
        intro t h1 h2
        obtain ⟨v, hv, hle⟩ := hfb t h1 h2
        have ht0 : 0 ≤ t := by have := hpb.1; omega
        obtain ⟨v', hv', hnew, _⟩ := href t ht0
        rw [hv] at hv'; cases hv'
        refine ⟨v, ?_, hle⟩
        rw [hnew, if_neg]
        rcases hd'.1 b hb hk.symm with h | h <;> omega
      · exact ⟨sb, by show Function.update tl.states c.key (some s') b.key = some sb
                      rw [Function.update_of_ne hk]; exact hsb, hfb⟩) hd'.2
    exact ⟨tl', by simp [Timeline.bookAll, hb, htl']⟩

/-! ## Events come from bookings -/

theorem mem_updateState {idx start end_ n : Int} {s s' : List Event} (h : updateState idx start end_ n s = some s') :
    ∀ e ∈ s', (∃ e0 ∈ s, e.key = e0.key) ∨ e.key = start ∨ e.key = end_ := by
  unfold Momentum.updateState at h
  simp only [Option.bind_eq_some_iff] at h
  obtain ⟨a, ha, h⟩ := h
  split at h
  swap; · simp at h
  simp only [Option.bind_eq_some_iff] at h
  obtain ⟨s1, hd, h⟩ := h
  obtain ⟨rfl, hin⟩ := Momentum.decrement_eq hd
  unfold Momentum.insertPair at h
  simp only [Option.map_eq_some_iff] at h
  obtain ⟨l, hl, rfl⟩ := h
  intro e he
  rcases Momentum.mem_add.mp he with rfl | he
  · right; right; rfl
  · rcases Momentum.mem_add.mp he with rfl | he
    · right; left; rfl
    · obtain ⟨e0, he0, rfl⟩ := List.mem_map.mp he
      exact Or.inl ⟨e0, he0, Momentum.dec_key _ _ _ _⟩

/-- Every event but the first stems from a booking. -/
def EventsFrom (tl : Timeline) (bs : List Booking) : Prop :=
  ∀ k s, tl.states k = some s → ∀ e ∈ s, e.key = -1 ∨ ∃ b ∈ bs, b.key = k ∧ (e.key = b.start ∨ e.key = b.finish)

theorem eventsFrom_init (l : Land) : EventsFrom (Timeline.init l) [] := by
  intro k s hs e he
  simp only [Timeline.init, Option.map_eq_some_iff] at hs
  obtain ⟨c, _, rfl⟩ := hs
  simp [fresh] at he; subst he
  exact Or.inl rfl

theorem eventsFrom_book {tl tl' : Timeline} {bs : List Booking} {b : Booking} (h : EventsFrom tl bs)
    (hbk : tl.book b = some tl') : EventsFrom tl' (b :: bs) := by
  unfold Timeline.book at hbk
  simp only [Option.bind_eq_some_iff, Option.map_eq_some_iff] at hbk
  obtain ⟨s, hs, s', hs', rfl⟩ := hbk
  intro k sk hk e he
  dsimp only at hk
  by_cases hkb : k = b.key
  · subst hkb
    rw [Function.update_self] at hk; cases hk
    rcases mem_updateState hs' e he with ⟨e0, he0, heq⟩ | h1 | h1
    · rcases h b.key s hs e0 he0 with h2 | ⟨c, hc, h2⟩
      · left; omega
      · right; exact ⟨c, by simp [hc], by rw [heq]; exact h2⟩
    · right; exact ⟨b, by simp, rfl, Or.inl h1⟩
    · right; exact ⟨b, by simp, rfl, Or.inr h1⟩
  · rw [Function.update_of_ne hkb] at hk
    rcases h k sk hk e he with h2 | ⟨c, hc, h2⟩
    · exact Or.inl h2
    · exact Or.inr ⟨c, by simp [hc], h2⟩

theorem eventsFrom_bookAll {cs : List Booking} : ∀ {tl tl' : Timeline} {bs : List Booking}, EventsFrom tl bs →
    tl.bookAll cs = some tl' → EventsFrom tl' (cs.reverse ++ bs) := by
  induction cs with
  | nil => intro tl tl' bs h hb; simp [Timeline.bookAll] at hb; subst hb; simpa using h
  | cons c cs ih =>
    intro tl tl' bs h hb
    unfold Timeline.bookAll at hb
    simp only [Option.bind_eq_some_iff] at hb
    obtain ⟨tl1, h1, h2⟩ := hb
    have := ih (eventsFrom_book h h1) h2
    simpa using this

theorem EventsFrom.mono {tl : Timeline} {bs cs : List Booking} (h : EventsFrom tl bs) (hs : ∀ b ∈ bs, b ∈ cs) :
    EventsFrom tl cs := by
  intro k s hk e he
  rcases h k s hk e he with h1 | ⟨b, hb, h1⟩
  · exact Or.inl h1
  · exact Or.inr ⟨b, hs b hb, h1⟩

/-! ## The search for a slot -/

theorem lastShort_eq (n end_ : Int) (s : List Event) : lastShort n end_ s = Momentum.lastShort n (end_ + 1) s := by
  induction s with
  | nil => rfl
  | cons e es ih =>
    unfold lastShort Momentum.lastShort
    rw [ih]
    by_cases h : e.key ≤ end_
    · have h' : e.key < end_ + 1 := by omega
      simp only [h, h', if_true]
    · have h' : ¬ e.key < end_ + 1 := by omega
      simp only [h, h', if_false]

theorem slotLoop_of {n exec last : Int} {top : Event} : ∀ {fuel : Nat} {cur : Int} {rest : List Event} {r : Int},
    Momentum.slotLoop n (exec + 1) last fuel cur rest = some (some r) → slotLoop n exec last top fuel cur rest = some r := by
  intro fuel
  induction fuel with
  | zero => intro cur rest r h; simp [Momentum.slotLoop] at h
  | succ fuel ih =>
    intro cur rest r h
    unfold Momentum.slotLoop at h
    unfold slotLoop
    by_cases hc : cur < last
    · rw [if_pos hc] at h ⊢
      rw [lastShort_eq, show cur + exec + 1 = cur + (exec + 1) by omega]
      cases hs : Momentum.lastShort n (cur + (exec + 1)) rest with
      | none => rw [hs] at h; simpa using h
      | some q =>
        rw [hs] at h
        cases q with
        | nil => simp at h
        | cons e es => exact ih h
    · rw [if_neg hc] at h ⊢
      simpa using h

theorem lastAt_all {s : List Event} {t : Int} (h : ∀ e ∈ s, e.key ≤ t) : lastAt s t = s.getLast? := by
  induction s with
  | nil => rfl
  | cons e es ih =>
    unfold lastAt
    rw [if_pos (h e (by simp)), ih (fun x hx => h x (by simp [hx]))]
    cases es with
    | nil => simp
    | cons x xs =>
      rw [List.getLast?_cons_cons]
      cases hl : (x :: xs).getLast? with
      | none => simp at hl
      | some y => simp

theorem slotLoop_fuel {n exec last : Int} : ∀ {fuel : Nat} {cur : Int} {rest : List Event} {r : Option Int},
    Momentum.slotLoop n exec last fuel cur rest = some r → Momentum.slotLoop n exec last (fuel + 1) cur rest = some r := by
  intro fuel
  induction fuel with
  | zero => intro cur rest r h; simp [Momentum.slotLoop] at h
  | succ fuel ih =>
    intro cur rest r h
    unfold Momentum.slotLoop at h ⊢
    by_cases hc : cur < last
    · rw [if_pos hc] at h ⊢
      cases hs : Momentum.lastShort n (cur + exec) rest with
      | none => rw [hs] at h; simpa using h
      | some q =>
        rw [hs] at h
        cases q with
        | nil => simpa using h
        | cons e es => exact ih h
    · rw [if_neg hc] at h ⊢; exact h

/-- On a resource whose events all lie within the calendar, the search ends, finds a moment from which enough is free, not
before the given moment. -/
theorem findEarliest_spec {cap idx n exec parent : Int} {s : List Event} (hinv : Inv cap idx s) (hn : n ≤ cap)
    (hexec : 0 ≤ exec) (hp : 0 ≤ parent) (hinf : ∀ e ∈ s, e.key < TIME_INF) :
    ∃ r, findEarliest s n parent exec = some r ∧ parent ≤ r ∧ FreeIn s n r (exec + 1) := by
  obtain ⟨r, hr, h1, h2, _⟩ := Momentum.findSlot_spec (exec := exec + 1) hinv hn (by omega) hp
  refine ⟨r, ?_, h1, h2⟩
  have hla := lastAt_all (s := s) (t := TIME_INF - 1) (fun e he => by have := hinf e he; omega)
  unfold Momentum.findSlot at hr
  rw [if_neg (by omega)] at hr
  unfold findEarliest
  rw [hla]
  cases hl : s.getLast? with
  | none => rw [hl] at hr; simp at hr
  | some l =>
    rw [hl] at hr
    simp only [Bool.false_eq_true, if_false] at hr
    have := slotLoop_of (top := l) (slotLoop_fuel hr)
    simp only [Option.bind_some, this]
    rw [if_neg (by omega)]

theorem findEarliest_ge {s : List Event} {n parent exec r : Int} (h : findEarliest s n parent exec = some r) :
    parent ≤ r := by
  unfold findEarliest at h
  simp only [Option.bind_eq_some_iff] at h
  obtain ⟨_, _, _, _, q, _, h⟩ := h
  split at h
  · simp at h
  · cases h; omega

end Sampo.Supply
