import Verif.Lemmas.SupplyLive
import Mathlib.Data.List.Nodup

/-! Lemmas about trips of depots that have enough vehicles. -/

namespace Sampo.Supply

open Momentum (Event lastAt available updateState fromLast Inv Sorted FreeIn)

/-! ## The vehicles of a depot are never booked -/

theorem updateState_zero {idx start end_ : Int} {s s' : List Event} (h : updateState idx start end_ 0 s = some s') {c : Int}
    (hs : ∀ e ∈ s, e.count = c) : ∀ e ∈ s', e.count = c := by
  unfold Momentum.updateState at h
  simp only [Option.bind_eq_some_iff] at h
  obtain ⟨a, ha, h⟩ := h
  split at h
  swap; · simp at h
  simp only [Option.bind_eq_some_iff] at h
  obtain ⟨s1, hd, h⟩ := h
  obtain ⟨rfl, hin⟩ := Momentum.decrement_eq hd
  unfold Momentum.available at ha
  simp only [Option.map_eq_some_iff] at ha
  obtain ⟨e0, he0, rfl⟩ := ha
  have hc0 := hs e0 (Momentum.lastAt_mem he0).1
  have h2 : ∀ e ∈ Momentum.add ⟨idx, .start, start, e0.count - 0⟩ (s.map (Momentum.dec start end_ 0)), e.count = c := by
    intro e he
    rcases Momentum.mem_add.mp he with rfl | he
    · dsimp only; omega
    · obtain ⟨x, hx, rfl⟩ := List.mem_map.mp he
      have := hs x hx
      unfold Momentum.dec; split
      · dsimp only; omega
      · exact this
  unfold Momentum.insertPair at h
  simp only [Option.map_eq_some_iff] at h
  obtain ⟨l, hl, rfl⟩ := h
  have hlc := h2 l (Momentum.lastAt_mem hl).1
  intro e he
  rcases Momentum.mem_add.mp he with rfl | he
  · dsimp only; split <;> omega
  · exact h2 e he

/-- The count of vehicles of each depot has never changed. -/
def Idle (l : Land) (tl : Timeline) : Prop :=
  ∀ i s, tl.states (.depot i, vehicles) = some s → ∃ c, l.initial (.depot i, vehicles) = some c ∧ ∀ e ∈ s, e.count = c

theorem idle_init (l : Land) : Idle l (Timeline.init l) := by
  intro i s hs
  simp only [Timeline.init, Option.map_eq_some_iff] at hs
  obtain ⟨c, hc, rfl⟩ := hs
  exact ⟨c, hc, by simp [fresh]⟩

theorem idle_bookAll {l : Land} : ∀ {cs : List Booking} {tl tl' : Timeline}, Idle l tl →
    (∀ b ∈ cs, ∀ i, b.key = (.depot i, vehicles) → b.count = 0) → tl.bookAll cs = some tl' → Idle l tl' := by
  intro cs
  induction cs with
  | nil => intro tl tl' h _ hb; simp [Timeline.bookAll] at hb; subst hb; exact h
  | cons b bs ih =>
    intro tl tl' h h0 hb
    unfold Timeline.bookAll at hb
    simp only [Option.bind_eq_some_iff] at hb
    obtain ⟨t1, h1, hb⟩ := hb
    refine ih ?_ (fun c hc => h0 c (by simp [hc])) hb
    unfold Timeline.book at h1
    simp only [Option.bind_eq_some_iff, Option.map_eq_some_iff] at h1
    obtain ⟨s, hs, s', hs', rfl⟩ := h1
    intro i x hx
    dsimp only at hx
    by_cases hk : b.key = (.depot i, vehicles)
    · rw [hk, Function.update_self] at hx
      cases hx
      rw [hk] at hs
      obtain ⟨c, hc, hall⟩ := h i s hs
      rw [h0 b (by simp) i hk] at hs'
      exact ⟨c, hc, updateState_zero hs' hall⟩
    · rw [Function.update_of_ne (fun hh => hk hh.symm)] at hx
      exact h i x hx

theorem idle_history {l : Land} {st : State} {log : List Served} (h : History l st log)
    (hm : ∀ s ∈ log, Modest l s.work) : Idle l st.supply := by
  induction h with
  | fresh => exact idle_init l
  | serve hh hd hdel ih =>
    rename_i st log w deadline out
    have hi := ih (fun s hs => hm s (by simp [hs]))
    have hw : Modest l w := hm _ (List.mem_cons_self ..)
    rcases deliver_cases hdel with ⟨h1, _⟩ | ⟨req, hne, hreq, o, use, hp, _, _, hb, _⟩
    · rw [h1]; exact hi
    · refine idle_bookAll hi ?_ hb
      intro b hb' i hk
      unfold bookings at hb'
      simp only [List.mem_append] at hb'
      rcases hb' with ((hb' | hb') | hb') | hb'
      · obtain ⟨m, hmm, rfl⟩ := List.mem_map.mp hb'
        simp at hk
        exact absurd hk.2 (request_nonneg hw hreq m hmm).2
      · simp at hb'; subst hb'; rfl
      · obtain ⟨e, he, hb'⟩ := List.mem_flatMap.mp hb'
        rcases List.mem_cons.mp hb' with rfl | hb'
        · simp at hk
        · obtain ⟨f, hf, rfl⟩ := List.mem_map.mp hb'
          simp at hk
      · obtain ⟨f, hf, rfl⟩ := List.mem_map.mp hb'
        simp at hk

/-! ## A trip for which there are enough vehicles starts when it was planned -/

theorem lastShort_none {n end_ : Int} {s : List Event} (h : ∀ e ∈ s, n ≤ e.count) : lastShort n end_ s = none := by
  induction s with
  | nil => rfl
  | cons e es ih =>
    unfold lastShort
    rw [ih (fun x hx => h x (by simp [hx]))]
    have := h e (by simp)
    rw [if_neg (by omega : ¬ e.count < n)]
    split <;> rfl

theorem fromLast_sub {t : Int} : ∀ {s : List Event}, ∀ e ∈ fromLast s t, e ∈ s
  | [], e, he => by simp [Momentum.fromLast] at he
  | [x], e, he => by simpa [Momentum.fromLast] using he
  | x :: y :: ys, e, he => by
    unfold Momentum.fromLast at he
    split at he
    · exact List.mem_cons_of_mem _ (fromLast_sub e he)
    · exact he

theorem findEarliest_idle {s : List Event} {n parent exec r : Int} (hs : ∀ e ∈ s, n ≤ e.count)
    (h : findEarliest s n parent exec = some r) : r = parent := by
  unfold findEarliest at h
  simp only [Option.bind_eq_some_iff] at h
  obtain ⟨_, _, _, _, q, hq, h⟩ := h
  unfold slotLoop at hq
  rw [lastShort_none (fun e he => hs e (fromLast_sub e he))] at hq
  split at hq
  all_goals
    cases hq
    split at h
    · simp at h
    · cases h; rfl

/-- The number of vehicles needed is at most the fleet if the fleet can carry each of the materials; and that number can. -/
theorem needVehicles_le {d : Depot} {mats : List Mat} (hload : ∀ m ∈ d.load, 0 < m.count) {n : Int}
    (h : needVehicles d mats = some n) (hn : (mats.map (·.name)).Nodup) :
    ((∀ m ∈ d.load, ∀ q ∈ mats, q.name = m.name → q.count ≤ d.fleet * m.count) → n ≤ d.fleet) ∧
    ∀ m ∈ d.load, ∀ q ∈ mats, q.name = m.name → q.count ≤ n * m.count := by
  unfold needVehicles at h
  split at h
  · simp at h
  dsimp only at h
  split at h
  · simp at h
  constructor
  · intro hfit
    have hmx := List.max?_mem h
    obtain ⟨x, hx1, rfl⟩ := List.mem_map.mp hmx
    have hx2 := List.mem_filter.mp hx1
    simp only [List.any_eq_true, decide_eq_true_eq] at hx2
    obtain ⟨hxl, y, hy, hyx⟩ := hx2
    have hpos := hload x hxl
    cases hfd : mats.reverse.find? fun q => q.name = x.name with
    | none =>
      have := List.find?_eq_none.mp hfd y (List.mem_reverse.mpr hy)
      simp at this; exact absurd hyx this
    | some z =>
      simp only [Option.map_some, Option.getD_some]
      have hz := hfit x hxl z (List.mem_reverse.mp (List.mem_of_find?_eq_some hfd)) (by simpa using List.find?_some hfd)
      rw [Int.fdiv_eq_ediv_of_nonneg _ (by omega)]
      have : -(d.fleet : Int) ≤ -z.count / x.count := by
        rw [Int.le_ediv_iff_mul_le hpos, Int.neg_mul]; omega
      omega
  · intro m hm q hq hqm
    have hpos := hload m hm
    have hmem : m ∈ d.load.filter fun m => mats.any fun q => q.name = m.name := by
      refine List.mem_filter.mpr ⟨hm, ?_⟩
      simp only [List.any_eq_true, decide_eq_true_eq]
      exact ⟨q, hq, hqm⟩
    have hle := (List.max?_le_iff h).mp (le_refl n) _ (List.mem_map_of_mem hmem)
    cases hfd : mats.reverse.find? fun q => q.name = m.name with
    | none =>
      have := List.find?_eq_none.mp hfd q (List.mem_reverse.mpr hq)
      simp at this; exact absurd hqm this
    | some z =>
      have hzm : z ∈ mats := List.mem_reverse.mp (List.mem_of_find?_eq_some hfd)
      have hzn : z.name = m.name := by simpa using List.find?_some hfd
      have hzq : z = q := by
        have := List.inj_on_of_nodup_map hn hzm hq (by rw [hzn, hqm])
        exact this
      subst hzq
      rw [hfd] at hle
      simp only [Option.map_some, Option.getD_some] at hle
      rw [Int.fdiv_eq_ediv_of_nonneg _ (by omega)] at hle
      have h1 : -n ≤ -z.count / m.count := by omega
      rw [Int.le_ediv_iff_mul_le hpos, Int.neg_mul] at h1
      omega

theorem offer_trip {l : Land} {tl : Timeline} (hi : Idle l tl) {platform : Nat}
    {mats : List Mat} (hn : (mats.map (·.name)).Nodup) {start : Int} {d : Depot} {o : Offer}
    (h : offer l tl platform mats start d = some o) (hfleet : l.initial (.depot d.id, vehicles) = some (d.fleet : Int))
    (hload : ∀ m ∈ d.load, 0 < m.count)
    (hfit : ∀ m ∈ d.load, ∀ q ∈ mats, q.name = m.name → q.count ≤ d.fleet * m.count) :
    o.start = start ∧ (∀ m ∈ d.load, ∀ q ∈ mats, q.name = m.name → q.count ≤ o.batch * m.count) ∧ o.batch ≤ d.fleet := by
  unfold offer at h
  simp only [Option.bind_eq_some_iff] at h
  obtain ⟨need, hneed, h⟩ := h
  split at h
  · simp at h
  · rename_i hb
    simp only [Option.bind_eq_some_iff, Option.map_eq_some_iff] at h
    obtain ⟨go, hgo, ret, hret, s, hs, t, ht, rfl⟩ := h
    obtain ⟨hle, hcarry⟩ := needVehicles_le hload hneed hn
    have hle := hle hfit
    obtain ⟨c, hc, hall⟩ := hi _ _ hs
    rw [hfleet] at hc; cases hc
    have := findEarliest_idle (fun e he => by rw [hall e he]; exact hle) ht
    refine ⟨by dsimp only; omega, ?_, ?_⟩
    · intro m hm q hq hqm
      have h1 := hcarry m hm q hq hqm
      have hpos := hload m hm
      refine le_trans h1 (Int.mul_le_mul_of_nonneg_right ?_ (by omega))
      dsimp only
      unfold sliceLen
      split <;> omega
    · dsimp only
      unfold sliceLen
      split <;> omega

end Sampo.Supply
