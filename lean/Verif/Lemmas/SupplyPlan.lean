import Verif.Lemmas.Supply

/-! Lemmas about the search for a delivery. -/

namespace Sampo.Supply

open Momentum (Event lastAt available updateState fromLast Inv Sorted FreeIn)

theorem mem_setRoad {d : List (Nat × Int × Int)} {i : Nat} {v : Int × Int} {e : Nat × Int × Int}
    (h : e ∈ setRoad d i v) : e = (i, v) ∨ e ∈ d := by
  unfold setRoad at h
  split at h
  · obtain ⟨x, hx, rfl⟩ := List.mem_map.mp h
    split
    · exact Or.inl rfl
    · exact Or.inr hx
  · rcases List.mem_append.mp h with h | h
    · exact Or.inr h
    · simp at h; exact Or.inl h

theorem setRoad_keys (d : List (Nat × Int × Int)) (i : Nat) (v : Int × Int) :
    (setRoad d i v).map (·.1) = if i ∈ d.map (·.1) then d.map (·.1) else d.map (·.1) ++ [i] := by
  unfold setRoad
  by_cases h : i ∈ d.map (·.1)
  · rw [if_pos h, if_pos]
    · rw [List.map_map]
      apply List.map_congr_left
      intro e _
      simp only [Function.comp_apply]
      split
      · rename_i h; exact h.symm
      · rfl
    · obtain ⟨e, he, rfl⟩ := List.mem_map.mp h
      simp only [List.any_eq_true, decide_eq_true_eq]
      exact ⟨e, he, rfl⟩
  · rw [if_neg h, if_neg]
    · simp
    · simp only [List.any_eq_true, decide_eq_true_eq]
      rintro ⟨e, he, rfl⟩
      exact h (List.mem_map.mpr ⟨e, he, rfl⟩)

theorem setRoad_nodup {d : List (Nat × Int × Int)} {i : Nat} {v : Int × Int} (h : (d.map (·.1)).Nodup) :
    ((setRoad d i v).map (·.1)).Nodup := by
  rw [setRoad_keys]
  split
  · exact h
  · rename_i hi
    exact List.nodup_append.mpr ⟨h, by simp, by intro a ha b hb; simp at hb; subst hb; intro heq; subst heq; exact hi ha⟩

/-- One way of a trip: the roads are different, each is used once, within the times of the way. -/
structure Leg (l : Land) (lo hi : Int) (d : List (Nat × Int × Int)) : Prop where
  nodup : (d.map (·.1)).Nodup
  ok : ∀ e ∈ d, lo ≤ e.2.1 ∧ e.2.2 = e.2.1 + l.overcome e.1 ∧ e.2.2 ≤ hi

theorem moveLoop_leg {l : Land} (hl : ∀ i, 0 < l.overcome i) {tl : Timeline} {batch : Nat} : ∀ {route : List Nat}
    {lo parent finish : Int} {d d' : List (Nat × Int × Int)}, lo ≤ parent → Leg l lo parent d →
    moveLoop l tl batch route parent d = some (finish, d') →
    Leg l lo finish d' ∧ parent ≤ finish ∧ (route ≠ [] → parent < finish) := by
  intro route
  induction route with
  | nil =>
    intro lo parent finish d d' _ hd h
    simp [moveLoop] at h
    obtain ⟨rfl, rfl⟩ := h
    exact ⟨hd, le_refl _, fun h => absurd rfl h⟩
  | cons i is ih =>
    intro lo parent finish d d' hlo hd h
    unfold moveLoop at h
    simp only [Option.bind_eq_some_iff] at h
    obtain ⟨s, hs, start, hst, h⟩ := h
    have hge := findEarliest_ge hst
    have hpos := hl i
    obtain ⟨h1, h2, h3⟩ := ih (lo := lo) (by omega) ⟨setRoad_nodup hd.nodup, by
      intro e he
      rcases mem_setRoad he with rfl | he
      · exact ⟨by dsimp only; omega, rfl, by dsimp only; omega⟩
      · have := hd.ok e he
        exact ⟨this.1, this.2.1, by omega⟩⟩ h
    exact ⟨h1, by omega, fun _ => by omega⟩

theorem move_leg {l : Land} (hl : ∀ i, 0 < l.overcome i) {tl : Timeline} {a b batch : Nat} {parent finish : Int}
    {d : List (Nat × Int × Int)} (h : move l tl a b parent batch = some (finish, d)) :
    Leg l parent finish d ∧ parent < finish := by
  unfold move at h
  split at h
  · simp at h
  · rename_i hne
    obtain ⟨h1, _, h3⟩ := moveLoop_leg hl (le_refl parent) ⟨by simp, by simp⟩ h
    exact ⟨h1, h3 hne⟩

/-- What is known about an offer for a start of the trip. -/
structure OfferOk (l : Land) (start : Int) (o : Offer) : Prop where
  later : start ≤ o.start
  ahead : 0 < o.ahead
  back : 0 < o.back
  batch : 0 < o.batch
  thither : Leg l start (start + o.ahead) o.thither
  hither : Leg l (start + o.ahead) (start + o.ahead + o.back) o.hither

theorem offer_ok {l : Land} (hl : ∀ i, 0 < l.overcome i) {tl : Timeline} {platform : Nat} {mats : List Mat} {start : Int}
    {d : Depot} {o : Offer} (h : offer l tl platform mats start d = some o) : o.depot = d ∧ OfferOk l start o := by
  unfold offer at h
  simp only [Option.bind_eq_some_iff] at h
  obtain ⟨need, _, h⟩ := h
  split at h
  · simp at h
  · rename_i hb
    simp only [Option.bind_eq_some_iff, Option.map_eq_some_iff] at h
    obtain ⟨go, hgo, ret, hret, s, hs, t, ht, rfl⟩ := h
    obtain ⟨g1, g2⟩ := move_leg hl hgo
    obtain ⟨r1, r2⟩ := move_leg hl hret
    have := findEarliest_ge ht
    refine ⟨rfl, by dsimp only; omega, by dsimp only; omega, by dsimp only; omega, by dsimp only; omega, ?_, ?_⟩
    · dsimp only
      rw [show start + (go.1 - start) = go.1 by omega]; exact g1
    · dsimp only
      rw [show start + (go.1 - start) = go.1 by omega, show go.1 + (ret.1 - go.1) = ret.1 by omega]; exact r1

theorem offers_mem {l : Land} {tl : Timeline} {platform : Nat} {mats : List Mat} {start : Int} {ds : List Depot} :
    ∀ {os : List Offer}, offers l tl platform mats start ds = some os →
    ∀ o ∈ os, ∃ d ∈ ds, offer l tl platform mats start d = some o := by
  induction ds with
  | nil => intro os h o ho; simp [offers] at h; subst h; simp at ho
  | cons d ds ih =>
    intro os h o ho
    unfold offers at h
    simp only [Option.bind_eq_some_iff, Option.map_eq_some_iff] at h
    obtain ⟨x, hx, xs, hxs, rfl⟩ := h
    rcases List.mem_cons.mp ho with rfl | ho
    · exact ⟨d, by simp, hx⟩
    · obtain ⟨d', h1, h2⟩ := ih hxs o ho
      exact ⟨d', by simp [h1], h2⟩

theorem foldl_choose {deadline : Int} : ∀ {os : List Offer} {best : Option Offer},
    os.foldl (choose deadline) best = best ∨ ∃ o ∈ os, os.foldl (choose deadline) best = some o := by
  intro os
  induction os with
  | nil => intro best; exact Or.inl rfl
  | cons o os ih =>
    intro best
    rw [List.foldl_cons]
    have hc : choose deadline best o = best ∨ choose deadline best o = some o := by
      unfold choose; split
      · exact Or.inr rfl
      · exact Or.inl rfl
    rcases ih (best := choose deadline best o) with h | ⟨x, hx, h⟩
    · rw [h]
      rcases hc with hc | hc
      · exact Or.inl hc
      · exact Or.inr ⟨o, by simp, hc⟩
    · exact Or.inr ⟨x, by simp [hx], h⟩

/-- The offer stems from one of the depots and a moment from zero on. -/
def Offered (l : Land) (tl : Timeline) (platform : Nat) (mats : List Mat) (ds : List Depot) (o : Offer) : Prop :=
  ∃ start, 0 ≤ start ∧ ∃ d ∈ ds, offer l tl platform mats start d = some o

theorem searchLoop_spec {l : Land} {tl : Timeline} {platform : Nat} {mats : List Mat} {ds : List Depot} {deadline : Int} :
    ∀ {fuel : Nat} {start : Int} {best res : Option Offer}, -1 ≤ start →
    (∀ o, best = some o → Offered l tl platform mats ds o) →
    searchLoop l tl platform mats ds deadline fuel start best = some (some res) →
    (∀ o, res = some o → Offered l tl platform mats ds o ∧ deadline ≤ o.start + o.ahead) := by
  intro fuel
  induction fuel with
  | zero => intro start best res _ _ h; simp [searchLoop] at h
  | succ fuel ih =>
    intro start best res hs hb h
    unfold searchLoop at h
    split at h
    · cases ho : offers l tl platform mats (start + 1) ds with
      | none => rw [ho] at h; simp at h
      | some os =>
        rw [ho] at h
        refine ih (by omega) ?_ h
        intro o hoo
        rcases foldl_choose (deadline := deadline) (os := os) (best := best) with h1 | ⟨x, hx, h1⟩
        · rw [h1] at hoo; exact hb o hoo
        · rw [h1] at hoo; cases hoo
          obtain ⟨d, hd, hdo⟩ := offers_mem ho o hx
          exact ⟨start + 1, by omega, d, hd, hdo⟩
    · rename_i hlt
      simp only [Option.some.injEq] at h
      subst h
      intro o ho
      refine ⟨hb o ho, ?_⟩
      subst ho
      simp only [finishOf] at hlt
      omega

theorem plan_spec {l : Land} {tl : Timeline} {platform : Nat} {deadline : Int} {mats : List Mat} {o : Offer}
    (h : plan l tl platform deadline mats = some o) :
    ∃ d, d ∈ l.depotsFrom platform ∧ canSupply tl mats d = true ∧ deadline ≤ o.start + o.ahead ∧
      ∃ start, 0 ≤ start ∧ offer l tl platform mats start d = some o := by
  unfold plan at h
  simp only [Option.bind_eq_some_iff, id_eq] at h
  obtain ⟨ds, hds, res, ⟨x, hx, rfl⟩, h⟩ := h
  unfold holders at hds
  dsimp only at hds
  split at hds
  · simp at hds
  · cases hds
    obtain ⟨⟨start, h0, d, hd, hdo⟩, hle⟩ := searchLoop_spec (by omega) (by simp) hx o h
    have := List.mem_filter.mp hd
    exact ⟨d, this.1, this.2, hle, start, h0, hdo⟩

/-- Of the offers for one moment: an arrival exactly at the deadline is kept once it is found, and if none arrives before the
deadline the earliest one is chosen. -/
theorem foldl_choose_best {deadline : Int} : ∀ {os : List Offer} {best : Option Offer},
    (finishOf best = deadline ∨ (∃ x ∈ os, x.start + x.ahead = deadline) → finishOf (os.foldl (choose deadline) best) = deadline) ∧
    ((∀ x ∈ os, deadline ≤ x.start + x.ahead) → (∀ x ∈ os, finishOf (os.foldl (choose deadline) best) ≤ x.start + x.ahead) ∧
      (deadline ≤ finishOf best → finishOf (os.foldl (choose deadline) best) ≤ finishOf best)) := by
  intro os
  induction os with
  | nil => intro best; simp
  | cons o os ih =>
    intro best
    rw [List.foldl_cons]
    obtain ⟨h1, h2⟩ := ih (best := choose deadline best o)
    constructor
    · rintro (h | ⟨x, hx, h⟩)
      · refine h1 (Or.inl ?_)
        unfold choose
        rw [if_neg (by omega)]; exact h
      · rcases List.mem_cons.mp hx with rfl | hx
        · refine h1 (Or.inl ?_)
          unfold choose
          split
          · exact h
          · omega
        · exact h1 (Or.inr ⟨x, hx, h⟩)
    · intro hall
      obtain ⟨h3, h4⟩ := h2 (fun x hx => hall x (List.mem_cons_of_mem _ hx))
      have ho := hall o (List.mem_cons_self ..)
      have hc : deadline ≤ finishOf (choose deadline best o) ∧ finishOf (choose deadline best o) ≤ o.start + o.ahead ∧
          (deadline ≤ finishOf best → finishOf (choose deadline best o) ≤ finishOf best) := by
        unfold choose
        split
        · refine ⟨ho, Int.le_refl _, fun _ => ?_⟩
          show o.start + o.ahead ≤ finishOf best
          omega
        · exact ⟨by omega, by omega, fun _ => Int.le_refl _⟩
      have h5 := h4 hc.1
      refine ⟨?_, fun hb => Int.le_trans h5 (hc.2.2 hb)⟩
      intro x hx
      rcases List.mem_cons.mp hx with rfl | hx
      · omega
      · exact h3 x hx

theorem searchLoop_best {l : Land} {tl : Timeline} {platform : Nat} {mats : List Mat} {ds : List Depot} {deadline : Int} :
    ∀ {fuel : Nat} {start : Int} {best : Option Offer} {o : Offer}, -1 ≤ start →
    searchLoop l tl platform mats ds deadline fuel start best = some (some (some o)) → finishOf best < deadline →
    ∃ s os best', 0 ≤ s ∧ offers l tl platform mats s ds = some os ∧ os.foldl (choose deadline) best' = some o := by
  intro fuel
  induction fuel with
  | zero => intro start best res _ h; simp [searchLoop] at h
  | succ fuel ih =>
    intro start best o hs h hb
    unfold searchLoop at h
    rw [if_pos hb] at h
    cases ho : offers l tl platform mats (start + 1) ds with
    | none => rw [ho] at h; simp at h
    | some os =>
      rw [ho] at h
      dsimp only at h
      by_cases hlt : finishOf (os.foldl (choose deadline) best) < deadline
      · exact ih (by omega) h hlt
      · cases fuel with
        | zero => simp [searchLoop] at h
        | succ fuel =>
          unfold searchLoop at h
          rw [if_neg hlt] at h
          simp only [Option.some.injEq] at h
          exact ⟨start + 1, os, best, by omega, ho, h⟩

theorem offers_each {l : Land} {tl : Timeline} {platform : Nat} {mats : List Mat} {start : Int} {ds : List Depot} :
    ∀ {os : List Offer}, offers l tl platform mats start ds = some os →
    ∀ d ∈ ds, ∃ o ∈ os, offer l tl platform mats start d = some o := by
  induction ds with
  | nil => intro os _ d hd; simp at hd
  | cons e ds ih =>
    intro os h d hd
    unfold offers at h
    simp only [Option.bind_eq_some_iff, Option.map_eq_some_iff] at h
    obtain ⟨x, hx, xs, hxs, rfl⟩ := h
    rcases List.mem_cons.mp hd with rfl | hd
    · exact ⟨x, by simp, hx⟩
    · obtain ⟨o, h1, h2⟩ := ih hxs d hd
      exact ⟨o, by simp [h1], h2⟩

theorem plan_best {l : Land} {tl : Timeline} {platform : Nat} {deadline : Int} {mats : List Mat} {o : Offer} (h0 : 0 ≤ deadline)
    (h : plan l tl platform deadline mats = some o) :
    ∃ start, 0 ≤ start ∧ (∀ d ∈ l.depotsFrom platform, canSupply tl mats d = true →
      ∃ x, offer l tl platform mats start d = some x ∧
        (x.start + x.ahead = deadline → o.start + o.ahead = deadline) ∧
        ((∀ d' ∈ l.depotsFrom platform, canSupply tl mats d' = true → ∀ x', offer l tl platform mats start d' = some x' →
          deadline ≤ x'.start + x'.ahead) → o.start + o.ahead ≤ x.start + x.ahead)) := by
  unfold plan at h
  simp only [Option.bind_eq_some_iff, id_eq] at h
  obtain ⟨ds, hds, res, ⟨x, hx, rfl⟩, h⟩ := h
  unfold holders at hds
  dsimp only at hds
  split at hds
  · simp at hds
  · cases hds
    cases h
    obtain ⟨s, os, best, h1, h2, h3⟩ := searchLoop_best (by omega) hx (by simp only [finishOf]; omega)
    refine ⟨s, h1, fun d hd hc => ?_⟩
    obtain ⟨y, hy, hyo⟩ := offers_each h2 d (List.mem_filter.mpr ⟨hd, hc⟩)
    obtain ⟨h4, h5⟩ := foldl_choose_best (deadline := deadline) (os := os) (best := best)
    rw [h3] at h4 h5
    refine ⟨y, hyo, fun he => h4 (Or.inr ⟨y, hy, he⟩), fun hall => (h5 ?_).1 y hy⟩
    intro z hz
    obtain ⟨d', hd', hzo⟩ := offers_mem h2 z hz
    have := List.mem_filter.mp hd'
    exact hall d' this.1 this.2 z hzo

theorem tAdd_inf {t : Int} (h0 : 0 ≤ t) : tAdd t TIME_INF = TIME_INF := by
  unfold tAdd mkTime TIME_INF
  split
  · rfl
  · split <;> omega

/-- The bookings of an offer have proper intervals. -/
theorem bookings_proper {l : Land} {start : Int} {o : Offer} (ho : OfferOk l start o) (h0 : 0 ≤ start)
    (hinf : o.start < TIME_INF) (hl : ∀ i, 0 < l.overcome i) {mats : List Mat} (hm : ∀ m ∈ mats, 0 ≤ m.count) :
    ∀ b ∈ bookings mats o, b.Proper := by
  have h1 := ho.later
  have h2 := ho.ahead
  have h3 := ho.back
  have hroadA : ∀ e ∈ o.thither, Booking.Proper ⟨(.road e.1, vehicles), o.batch, e.2.1, e.2.2⟩ := by
    intro e he
    have := ho.thither.ok e he
    have := hl e.1
    exact ⟨by dsimp only; omega, by dsimp only; omega, by dsimp only; omega⟩
  have hroadB : ∀ e ∈ o.hither, Booking.Proper ⟨(.road e.1, vehicles), o.batch, e.2.1, e.2.2⟩ := by
    intro e he
    have := ho.hither.ok e he
    have := hl e.1
    exact ⟨by dsimp only; omega, by dsimp only; omega, by dsimp only; omega⟩
  intro b hb
  unfold bookings at hb
  simp only [List.mem_append] at hb
  rcases hb with ((hb | hb) | hb) | hb
  · obtain ⟨m, hmm, rfl⟩ := List.mem_map.mp hb
    exact ⟨by dsimp only; omega, by dsimp only; rw [tAdd_inf (by omega)]; exact hinf, hm m hmm⟩
  · simp at hb; subst hb
    exact ⟨by dsimp only; omega, by dsimp only; omega, by simp⟩
  · obtain ⟨e, he, hb⟩ := List.mem_flatMap.mp hb
    rcases List.mem_cons.mp hb with rfl | hb
    · exact hroadA e he
    · obtain ⟨f, hf, rfl⟩ := List.mem_map.mp hb
      exact hroadB f (List.mem_filter.mp hf).1
  · obtain ⟨f, hf, rfl⟩ := List.mem_map.mp hb
    exact hroadB f (List.mem_filter.mp hf).1

end Sampo.Supply
