import Verif.Lemmas.SupplyPlan

/-! Lemmas about histories of deliveries. -/

namespace Sampo.Supply

open Momentum (Event lastAt available updateState fromLast Inv Sorted FreeIn)

theorem request_mem {l : Land} {p : Platforms} {platform : Nat} {time : Int} : ∀ {needs req : List Mat},
    request l p platform time needs = some req → ∀ m ∈ req, ∃ q ∈ needs, q.name = m.name ∧ ∃ s e c,
      p.states (platform, q.name) = some s ∧ lastAt s time = some e ∧ l.capacity platform q.name = some c ∧
      e.count < q.count ∧ m.count = c - e.count := by
  intro needs
  induction needs with
  | nil => intro req h m hm; simp [request] at h; subst h; simp at hm
  | cons q qs ih =>
    intro req h m hm
    unfold request at h
    simp only [Option.bind_eq_some_iff] at h
    obtain ⟨e, ⟨s, hs, he⟩, rest, hrest, h⟩ := h
    by_cases hlt : e.count < q.count
    · rw [if_pos hlt] at h
      simp only [Option.map_eq_some_iff] at h
      obtain ⟨c, hc, rfl⟩ := h
      rcases List.mem_cons.mp hm with rfl | hm
      · exact ⟨q, by simp, rfl, s, e, c, hs, he, hc, hlt, rfl⟩
      · obtain ⟨q', h1, h2⟩ := ih hrest m hm
        exact ⟨q', by simp [h1], h2⟩
    · rw [if_neg hlt] at h
      cases h
      obtain ⟨q', h1, h2⟩ := ih hrest m hm
      exact ⟨q', by simp [h1], h2⟩

theorem request_sublist {l : Land} {p : Platforms} {platform : Nat} {time : Int} : ∀ {needs req : List Mat},
    request l p platform time needs = some req → (req.map (·.name)).Sublist (needs.map (·.name)) := by
  intro needs
  induction needs with
  | nil => intro req h; simp [request] at h; subst h; simp
  | cons q qs ih =>
    intro req h
    unfold request at h
    simp only [Option.bind_eq_some_iff] at h
    obtain ⟨e, _, rest, hrest, h⟩ := h
    by_cases hlt : e.count < q.count
    · rw [if_pos hlt] at h
      simp only [Option.map_eq_some_iff] at h
      obtain ⟨c, hc, rfl⟩ := h
      simpa using ih hrest
    · rw [if_neg hlt] at h
      cases h
      exact (ih hrest).cons _

theorem supply_spec {l : Land} {st : State} {w : Work} {deadline : Int} {mats : List Mat} {out : Outcome} (hm : mats ≠ [])
    (h : supply l st w deadline mats = some out) : ∃ o use, plan l st.supply (l.platform w.id) deadline mats = some o ∧
      platformUse w.needs mats = some use ∧
      st.platforms.takeAll (l.platform w.id) (o.start + o.ahead) use = some out.state.platforms ∧
      st.supply.bookAll (bookings mats o) = some out.state.supply ∧ out.records = recordsOf mats o ∧
      out.time = o.start + o.ahead ∧ out.booked = bookings mats o := by
  unfold supply at h
  rw [if_neg hm] at h
  simp only [Option.bind_eq_some_iff, Option.map_eq_some_iff] at h
  obtain ⟨o, ho, use, hu, p, hp, tl, htl, rfl⟩ := h
  exact ⟨o, use, ho, hu, hp, htl, rfl, rfl, rfl⟩

/-- The three ways a call can end. -/
theorem deliver_cases {l : Land} {st : State} {w : Work} {deadline : Int} {out : Outcome}
    (h : deliver l st w deadline = some out) :
    (out.state.supply = st.supply ∧ out.records = [] ∧ out.booked = [] ∧ out.time = deadline) ∨
    ∃ req, req ≠ [] ∧ request l st.platforms (l.platform w.id) deadline w.needs = some req ∧
      ∃ o use, plan l st.supply (l.platform w.id) deadline req = some o ∧
      platformUse w.needs req = some use ∧
      st.platforms.takeAll (l.platform w.id) (o.start + o.ahead) use = some out.state.platforms ∧
      st.supply.bookAll (bookings req o) = some out.state.supply ∧ out.records = recordsOf req o ∧
      out.time = o.start + o.ahead ∧ out.booked = bookings req o := by
  unfold deliver at h
  split at h
  · cases h; exact Or.inl ⟨rfl, rfl, rfl, rfl⟩
  · simp only [Option.bind_eq_some_iff] at h
    obtain ⟨req, hreq, h⟩ := h
    by_cases hr : req = []
    · rw [if_pos hr] at h
      simp only [Option.bind_eq_some_iff] at h
      obtain ⟨ok, _, h⟩ := h
      split at h
      · simp only [Option.map_eq_some_iff] at h
        obtain ⟨p, _, rfl⟩ := h
        exact Or.inl ⟨rfl, rfl, rfl, rfl⟩
      · unfold supply at h
        rw [if_pos hr] at h
        cases h; exact Or.inl ⟨rfl, rfl, rfl, rfl⟩
    · rw [if_neg hr] at h
      exact Or.inr ⟨req, hr, hreq, supply_spec hr h⟩

theorem request_nonneg {l : Land} {p : Platforms} {w : Work} {time : Int} {req : List Mat} (hw : Modest l w)
    (h : request l p (l.platform w.id) time w.needs = some req) : ∀ m ∈ req, 0 ≤ m.count ∧ m.name ≠ vehicles := by
  intro m hm
  obtain ⟨q, hq, hn, s, e, c, _, _, hc, hlt, hcount⟩ := request_mem h m hm
  obtain ⟨h1, h2, h3⟩ := hw.2 q hq
  have := h3 c hc
  exact ⟨by omega, by rw [← hn]; exact h1⟩

theorem vehicles_booked (mats : List Mat) (o : Offer) :
    ⟨(.depot o.depot.id, vehicles), 0, o.start, o.start + o.back + o.ahead⟩ ∈ bookings mats o := by
  unfold bookings; simp

/-- Facts about the timeline after a history. -/
structure HistoryInv (l : Land) (st : State) (log : List Served) : Prop where
  follows : Follows l st.supply (log.flatMap (·.booked))
  events : EventsFrom st.supply (log.flatMap (·.booked))
  endless : ∀ b ∈ log.flatMap (·.booked), b.key.2 ≠ vehicles → b.finish = TIME_INF
  proper : ∀ b ∈ log.flatMap (·.booked), b.Proper

theorem bookings_endless {mats : List Mat} {o : Offer} (h0 : 0 ≤ o.start) :
    ∀ b ∈ bookings mats o, b.key.2 ≠ vehicles → b.finish = TIME_INF := by
  intro b hb hk
  unfold bookings at hb
  simp only [List.mem_append] at hb
  rcases hb with ((hb | hb) | hb) | hb
  · obtain ⟨m, hmm, rfl⟩ := List.mem_map.mp hb
    exact tAdd_inf h0
  · simp at hb; subst hb; exact absurd rfl hk
  · obtain ⟨e, he, hb⟩ := List.mem_flatMap.mp hb
    rcases List.mem_cons.mp hb with rfl | hb
    · exact absurd rfl hk
    · obtain ⟨f, hf, rfl⟩ := List.mem_map.mp hb
      exact absurd rfl hk
  · obtain ⟨f, hf, rfl⟩ := List.mem_map.mp hb
    exact absurd rfl hk

theorem history_inv {l : Land} (hl : ∀ i, 0 < l.overcome i) {st : State} {log : List Served} (h : History l st log)
    (hm : ∀ s ∈ log, Modest l s.work) (hc : InCalendar log) : HistoryInv l st log := by
  induction h with
  | fresh => exact ⟨follows_init l, eventsFrom_init l, by simp, by simp⟩
  | serve hh hd hdel ih =>
    rename_i st log w deadline out
    obtain ⟨hf, he, hend, hpr⟩ := ih (fun s hs => hm s (by simp [hs])) (fun s hs => hc s (by simp [hs]))
    have hw : Modest l w := hm _ (List.mem_cons_self ..)
    rcases deliver_cases hdel with ⟨h1, _, h3, _⟩ | ⟨req, hne, hreq, o, use, hp, _, _, hb, _, _, hbk⟩
    · refine ⟨?_, ?_, ?_, ?_⟩
      · rw [h1]; simpa [h3] using hf
      · rw [h1]; simpa [h3] using he
      · simpa [h3] using hend
      · simpa [h3] using hpr
    · obtain ⟨d, _, _, _, start, h0, hoff⟩ := plan_spec hp
      obtain ⟨_, hok⟩ := offer_ok hl hoff
      have hinf : o.start < TIME_INF := (hc ⟨w, deadline, out.records, out.time, out.booked⟩ (by simp)
        _ (by show _ ∈ out.booked; rw [hbk]; exact vehicles_booked req o)).1
      have hprop := bookings_proper hok h0 hinf hl (fun m hmm => (request_nonneg hw hreq m hmm).1)
      have hperm : ((bookings req o).reverse ++ log.flatMap (·.booked)).Perm
          ((⟨w, deadline, out.records, out.time, out.booked⟩ :: log : List Served).flatMap (·.booked)) := by
        rw [List.flatMap_cons]; dsimp only; rw [hbk]
        exact (List.reverse_perm _).append_right _
      refine ⟨(follows_bookAll hf hprop hb).perm hperm, ?_, ?_, ?_⟩
      · exact (eventsFrom_bookAll he hb).mono (fun b hb' => hperm.mem_iff.mp hb')
      · intro b hb'
        rw [List.flatMap_cons] at hb'; dsimp only at hb'; rw [hbk] at hb'
        rcases List.mem_append.mp hb' with hb' | hb'
        · exact bookings_endless (by have := hok.later; omega) b hb'
        · exact hend b hb'
      · intro b hb'
        rw [List.flatMap_cons] at hb'; dsimp only at hb'; rw [hbk] at hb'
        rcases List.mem_append.mp hb' with hb' | hb'
        · exact hprop b hb'
        · exact hpr b hb'

/-! ## What was taken -/

theorem taken_cons (s : Served) (log : List Served) (i m : Nat) :
    taken (s :: log) i m = taken [s] i m + taken log i m := by
  unfold taken
  rw [List.flatMap_cons, List.flatMap_singleton]
  induction s.records with
  | nil => simp
  | cons r rs ih =>
    rw [List.cons_append, List.foldr_cons, List.foldr_cons, ih]
    split <;> omega

theorem inUse_zero {bs : List Booking} {k : Place × Nat} {t : Int} (h : ∀ b ∈ bs, b.key ≠ k) : inUse bs k t = 0 := by
  induction bs with
  | nil => rfl
  | cons b bs ih =>
    rw [inUse_cons, if_neg (fun hh => h b (by simp) hh.1), ih (fun c hc => h c (by simp [hc]))]; rfl

theorem bookings_taken {mats : List Mat} {o : Offer} (h0 : 0 ≤ o.start) (hinf : o.start < TIME_INF) {i m : Nat}
    (hmv : m ≠ vehicles) : inUse (bookings mats o) (.depot i, m) (TIME_INF - 1) =
      (recordsOf mats o).foldr (fun r t => if r.depot = i ∧ r.name = m then r.count + t else t) 0 := by
  unfold bookings
  rw [inUse_append, inUse_append, inUse_append]
  rw [inUse_zero (bs := [_]) (by intro b hb; simp at hb; subst hb; simp; intro _ h; exact hmv h.symm),
    inUse_zero (bs := List.flatMap _ _) (by
      intro b hb
      obtain ⟨e, he, hb⟩ := List.mem_flatMap.mp hb
      rcases List.mem_cons.mp hb with rfl | hb
      · simp
      · obtain ⟨f, hf, rfl⟩ := List.mem_map.mp hb
        simp),
    inUse_zero (bs := List.map _ (List.filter _ _)) (by
      intro b hb
      obtain ⟨f, hf, rfl⟩ := List.mem_map.mp hb
      simp)]
  unfold recordsOf
  induction mats with
  | nil => simp [inUse]
  | cons x xs ih =>
    rw [List.map_cons, inUse_cons, List.map_cons, List.foldr_cons]
    dsimp only
    rw [tAdd_inf h0]
    rw [tAdd_inf h0] at ih
    by_cases hk : o.depot.id = i ∧ x.name = m
    · rw [if_pos ⟨by rw [hk.1, hk.2], by omega, by omega⟩, if_pos hk]
      omega
    · rw [if_neg (fun hh => hk (by simpa using hh.1)), if_neg hk]
      omega

theorem taken_eq {l : Land} (hl : ∀ i, 0 < l.overcome i) {st : State} {log : List Served} (h : History l st log)
    (hc : InCalendar log) {i m : Nat} (hmv : m ≠ vehicles) :
    taken log i m = inUse (log.flatMap (·.booked)) (.depot i, m) (TIME_INF - 1) := by
  induction h with
  | fresh => rfl
  | serve hh hd hdel ih =>
    rename_i st log w deadline out
    rw [taken_cons, List.flatMap_cons, inUse_append, ih (fun s hs => hc s (by simp [hs]))]
    congr 1
    dsimp only
    rcases deliver_cases hdel with ⟨h1, h2, h3, _⟩ | ⟨req, hne, hreq, o, use, hp, _, _, hb, hrec, _, hbk⟩
    · rw [h3]; simp [taken, h2, inUse]
    · obtain ⟨d, _, _, _, start, h0, hoff⟩ := plan_spec hp
      obtain ⟨_, hok⟩ := offer_ok hl hoff
      have hinf : o.start < TIME_INF := (hc ⟨w, deadline, out.records, out.time, out.booked⟩ (by simp)
        _ (by show _ ∈ out.booked; rw [hbk]; exact vehicles_booked req o)).1
      rw [hbk, bookings_taken (by have := hok.later; omega) hinf hmv]
      simp [taken, hrec]

end Sampo.Supply
