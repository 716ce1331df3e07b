import Verif.Lemmas.SupplyHistory

/-! Lemmas: the search for a delivery succeeds, and what it finds can be booked. -/

namespace Sampo.Supply

open Momentum (Event lastAt available updateState fromLast Inv Sorted FreeIn)

/-! ## Searches end -/

theorem slotLoop_total {n exec last : Int} {top : Event} (htop : last ≤ top.time) :
    ∀ (fuel : Nat) (cur : Int) (rest : List Event), rest.length + 2 ≤ fuel → (∀ y ∈ rest.tail, cur ≤ y.time) →
    (rest.tail.Pairwise fun a b => a.time ≤ b.time) →
    ∃ r, slotLoop n exec last top fuel cur rest = some r ∧ cur ≤ r := by
  intro fuel
  induction fuel with
  | zero => intro cur rest h; omega
  | succ fuel ih =>
    intro cur rest h hle hso
    unfold slotLoop
    by_cases hc : cur < last
    · rw [if_pos hc, lastShort_eq]
      cases hs : Momentum.lastShort n (cur + exec + 1) rest with
      | none => exact ⟨cur, rfl, le_refl _⟩
      | some q =>
        obtain ⟨pre, b, hsp, _⟩ := Momentum.lastShort_some hs
        cases q with
        | nil =>
          dsimp only
          cases fuel with
          | zero => omega
          | succ fuel =>
            unfold slotLoop
            rw [if_neg (by omega)]
            exact ⟨_, rfl, by omega⟩
        | cons e es =>
          dsimp only
          have hlen := congrArg List.length hsp
          simp at hlen
          have htail : ∃ p, rest.tail = p ++ e :: es := by
            rw [hsp]
            cases pre with
            | nil => exact ⟨[], rfl⟩
            | cons x xs => exact ⟨xs ++ [b], by simp⟩
          obtain ⟨p, hp⟩ := htail
          have he : cur ≤ e.time := hle e (by rw [hp]; simp)
          have hso' : (e :: es).Pairwise fun a b => a.time ≤ b.time := by
            rw [hp] at hso
            exact (List.pairwise_append.mp hso).2.1
          have hso'' := List.pairwise_cons.mp hso'
          obtain ⟨r, hr, hcr⟩ := ih e.time (e :: es) (by simp; omega)
            (by simpa using hso''.1) (by simpa using hso''.2)
          exact ⟨r, hr, by omega⟩
    · rw [if_neg hc]; exact ⟨cur, rfl, le_refl _⟩

theorem findEarliest_total {cap idx n exec parent : Int} {s : List Event} (hinv : Inv cap idx s) (hp : 0 ≤ parent)
    (hinf : ∀ e ∈ s, e.key < TIME_INF) : ∃ r, findEarliest s n parent exec = some r := by
  obtain ⟨es, hes, hes'⟩ := hinv.head
  have hla := lastAt_all (s := s) (t := TIME_INF - 1) (fun e he => by have := hinf e he; omega)
  have hk0 : Event.key ⟨-1, .initial, 0, cap⟩ = -1 := rfl
  obtain ⟨pre, x, xs, h1, h2, h3, h4⟩ := Momentum.fromLast_spec (t := parent) hes (by rw [hk0]; omega) hinv.sorted
  unfold findEarliest
  rw [hla]
  cases hl : s.getLast? with
  | none => simp [hes] at hl
  | some l =>
    have hmem : ∀ y ∈ xs, y ∈ es := by
      intro y hy
      rw [hes] at h1
      cases pre with
      | nil => simp at h1; rw [h1.2]; exact hy
      | cons a as => simp at h1; rw [h1.2]; simp [hy]
    have hkt : ∀ y ∈ xs, y.key = y.time := by
      intro y hy
      have := (hes' y (hmem y hy)).1
      simp [Event.key, this]
    have hsx : Sorted xs := by
      have hs' := hinv.sorted
      rw [h1] at hs'
      exact (List.pairwise_cons.mp (List.pairwise_append.mp hs').2.1).2
    obtain ⟨r, hr, hpr⟩ := slotLoop_total (n := n) (exec := exec) (last := l.time) (top := l) (le_refl _) (s.length + 2) parent
      (fromLast s parent) (by rw [h2, h1]; simp)
      (by rw [h2]; intro y hy; have := h4 y (by simpa using hy); rw [← hkt y (by simpa using hy)]; omega)
      (by
        rw [h2]
        have : xs.Pairwise fun a b => a.time ≤ b.time := by
          refine List.Pairwise.imp_of_mem ?_ hsx
          intro a b ha hb hab
          rw [← hkt a ha, ← hkt b hb]; exact hab
        simpa using this)
    exact ⟨r, by simp only [Option.bind_some, hr]; rw [if_neg (by omega)]⟩

/-! ## What is found is free -/

/-- The lists of the vehicles of roads and depots are in order and end before infinity. -/
structure Ready (l : Land) (tl : Timeline) : Prop where
  road : ∀ i ∈ l.roads, ∃ s idx, tl.states (.road i, vehicles) = some s ∧ Inv (l.bandwidth i) idx s ∧ ∀ e ∈ s, e.key < TIME_INF
  fleet : ∀ i s, tl.states (.depot i, vehicles) = some s → (∃ cap idx, Inv cap idx s) ∧ ∀ e ∈ s, e.key < TIME_INF

theorem ready {l : Land} {st : State} {log : List Served} (h : HistoryInv l st log) (hc : InCalendar log) :
    Ready l st.supply := by
  have hev : ∀ p s, st.supply.states (p, vehicles) = some s → ∀ e ∈ s, e.key < TIME_INF := by
    intro p s hs e he
    rcases h.events _ _ hs e he with h1 | ⟨b, hb, hk, h1⟩
    · rw [h1]; simp [TIME_INF]
    · obtain ⟨sv, hsv, hbs⟩ := List.mem_flatMap.mp hb
      have hcal := hc sv hsv b hbs
      have := hcal.2 (by rw [hk])
      rcases h1 with h1 | h1 <;> omega
  constructor
  · intro i hi
    obtain ⟨s, hs, hk⟩ := (h.follows (.road i, vehicles)).2 (l.bandwidth i) (by simp [Land.initial, hi])
    exact ⟨s, _, hs, hk.toInv, hev _ _ hs⟩
  · intro i s hs
    refine ⟨?_, hev _ _ hs⟩
    cases hi : l.initial (.depot i, vehicles) with
    | none => rw [(h.follows _).1 hi] at hs; simp at hs
    | some cap =>
      obtain ⟨s', hs', hk⟩ := (h.follows _).2 cap hi
      rw [hs] at hs'; cases hs'
      exact ⟨cap, _, hk.toInv⟩

/-- A used road is free for the batch. -/
def RoadFree (tl : Timeline) (batch : Nat) (e : Nat × Int × Int) : Prop :=
  ∃ s, tl.states (.road e.1, vehicles) = some s ∧ FreeIn s batch e.2.1 (e.2.2 - e.2.1)

theorem moveLoop_free {l : Land} (hl : ∀ i, 0 < l.overcome i) {tl : Timeline} (hr : Ready l tl) {batch : Nat} :
    ∀ {route : List Nat} {parent : Int} {d : List (Nat × Int × Int)}, 0 ≤ parent →
    (∀ i ∈ route, i ∈ l.roads ∧ (batch : Int) ≤ l.bandwidth i) → (∀ e ∈ d, RoadFree tl batch e) →
    ∃ finish d', moveLoop l tl batch route parent d = some (finish, d') ∧ ∀ e ∈ d', RoadFree tl batch e := by
  intro route
  induction route with
  | nil => intro parent d _ _ hd; exact ⟨parent, d, rfl, hd⟩
  | cons i is ih =>
    intro parent d hp hroute hd
    obtain ⟨hi, hw⟩ := hroute i (by simp)
    obtain ⟨s, idx, hs, hinv, hinf⟩ := hr.road i hi
    have hpos := hl i
    obtain ⟨r, hfind, hge, hfree⟩ := findEarliest_spec (n := batch) (exec := l.overcome i) hinv hw (by omega) hp hinf
    obtain ⟨finish, d', h1, h2⟩ := ih (parent := r + l.overcome i) (d := setRoad d i (r, r + l.overcome i)) (by omega)
      (fun j hj => hroute j (by simp [hj])) (by
        intro e he
        rcases mem_setRoad he with rfl | he
        · refine ⟨s, hs, ?_⟩
          intro t h1 h2
          dsimp only at h1 h2
          exact hfree t h1 (by omega)
        · exact hd e he)
    exact ⟨finish, d', by simp [moveLoop, hs, hfind, h1], h2⟩

theorem move_free {l : Land} (hl : Sensible l) {tl : Timeline} (hr : Ready l tl) {batch a b : Nat} {parent : Int}
    (hp : 0 ≤ parent) (hroute : l.route batch a b ≠ []) :
    ∃ finish d, move l tl a b parent batch = some (finish, d) ∧ ∀ e ∈ d, RoadFree tl batch e := by
  obtain ⟨finish, d, h1, h2⟩ := moveLoop_free hl.long hr hp (hl.wide batch a b) (d := []) (by simp)
  exact ⟨finish, d, by simp [move, hroute, h1], h2⟩

theorem move_some_free {l : Land} (hl : Sensible l) {tl : Timeline} (hr : Ready l tl) {batch a b : Nat} {parent : Int}
    (hp : 0 ≤ parent) {r : Int × List (Nat × Int × Int)} (h : move l tl a b parent batch = some r) :
    ∀ e ∈ r.2, RoadFree tl batch e := by
  have hroute : l.route batch a b ≠ [] := by
    intro hh; simp [move, hh] at h
  obtain ⟨finish, d, h1, h2⟩ := move_free hl hr hp hroute
  rw [h] at h1; cases h1; exact h2

theorem offer_free {l : Land} (hl : Sensible l) {tl : Timeline} (hr : Ready l tl) {platform : Nat} {mats : List Mat}
    {start : Int} (h0 : 0 ≤ start) {d : Depot} {o : Offer} (h : offer l tl platform mats start d = some o) :
    (∀ e ∈ o.thither, RoadFree tl o.batch e) ∧ (∀ e ∈ o.hither, RoadFree tl o.batch e) ∧
      ∃ s, tl.states (.depot o.depot.id, vehicles) = some s := by
  unfold offer at h
  simp only [Option.bind_eq_some_iff] at h
  obtain ⟨need, _, h⟩ := h
  split at h
  · simp at h
  · simp only [Option.bind_eq_some_iff, Option.map_eq_some_iff] at h
    obtain ⟨go, hgo, ret, hret, s, hs, t, ht, rfl⟩ := h
    have hg := (move_leg hl.long hgo).2
    exact ⟨move_some_free hl hr h0 hgo, move_some_free hl hr (by omega) hret, s, hs⟩

/-! ## Stocks only go down -/

theorem inUse_le_mono {bs : List Booking} {k : Place × Nat} (h : ∀ b ∈ bs, b.key = k → 0 ≤ b.count ∧ b.finish = TIME_INF)
    {t u : Int} (htu : t ≤ u) (hu : u < TIME_INF) : inUse bs k t ≤ inUse bs k u := by
  induction bs with
  | nil => simp [inUse]
  | cons b bs ih =>
    have := ih (fun c hc => h c (by simp [hc]))
    rw [inUse_cons, inUse_cons]
    by_cases hk : b.key = k
    · obtain ⟨h1, h2⟩ := h b (by simp) hk
      by_cases hb : b.key = k ∧ b.start ≤ t ∧ t < b.finish
      · rw [if_pos hb, if_pos ⟨hk, by omega, by omega⟩]; omega
      · rw [if_neg hb]
        split <;> omega
    · rw [if_neg (fun hh => hk hh.1), if_neg (fun hh => hk hh.1)]; omega

theorem stock_level {l : Land} {st : State} {log : List Served} (h : HistoryInv l st log) {i m : Nat} (hm : m ≠ vehicles)
    {s : List Event} (hs : st.supply.states (.depot i, m) = some s) {e : Event} (he : lastAt s (TIME_INF - 1) = some e) :
    ∃ cap, l.initial (.depot i, m) = some cap ∧
      e.count = cap - inUse (log.flatMap (·.booked)) (.depot i, m) (TIME_INF - 1) ∧
      ∀ t, 0 ≤ t → t < TIME_INF → ∃ v, available s t = some v ∧ e.count ≤ v := by
  cases hi : l.initial (.depot i, m) with
  | none => rw [(h.follows _).1 hi] at hs; simp at hs
  | some cap =>
    obtain ⟨s', hs', hk⟩ := (h.follows _).2 cap hi
    rw [hs] at hs'; cases hs'
    have h1 := hk.exact_ (TIME_INF - 1) (by simp [TIME_INF])
    unfold available at h1
    rw [he] at h1
    simp only [Option.map_some, Option.some.injEq] at h1
    refine ⟨cap, rfl, h1, ?_⟩
    intro t h0 hlt
    refine ⟨_, hk.exact_ t h0, ?_⟩
    have hmono := inUse_le_mono (bs := log.flatMap (·.booked)) (k := (.depot i, m)) (t := t) (u := TIME_INF - 1) (by
      intro b hb hkb
      exact ⟨(h.proper b hb).2.2, h.endless b hb (by rw [hkb]; exact hm)⟩) (by omega) (by omega)
    omega

theorem canSupply_free {l : Land} {st : State} {log : List Served} (h : HistoryInv l st log) {mats : List Mat} {d : Depot}
    (hm : ∀ m ∈ mats, m.name ≠ vehicles) (hc : canSupply st.supply mats d = true) {start : Int} (h0 : 0 ≤ start) :
    ∀ m ∈ mats, ∃ s, st.supply.states (.depot d.id, m.name) = some s ∧ FreeIn s m.count start (TIME_INF - start) := by
  intro m hmm
  unfold canSupply at hc
  have := List.all_eq_true.mp hc m hmm
  cases hs : st.supply.states (.depot d.id, m.name) with
  | none => simp [hs] at this
  | some s =>
    cases he : lastAt s (TIME_INF - 1) with
    | none => simp [hs, he] at this
    | some e =>
      simp only [hs, Option.bind_some, he, decide_eq_true_eq] at this
      obtain ⟨cap, _, _, hv⟩ := stock_level h (hm m hmm) hs he
      refine ⟨s, rfl, ?_⟩
      intro t h1 h2
      obtain ⟨v, hv1, hv2⟩ := hv t (by omega) (by omega)
      exact ⟨v, hv1, by omega⟩

/-! ## The bookings of an offer do not clash -/

theorem bookings_disjoint {l : Land} {start : Int} {o : Offer} (ho : OfferOk l start o)
    {mats : List Mat} (hn : (mats.map (·.name)).Nodup) (hv : ∀ m ∈ mats, m.name ≠ vehicles) :
    (bookings mats o).Pairwise fun a b => a.key = b.key → a.finish ≤ b.start ∨ b.finish ≤ a.start := by
  have hroad : ∀ e ∈ o.thither, ∀ f ∈ o.hither, e.2.2 ≤ f.2.1 := by
    intro e he f hf
    have h1 := ho.thither.ok e he
    have h2 := ho.hither.ok f hf
    omega
  have hA : o.thither.Pairwise fun a b => a.1 ≠ b.1 := List.pairwise_map.mp ho.thither.nodup
  have hB : o.hither.Pairwise fun a b => a.1 ≠ b.1 := List.pairwise_map.mp ho.hither.nodup
  unfold bookings
  rw [List.pairwise_append, List.pairwise_append, List.pairwise_append]
  refine ⟨⟨⟨?_, by simp, ?_⟩, ?_, ?_⟩, ?_, ?_⟩
  · rw [List.pairwise_map]
    refine (List.pairwise_map.mp hn).imp ?_
    intro a b hab hk
    simp at hk; exact absurd hk hab
  · intro a ha b hb hk
    obtain ⟨m, hm, rfl⟩ := List.mem_map.mp ha
    simp at hb; subst hb
    simp at hk; exact absurd hk (hv m hm)
  · rw [List.pairwise_flatMap]
    refine ⟨?_, ?_⟩
    · intro e he
      refine List.pairwise_cons.mpr ⟨?_, ?_⟩
      · intro b hb _
        obtain ⟨f, hf, rfl⟩ := List.mem_map.mp hb
        exact Or.inl (hroad e he f (List.mem_filter.mp hf).1)
      · rw [List.pairwise_map]
        refine (hB.filter _).imp ?_
        intro a b hab hk
        simp at hk; exact absurd hk hab
    · refine hA.imp ?_
      intro e f hef x hx y hy hk
      have key : ∀ (g : Nat × Int × Int) (z : Booking), z ∈ (⟨(.road g.1, vehicles), o.batch, g.2.1, g.2.2⟩ ::
          (o.hither.filter fun f => f.1 = g.1).map fun f => (⟨(.road f.1, vehicles), o.batch, f.2.1, f.2.2⟩ : Booking)) →
          z.key = (.road g.1, vehicles) := by
        intro g z hz
        rcases List.mem_cons.mp hz with rfl | hz
        · rfl
        · obtain ⟨f, hf, rfl⟩ := List.mem_map.mp hz
          have := (List.mem_filter.mp hf).2
          simp at this
          simp [this]
      rw [key e x hx, key f y hy] at hk
      simp at hk; exact absurd hk hef
  · intro a ha b hb hk
    obtain ⟨e, he, hb⟩ := List.mem_flatMap.mp hb
    have hbk : ∃ i, b.key = (.road i, vehicles) := by
      rcases List.mem_cons.mp hb with rfl | hb
      · exact ⟨_, rfl⟩
      · obtain ⟨f, hf, rfl⟩ := List.mem_map.mp hb
        exact ⟨_, rfl⟩
    obtain ⟨i, hi⟩ := hbk
    rcases List.mem_append.mp ha with ha | ha
    · obtain ⟨m, hm, rfl⟩ := List.mem_map.mp ha
      rw [hi] at hk; simp at hk
    · simp at ha; subst ha
      rw [hi] at hk; simp at hk
  · rw [List.pairwise_map]
    refine (hB.filter _).imp ?_
    intro a b hab hk
    simp at hk; exact absurd hk hab
  · intro a ha b hb hk
    obtain ⟨f, hf, rfl⟩ := List.mem_map.mp hb
    have hff := List.mem_filter.mp hf
    simp only [List.mem_append] at ha
    rcases ha with (ha | ha) | ha
    · obtain ⟨m, hm, rfl⟩ := List.mem_map.mp ha
      simp at hk
    · simp at ha; subst ha
      simp at hk
    · exfalso
      obtain ⟨e, he, ha⟩ := List.mem_flatMap.mp ha
      have hne : e.1 ≠ f.1 := by
        have h2 := hff.2
        simp only [Bool.not_eq_true', List.any_eq_false, decide_eq_true_eq] at h2
        exact h2 e he
      rcases List.mem_cons.mp ha with rfl | ha
      · simp at hk; exact hne hk
      · obtain ⟨g, hg, rfl⟩ := List.mem_map.mp ha
        have := (List.mem_filter.mp hg).2
        simp at this hk
        exact hne (by rw [← this, hk])

/-- Whatever the search chooses can be booked. -/
theorem book_plan {l : Land} (hl : Sensible l) {st : State} {log : List Served} (h : HistoryInv l st log) (hc : InCalendar log)
    {platform : Nat} {deadline : Int} {mats : List Mat} (hn : (mats.map (·.name)).Nodup)
    (hm : ∀ m ∈ mats, 0 ≤ m.count ∧ m.name ≠ vehicles) {o : Offer} (hp : plan l st.supply platform deadline mats = some o)
    (hinf : o.start < TIME_INF) : ∃ tl, st.supply.bookAll (bookings mats o) = some tl := by
  obtain ⟨d, _, hcan, _, start, h0, hoff⟩ := plan_spec hp
  obtain ⟨hd, hok⟩ := offer_ok hl.long hoff
  have hr := ready h hc
  obtain ⟨f1, f2, sv, hsv⟩ := offer_free hl hr h0 hoff
  have h00 : 0 ≤ o.start := by have := hok.later; omega
  refine bookAll_isSome h.follows (bookings_proper hok h0 hinf hl.long fun m hmm => (hm m hmm).1) ?_
    (bookings_disjoint hok hn fun m hmm => (hm m hmm).2)
  intro b hb
  have hro : ∀ f, RoadFree st.supply o.batch f → Free st.supply ⟨(.road f.1, vehicles), o.batch, f.2.1, f.2.2⟩ := by
    rintro f ⟨s, hs, hf⟩
    exact ⟨s, hs, hf⟩
  unfold bookings at hb
  simp only [List.mem_append] at hb
  rcases hb with ((hb | hb) | hb) | hb
  · obtain ⟨m, hmm, rfl⟩ := List.mem_map.mp hb
    obtain ⟨s, hs, hf⟩ := canSupply_free h (fun m hmm => (hm m hmm).2) hcan h00 m hmm
    refine ⟨s, by dsimp only; rw [hd]; exact hs, ?_⟩
    dsimp only; rw [tAdd_inf h00]; exact hf
  · simp at hb; subst hb
    refine ⟨sv, hsv, ?_⟩
    cases hi : l.initial (.depot o.depot.id, vehicles) with
    | none => rw [(h.follows _).1 hi] at hsv; simp at hsv
    | some cap =>
      obtain ⟨s', hs', hk⟩ := (h.follows _).2 cap hi
      rw [hsv] at hs'; cases hs'
      have hcap : 0 ≤ cap := by
        simp only [Land.initial, Option.bind_eq_some_iff] at hi
        obtain ⟨dd, _, hdd⟩ := hi
        simp [Depot.initial] at hdd
        omega
      intro t h1 h2
      dsimp only at h1 h2
      refine ⟨_, hk.exact_ t (by omega), ?_⟩
      have := hk.room hcap t (by omega)
      dsimp only; omega
  · obtain ⟨e, he, hb⟩ := List.mem_flatMap.mp hb
    rcases List.mem_cons.mp hb with rfl | hb
    · exact hro e (f1 e he)
    · obtain ⟨f, hf, rfl⟩ := List.mem_map.mp hb
      exact hro f (f2 f (List.mem_filter.mp hf).1)
  · obtain ⟨f, hf, rfl⟩ := List.mem_map.mp hb
    exact hro f (f2 f (List.mem_filter.mp hf).1)

/-! ## A delivery is found -/

theorem ceil_pos {a c : Int} (ha : 0 < a) (hc : 0 < c) : 0 < -Int.fdiv (-a) c := by
  rw [Int.fdiv_eq_ediv_of_nonneg _ (by omega)]
  have : (-a) / c < 0 := Int.ediv_neg_of_neg_of_pos (by omega) hc
  omega

theorem needVehicles_pos {d : Depot} {mats : List Mat} (hf : 0 < d.fleet) (hload : ∀ m ∈ d.load, 0 < m.count)
    (hpos : ∀ m ∈ mats, 0 < m.count) {q : Mat} (hq : q ∈ mats) (hc : ∃ m ∈ d.load, m.name = q.name) :
    ∃ n, needVehicles d mats = some n ∧ 0 < n := by
  unfold needVehicles
  rw [if_neg (by omega)]
  dsimp only
  rw [if_neg (by
    simp only [List.any_eq_true, decide_eq_true_eq]
    rintro ⟨m, hm, h0⟩
    have := hload m (List.mem_filter.mp hm).1
    omega)]
  obtain ⟨m, hm, hmn⟩ := hc
  have hmem : m ∈ d.load.filter fun m => mats.any fun q => q.name = m.name := by
    refine List.mem_filter.mpr ⟨hm, ?_⟩
    simp only [List.any_eq_true, decide_eq_true_eq]
    exact ⟨q, hq, hmn.symm⟩
  cases hx : (List.map (fun m : Mat =>
      -Int.fdiv (-((mats.reverse.find? fun q => q.name = m.name).map (·.count)).getD 0) m.count)
      (d.load.filter fun m => mats.any fun q => q.name = m.name)).max? with
  | none =>
    rw [List.max?_eq_none_iff] at hx
    rw [List.map_eq_nil_iff] at hx
    rw [hx] at hmem; simp at hmem
  | some n =>
    refine ⟨n, rfl, ?_⟩
    have hmx := List.max?_mem hx
    obtain ⟨x, hx1, rfl⟩ := List.mem_map.mp hmx
    have hx2 := List.mem_filter.mp hx1
    simp only [List.any_eq_true, decide_eq_true_eq] at hx2
    obtain ⟨hxl, y, hy, hyx⟩ := hx2
    cases hfd : mats.reverse.find? fun q => q.name = x.name with
    | none =>
      have := List.find?_eq_none.mp hfd y (List.mem_reverse.mpr hy)
      simp at this; exact absurd hyx this
    | some z =>
      simp only [Option.map_some, Option.getD_some]
      exact ceil_pos (hpos z (List.mem_reverse.mp (List.mem_of_find?_eq_some hfd))) (hload x hxl)

theorem offer_exists {l : Land} (hl : Sensible l) {tl : Timeline} (hr : Ready l tl) {platform : Nat} {mats : List Mat}
    {d : Depot} (hs : Serves l platform d) (hv : ∃ s, tl.states (.depot d.id, vehicles) = some s)
    (hneed : ∃ n, needVehicles d mats = some n ∧ 0 < n) {start : Int} (h0 : 0 ≤ start) :
    ∃ o, offer l tl platform mats start d = some o := by
  obtain ⟨need, hn, hn0⟩ := hneed
  obtain ⟨s, hsv⟩ := hv
  have hf := hs.fleet
  have hb : 0 < sliceLen d.fleet need ∧ sliceLen d.fleet need ≤ d.fleet := by
    unfold sliceLen
    rw [if_pos (by omega)]
    omega
  obtain ⟨g, gd, hg, _⟩ := move_free hl hr h0 (hs.thither _ hb.1 hb.2)
  have hg' := (move_leg hl.long hg).2
  obtain ⟨r, rd, hrt, _⟩ := move_free hl hr (parent := g) (by omega) (hs.hither _ hb.1 hb.2)
  obtain ⟨⟨cap, idx, hinv⟩, hinf⟩ := hr.fleet d.id s hsv
  obtain ⟨t, ht⟩ := findEarliest_total (n := need) (exec := r - g + (g - start)) (parent := g - (g - start)) hinv (by omega) hinf
  unfold offer
  simp only [hn, Option.bind_some]
  rw [if_neg (by omega)]
  simp only [hg, hrt, Option.bind_some, hsv, ht, Option.map_some]
  exact ⟨_, rfl⟩

theorem offers_exists {l : Land} {tl : Timeline} {platform : Nat} {mats : List Mat} {start : Int} {ds : List Depot}
    (h : ∀ d ∈ ds, ∃ o, offer l tl platform mats start d = some o) :
    ∃ os, offers l tl platform mats start ds = some os ∧ os.length = ds.length := by
  induction ds with
  | nil => exact ⟨[], rfl, rfl⟩
  | cons d ds ih =>
    obtain ⟨o, ho⟩ := h d (by simp)
    obtain ⟨os, hos, hlen⟩ := ih (fun x hx => h x (by simp [hx]))
    exact ⟨o :: os, by simp [offers, ho, hos], by simp [hlen]⟩

/-- A round of the search chooses an offer that arrives after the moment tried. -/
theorem foldl_choose_ge {deadline q : Int} : ∀ {os : List Offer} {best : Option Offer},
    (∀ o ∈ os, q ≤ o.start + o.ahead) → (q ≤ finishOf best) → q ≤ finishOf (os.foldl (choose deadline) best) := by
  intro os
  induction os with
  | nil => intro best _ h; exact h
  | cons o os ih =>
    intro best h hb
    rw [List.foldl_cons]
    apply ih (fun x hx => h x (by simp [hx]))
    unfold choose
    split
    · exact h o (by simp)
    · exact hb

theorem searchLoop_exists {l : Land} (hl : Sensible l) {tl : Timeline} {platform : Nat} {mats : List Mat} {ds : List Depot}
    (hne : ds ≠ []) {deadline : Int} (hd : 0 ≤ deadline)
    (hoff : ∀ start, 0 ≤ start → ∀ d ∈ ds, ∃ o, offer l tl platform mats start d = some o) :
    ∀ (fuel : Nat) (start : Int) (best : Option Offer), -1 ≤ start → start ≤ finishOf best → start ≤ deadline →
      deadline + 1 - start ≤ fuel →
      ∃ o, searchLoop l tl platform mats ds deadline fuel start best = some (some (some o)) := by
  intro fuel
  induction fuel with
  | zero =>
    intro start best hs hf hsd hfu
    omega
  | succ fuel ih =>
    intro start best hs hf hsd hfu
    unfold searchLoop
    by_cases hc : finishOf best < deadline
    · rw [if_pos hc]
      obtain ⟨os, hos, hlen⟩ := offers_exists (hoff (start + 1) (by omega))
      rw [hos]
      dsimp only
      apply ih _ _ (by omega)
      · cases os with
        | nil => simp at hlen; exact absurd (List.length_eq_zero_iff.mp hlen.symm) hne
        | cons o os =>
          have hge : ∀ x ∈ o :: os, start + 1 ≤ x.start + x.ahead := by
            intro x hx
            obtain ⟨d, _, hdx⟩ := offers_mem hos x hx
            have hok := (offer_ok hl.long hdx).2
            have := hok.later; have := hok.ahead
            omega
          rw [List.foldl_cons]
          apply foldl_choose_ge (fun x hx => hge x (by simp [hx]))
          unfold choose
          rw [if_pos (Or.inr hc)]
          exact hge o (by simp)
      · omega
      · omega
    · rw [if_neg hc]
      cases best with
      | none => simp [finishOf] at hc; omega
      | some o => exact ⟨o, rfl⟩

/-- If a depot has everything requested, and all depots with everything can serve the platform, a delivery is found. -/
theorem plan_exists {l : Land} (hl : Sensible l) {st : State} {log : List Served} (h : HistoryInv l st log)
    (hc : InCalendar log) {platform : Nat} {deadline : Int} (hd : 0 ≤ deadline) {mats : List Mat} (hne : mats ≠ [])
    (hm : ∀ m ∈ mats, 0 < m.count ∧ m.name ≠ vehicles) (hserve : ∀ d ∈ l.depotsFrom platform, Serves l platform d)
    {d : Depot} (hdp : d ∈ l.depotsFrom platform) (hcan : canSupply st.supply mats d = true) :
    ∃ o, plan l st.supply platform deadline mats = some o := by
  have hr := ready h hc
  have hds : (l.depotsFrom platform).filter (canSupply st.supply mats) ≠ [] := by
    intro hh
    have : d ∈ (l.depotsFrom platform).filter (canSupply st.supply mats) := List.mem_filter.mpr ⟨hdp, hcan⟩
    rw [hh] at this; simp at this
  have hoff : ∀ start, 0 ≤ start → ∀ d ∈ (l.depotsFrom platform).filter (canSupply st.supply mats),
      ∃ o, offer l st.supply platform mats start d = some o := by
    intro start h0 x hx
    obtain ⟨hx1, hx2⟩ := List.mem_filter.mp hx
    have hsx := hserve x hx1
    obtain ⟨n, hn⟩ := hsx.known
    obtain ⟨s, hs, _⟩ := (h.follows _).2 n hn
    obtain ⟨q, qs, hq⟩ := List.exists_cons_of_ne_nil hne
    have hqm : q ∈ mats := by rw [hq]; simp
    refine offer_exists hl hr hsx ⟨s, hs⟩ (needVehicles_pos hsx.fleet hsx.load (fun m hmm => (hm m hmm).1) hqm ?_) h0
    obtain ⟨sq, hsq, _⟩ := canSupply_free h (fun m hmm => (hm m hmm).2) hx2 (le_refl 0) q hqm
    cases hi : l.initial (.depot x.id, q.name) with
    | none => rw [(h.follows _).1 hi] at hsq; simp at hsq
    | some c => exact hsx.carries _ _ hi (hm q hqm).2
  obtain ⟨o, ho⟩ := searchLoop_exists hl hds hd hoff ((deadline + 2).toNat) (-1) none (by omega) (by simp [finishOf]) (by omega)
    (by omega)
  exact ⟨o, by unfold plan holders; dsimp only; rw [if_neg hds]; simp [ho]⟩

/-- A depot whose remaining stock covers a request is one that can supply. -/
theorem canSupply_of {l : Land} (hl : ∀ i, 0 < l.overcome i) {st : State} {log : List Served} (hh : History l st log)
    (h : HistoryInv l st log) (hc : InCalendar log) {mats : List Mat} {d : Depot}
    (hm : ∀ m ∈ mats, m.name ≠ vehicles ∧ ∃ n, l.initial (.depot d.id, m.name) = some n ∧ m.count ≤ n - taken log d.id m.name) :
    canSupply st.supply mats d = true := by
  unfold canSupply
  rw [List.all_eq_true]
  intro m hmm
  obtain ⟨hv, n, hn, hle⟩ := hm m hmm
  obtain ⟨s, hs, hk⟩ := (h.follows _).2 n hn
  have hex := hk.exact_ (TIME_INF - 1) (by simp [TIME_INF])
  unfold available at hex
  rw [Option.map_eq_some_iff] at hex
  obtain ⟨e, he, hcount⟩ := hex
  simp only [hs, Option.bind_some, he, decide_eq_true_eq]
  rw [taken_eq hl hh hc hv] at hle
  omega

end Sampo.Supply
