import Verif.Lemmas.ToStart

/-!
# C98: the supply timeline that delivers to the start of works

`ToStartSupplyTimeline` keeps stocks and roads as `HybridSupplyTimeline` does (C41), and prefers nearer depots.
-/

namespace Sampo.C98
open Supply hiding History deliver canSchedule findMin
open ToStart (History deliver canSchedule findMin)

/-- The quantity delivered from a depot never exceeds its stock. -/
theorem stock_not_exceeded {l : Land} (hl : ∀ i, 0 < l.overcome i) {st : State} {log : List Served} (h : History l st log)
    (hm : ∀ s ∈ log, Modest l s.work) (hc : InCalendar log) (hids : (l.depots.map (·.id)).Nodup) {d : Depot}
    (hd : d ∈ l.depots) (hnames : (d.stock.map (·.name)).Nodup) {x : Mat} (hx : x ∈ d.stock) (hv : x.name ≠ vehicles)
    (h0 : 0 ≤ x.count) : taken log d.id x.name ≤ x.count := by
  have find_mem : ∀ {α : Type} (f : α → Nat) (xs : List α), (xs.map f).Nodup → ∀ y ∈ xs, (xs.find? fun z => f z = f y) = some y := by
    intro α f xs
    induction xs with
    | nil => intro _ y hy; simp at hy
    | cons z zs ih =>
      intro hn y hy
      rw [List.map_cons, List.nodup_cons] at hn
      rcases List.mem_cons.mp hy with rfl | hy
      · simp
      · have hne : f z ≠ f y := fun heq => hn.1 (by rw [heq]; exact List.mem_map_of_mem hy)
        rw [List.find?_cons_of_neg (by simpa using hne)]
        exact ih hn.2 y hy
  have hi : l.initial (.depot d.id, x.name) = some x.count := by
    simp only [Land.initial]
    rw [find_mem (·.id) l.depots hids d hd]
    simp only [Option.bind_some, Depot.initial, hv, if_false]
    rw [find_mem (·.name) d.stock hnames x hx]
    rfl
  obtain ⟨s, hs, hk⟩ := ((ToStart.history_inv hl h hm hc).follows _).2 x.count hi
  rw [ToStart.taken_eq hl h hc hv]
  exact hk.room h0 _ (by simp [TIME_INF])

/-- At no moment are more vehicles on a road than it can take. -/
theorem road_not_overcrowded {l : Land} (hl : ∀ i, 0 < l.overcome i) {st : State} {log : List Served} (h : History l st log)
    (hm : ∀ s ∈ log, Modest l s.work) (hc : InCalendar log) {i : Nat} (hi : i ∈ l.roads) (h0 : 0 ≤ l.bandwidth i) (t : Int) :
    onRoad log i t ≤ l.bandwidth i := by
  have hinv := ToStart.history_inv hl h hm hc
  obtain ⟨s, hs, hk⟩ := (hinv.follows (.road i, vehicles)).2 (l.bandwidth i) (by simp [Land.initial, hi])
  by_cases ht : 0 ≤ t
  · exact hk.room h0 t ht
  · have hz : ∀ bs : List Booking, (∀ b ∈ bs, b.Proper) → inUse bs (.road i, vehicles) t = 0 := by
      intro bs
      induction bs with
      | nil => intro _; rfl
      | cons b bs ih =>
        intro hp
        have := (hp b (by simp)).1
        rw [inUse_cons, if_neg (by omega), ih (fun c hcc => hp c (by simp [hcc]))]; rfl
    unfold onRoad
    rw [hz _ hinv.proper]; exact h0

/-- A work gets its materials not before the moment asked for; what is delivered comes from one of the depots, leaves before it
arrives, and arrives when the work can start. -/
theorem delivery_in_time {l : Land} (hl : ∀ i, 0 < l.overcome i) {st : State} {w : Work} {deadline : Int} {out : Outcome}
    (h : deliver l st w deadline = some out) :
    deadline ≤ out.time ∧ ∀ r ∈ out.records, 0 ≤ r.start ∧ r.start < r.finish ∧ r.finish = out.time ∧
      ∃ d ∈ l.depotsFrom (l.platform w.id), r.depot = d.id := by
  rcases ToStart.deliver_cases h with ⟨_, h2, _, h4⟩ | ⟨req, _, _, o, _, hp, _, _, _, hrec, htime, _⟩
  · rw [h4, h2]; exact ⟨le_refl _, by simp⟩
  · obtain ⟨d, hd, _, hle, start, h0, hoff⟩ := ToStart.plan_spec hp
    obtain ⟨hdep, hok⟩ := offer_ok hl hoff
    refine ⟨by rw [htime]; exact hle, ?_⟩
    intro r hr
    rw [hrec] at hr
    obtain ⟨m, _, rfl⟩ := List.mem_map.mp hr
    have := hok.later
    have := hok.ahead
    exact ⟨by dsimp only; omega, by dsimp only; omega, htime.symm, d, hd, by dsimp only; rw [hdep]⟩

/-- Nearer depots are preferred: at the moment at which the search ends, the depot that delivers leaves before the nearest one that
has the materials, or is it; and if no depot would arrive before the moment asked for, then it leaves or arrives before all nearer
ones. -/
theorem nearer_depot_preferred {l : Land} (hl : ∀ i, 0 < l.overcome i) {st : State} {w : Work} {deadline : Int} {out : Outcome} (h0 : 0 ≤ deadline)
    (h : deliver l st w deadline = some out) {req : List Mat}
    (hreq : request l st.platforms (l.platform w.id) deadline w.needs = some req) {r : Record} (hr : r ∈ out.records) :
    ∃ moment near d far, 0 ≤ moment ∧ (l.depotsFrom (l.platform w.id)).filter (canSupply st.supply req) = near ++ d :: far ∧
      r.depot = d.id ∧
      (∀ n ns, near = n :: ns → ∀ x, offer l st.supply (l.platform w.id) req moment n = some x → r.start < x.start) ∧
      ((∀ d' ∈ near ++ d :: far, ∀ x, offer l st.supply (l.platform w.id) req moment d' = some x → deadline ≤ x.start + x.ahead) →
        ∀ n ∈ near, ∀ x, offer l st.supply (l.platform w.id) req moment n = some x →
          r.start < x.start ∨ out.time < x.start + x.ahead) := by
  rcases ToStart.deliver_cases h with ⟨_, h2, _, _⟩ | ⟨req', hne, hreq', o, _, hp, _, _, _, hrec, htime, _⟩
  · rw [h2] at hr; simp at hr
  rw [hreq] at hreq'; cases hreq'
  rw [hrec] at hr
  obtain ⟨m, _, rfl⟩ := List.mem_map.mp hr
  unfold ToStart.plan at hp
  simp only [Option.bind_eq_some_iff, id_eq] at hp
  obtain ⟨ds, hds, res, ⟨x, hx, rfl⟩, hp⟩ := hp
  subst hp
  unfold holders at hds
  dsimp only at hds
  split at hds
  · simp at hds
  cases hds
  obtain ⟨s, os, best, hs, hb, ho, hround, hle⟩ := ToStart.searchLoop_last (by omega) hx (by simp only [finishOf]; omega)
  unfold ToStart.round at hround
  cases os with
  | nil => simp only [List.foldl_nil] at hround; rw [hround] at hb; omega
  | cons y os =>
    obtain ⟨a, o', b, he, h1, h2, h3⟩ := ToStart.pick_first hb y os (by rw [hround]; rintro rfl; omega)
    rw [hround] at h1; cases h1
    have hall := ho
    rw [he] at ho
    obtain ⟨near, d, far, hd, hn, hdo, _⟩ := ToStart.offers_split ho
    obtain ⟨hdep, _⟩ := offer_ok hl hdo
    refine ⟨s, near, d, far, hs, hd, by dsimp only; rw [hdep], ?_, ?_⟩
    · rintro n ns rfl x hxo
      unfold offers at hn
      simp only [Option.bind_eq_some_iff, Option.map_eq_some_iff] at hn
      obtain ⟨x', hx', os', _, rfl⟩ := hn
      rw [hxo] at hx'; cases hx'
      simp only [List.cons_append, List.cons.injEq] at he
      have := h2 (by simp)
      rw [he.1] at this
      exact this
    · intro hoff n hnn x hxo
      rw [htime]
      obtain ⟨x', hx', hxo'⟩ := offers_each hn n hnn
      rw [hxo] at hxo'; cases hxo'
      refine h3 (fun z hz => ?_) x hx'
      obtain ⟨d', hd', hz'⟩ := offers_mem hall z hz
      exact hoff d' (by rw [← hd]; exact hd') z hz'

/-- The moment found is not before the moment asked for. -/
theorem found_not_earlier {l : Land} {st : State} {w : Work} {t u : Int} (h : findMin l st w t = some u) : t ≤ u := by
  unfold findMin at h
  split at h
  · cases h; exact Int.le_refl _
  · simp only [Option.bind_eq_some_iff] at h
    obtain ⟨r, hr, h⟩ := h
    have hle : t ≤ r.1 := by
      unfold findReady at hr
      simp only [Option.bind_eq_some_iff, Option.map_eq_some_iff] at hr
      obtain ⟨ok, _, t', ht', req, _, rfl⟩ := hr
      cases ok with
      | true => simp at ht'; simp [ht']
      | false => exact lastTimes_ge (by simpa using ht')
    split at h
    · cases h; exact hle
    · have := ToStart.supplyTime_ge h; omega

/-- A promise is kept: if the materials can be there at a moment, they are there at that moment when they are delivered. -/
theorem delivered_when_promised {l : Land} {st : State} {w : Work} (hw : Modest l w) {t : Int} (hc : canSchedule l st w t = some true)
    {out : Outcome} (hd : deliver l st w t = some out) : out.time = t := by
  rcases ToStart.deliver_cases hd with ⟨_, _, _, h⟩ | ⟨req, hr, hreq, o, use, hp, _, _, _, _, h, _⟩
  · exact h
  · unfold canSchedule at hc
    rw [if_neg (by intro hh; rw [hh] at hreq; simp [request] at hreq; exact hr hreq)] at hc
    simp only [Option.bind_eq_some_iff] at hc
    obtain ⟨ok, _, hc⟩ := hc
    cases ok with
    | false => simp at hc
    | true =>
      simp only [if_true, hreq, Option.bind_some] at hc
      have ht : ToStart.total req ≠ 0 := by
        have := ToStart.total_pos (mats := req) (by
          intro m hm
          obtain ⟨q, hq, _, _, _, c, _, _, hcap, hlt, hcount⟩ := request_mem hreq m hm
          have := (hw.2 q hq).2.2 c hcap
          omega) hr
        omega
      rw [if_neg ht] at hc
      simp only [ToStart.canDeliver, ToStart.supplyTime, if_neg hr, hp, Option.map_some, Option.bind_some] at hc
      split at hc
      · simp at hc; rw [h]; exact hc
      · simp at hc

/-- Service units and works without materials need not wait. -/
theorem nothing_needed {l : Land} (st : State) {w : Work} (hw : w.service = true ∨ w.needs = []) (t : Int) :
    findMin l st w t = some t := by
  unfold findMin
  rw [if_pos hw]

/-- If the search says that a work that is no service unit can start at the moment asked for, its materials are there at that moment
when they are delivered. -/
theorem delivered_when_found {l : Land} {st : State} {w : Work} (hs : w.service = false) (hw : Modest l w) {t : Int}
    (hf : findMin l st w t = some t) {out : Outcome} (hd : deliver l st w t = some out) : out.time = t := by
  rcases ToStart.deliver_cases hd with ⟨_, _, _, h⟩ | ⟨req, hr, hreq, o, use, hp, _, _, _, _, h, _⟩
  · exact h
  · unfold findMin at hf
    rw [if_neg (by
      rintro (hh | hh)
      · rw [hs] at hh; cases hh
      · rw [hh] at hreq; simp [request] at hreq; exact hr hreq)] at hf
    simp only [Option.bind_eq_some_iff] at hf
    obtain ⟨r, hrd, hf⟩ := hf
    have hle : t ≤ r.1 := by
      unfold findReady at hrd
      simp only [Option.bind_eq_some_iff, Option.map_eq_some_iff] at hrd
      obtain ⟨ok, _, t', ht', req, _, rfl⟩ := hrd
      cases ok with
      | true => simp at ht'; simp [ht']
      | false => exact lastTimes_ge (by simpa using ht')
    have h2 : request l st.platforms (l.platform w.id) r.1 w.needs = some r.2 := by
      unfold findReady at hrd
      simp only [Option.bind_eq_some_iff, Option.map_eq_some_iff] at hrd
      obtain ⟨ok, _, t', ht', req, hq, rfl⟩ := hrd
      exact hq
    have hrt : r.1 = t := by
      split at hf
      · exact Option.some.inj hf
      · have := ToStart.supplyTime_ge hf; omega
    rw [hrt, hreq] at h2
    have h2 := Option.some.inj h2
    have ht : ToStart.total req ≠ 0 := by
      have := ToStart.total_pos (mats := req) (by
        intro m hm
        obtain ⟨q, hq, _, _, _, c, _, _, hcap, hlt, hcount⟩ := request_mem hreq m hm
        have := (hw.2 q hq).2.2 c hcap
        omega) hr
      omega
    rw [hrt, ← h2, if_neg ht] at hf
    simp only [ToStart.supplyTime, if_neg hr, hp, Option.map_some, Option.some.injEq] at hf
    rw [h]
    exact hf

/-! ## Examples -/

/-- A sequence of calls, the latest first. -/
private def run (l : Land) : List (Work × Int) → Option (State × List Served)
  | [] => some (State.init l, [])
  | c :: cs => (run l cs).bind fun r => (deliver l r.1 c.1 c.2).map fun out =>
    (out.state, ⟨c.1, c.2, out.records, out.time, out.booked⟩ :: r.2)

private theorem run_history {l : Land} : ∀ {cs : List (Work × Int)} {r : State × List Served}, (∀ c ∈ cs, 0 ≤ c.2) →
    run l cs = some r → History l r.1 r.2 := by
  intro cs r h0 hr
  induction cs generalizing r with
  | nil => simp [run] at hr; subst hr; exact .fresh
  | cons c cs ih =>
    unfold run at hr
    simp only [Option.bind_eq_some_iff, Option.map_eq_some_iff] at hr
    obtain ⟨r', hr', out, hout, rfl⟩ := hr
    exact .serve (ih (fun x hx => h0 x (by simp [hx])) hr') (h0 c (by simp)) hout

/-- Two depots, each with its own road to both platforms. -/
private def near : Depot := ⟨0, 0, 1, [⟨1, 10⟩], [⟨1, 100⟩]⟩

private def far : Depot := ⟨1, 3, 1, [⟨1, 10⟩], [⟨1, 100⟩]⟩

private def land (lanes : Nat) : Land where
  depots := [near, far]
  depotsFrom _ := [near, far]
  roads := [0, 1]
  bandwidth _ := lanes
  overcome i := if i = 0 then 5 else 6
  route b x y := if b ≤ 1 then (if x = 3 ∨ y = 3 then [1] else [0]) else []
  platforms := [1, 2]
  platform w := if w % 2 = 1 then 1 else 2
  capacity _ m := if m = 1 then some 10 else none

private theorem land_sensible {lanes : Nat} (h : 0 < lanes) : Sensible (land lanes) := by
  refine ⟨fun i => ?_, fun batch a b i hi => ?_⟩
  · simp only [land]; split <;> decide
  · simp only [land] at hi ⊢
    split at hi
    · split at hi <;> simp at hi <;> subst hi <;> simp <;> omega
    · simp at hi

/-- The work `i` needs ten of the material. -/
private def work (i : Nat) : Work := ⟨i, false, [⟨1, 10⟩]⟩

private theorem work_modest (lanes i : Nat) : Modest (land lanes) (work i) ∧ Housed (land lanes) (work i) := by
  refine ⟨⟨by simp [work], fun m hm => ?_⟩, ?_, fun m hm => ?_⟩
  · simp only [work, List.mem_singleton] at hm; subst hm
    exact ⟨by simp [vehicles], by decide, fun c hc => by simp [land] at hc; subst hc; decide⟩
  · simp only [land]; split <;> simp
  · simp only [work, List.mem_singleton] at hm; subst hm
    exact ⟨10, by simp [land]⟩

/-- The first works use what is stored on the two platforms; the third one gets a delivery from the nearer depot. -/
private def log3 : List Served :=
  [⟨work 3, 10, [⟨1, 10, 5, 10, 0⟩], 10,
      [⟨(.depot 0, 1), 10, 5, TIME_INF⟩, ⟨(.depot 0, vehicles), 0, 5, 15⟩, ⟨(.road 0, vehicles), 1, 5, 10⟩,
        ⟨(.road 0, vehicles), 1, 10, 15⟩]⟩,
    ⟨work 2, 0, [], 0, []⟩, ⟨work 1, 0, [], 0, []⟩]

private def calls3 : List (Work × Int) := [(work 3, 10), (work 2, 0), (work 1, 0)]

private theorem three_served : ∃ st, run (land 1) calls3 = some (st, log3) ∧ History (land 1) st log3 := by
  have h : (run (land 1) calls3).map (·.2) = some log3 := by decide +kernel
  obtain ⟨r, hr, hl⟩ := Option.map_eq_some_iff.mp h
  refine ⟨r.1, by rw [hr, ← hl], ?_⟩
  rw [← hl]
  exact run_history (by decide) hr

private theorem log3_modest {lanes : Nat} : ∀ s ∈ log3, Modest (land lanes) s.work ∧ Housed (land lanes) s.work := by
  intro s hs
  simp [log3] at hs
  rcases hs with rfl | rfl | rfl <;> exact work_modest _ _

/-- The hypotheses of the theorems above can be met. -/
example : (∃ st, History (land 1) st log3) ∧ (∀ s ∈ log3, Modest (land 1) s.work) ∧ InCalendar log3 ∧ taken log3 0 1 = 10 ∧
    onRoad log3 0 7 = 1 := by
  obtain ⟨st, _, h⟩ := three_served
  refine ⟨⟨st, h⟩, fun s hs => (log3_modest s hs).1, ?_, by decide, by decide⟩
  intro s hs b hb
  simp [log3] at hs
  rcases hs with rfl | rfl | rfl
  · simp at hb
    rcases hb with rfl | rfl | rfl | rfl <;> simp [TIME_INF, vehicles]
  · simp at hb
  · simp at hb

/-- `delivered_when_promised`: the next work can get its materials at the moment 20, not at the moment 12. -/
example : ((run (land 1) calls3).bind fun r => canSchedule (land 1) r.1 (work 4) 12) = some false ∧
    ((run (land 1) calls3).bind fun r => canSchedule (land 1) r.1 (work 4) 20) = some true ∧
    (((run (land 1) calls3).bind fun r => deliver (land 1) r.1 (work 4) 20).map (·.time)) = some 20 := by
  decide +kernel

/-- `delivered_when_found`: the search agrees. -/
example : ((run (land 1) calls3).bind fun r => findMin (land 1) r.1 (work 4) 20) = some 20 ∧
    ((run (land 1) calls3).bind fun r => findMin (land 1) r.1 (work 4) 12) = some 20 := by decide +kernel

/-- Not proved because false: "the materials are there when they are needed if a depot can bring them by then" (C41 shows it of
the other supply timeline).  Depots which leave at the same moment are not compared: the road of the nearer one is busy, so that
it needs until 20; the other one could be there at 12, the moment asked for, but 20 is taken. -/
theorem later_than_possible : ∃ (l : Land) (st : State) (log : List Served) (w : Work) (deadline : Int) (out : Outcome) (req : List Mat)
    (moment : Int) (d : Depot) (x : Offer), Sensible l ∧ History l st log ∧ (∀ s ∈ log, Modest l s.work ∧ Housed l s.work) ∧
    Modest l w ∧ Housed l w ∧ deliver l st w deadline = some out ∧
    request l st.platforms (l.platform w.id) deadline w.needs = some req ∧ 0 ≤ moment ∧ d ∈ l.depotsFrom (l.platform w.id) ∧
    canSupply st.supply req d = true ∧ offer l st.supply (l.platform w.id) req moment d = some x ∧
    x.start + x.ahead = deadline ∧ deadline < out.time := by
  obtain ⟨st, hr, hh⟩ := three_served
  have h1 : (((run (land 1) calls3).bind fun r => deliver (land 1) r.1 (work 4) 12).map (·.time)) = some 20 := by decide +kernel
  have h2 : ((run (land 1) calls3).bind fun r => request (land 1) r.1.platforms 2 12 [⟨1, 10⟩]) = some [⟨1, 10⟩] := by decide +kernel
  have h3 : ((run (land 1) calls3).map fun r => canSupply r.1.supply [⟨1, 10⟩] far) = some true := by decide +kernel
  have h4 : (((run (land 1) calls3).bind fun r => offer (land 1) r.1.supply 2 [⟨1, 10⟩] 6 far).map fun x => x.start + x.ahead) =
    some 12 := by decide +kernel
  simp only [hr, Option.bind_some, Option.map_some, Option.some.injEq] at h1 h2 h3 h4
  obtain ⟨out, hout, ht⟩ := Option.map_eq_some_iff.mp h1
  obtain ⟨x, hx, hxt⟩ := Option.map_eq_some_iff.mp h4
  exact ⟨land 1, st, log3, work 4, 12, out, [⟨1, 10⟩], 6, far, x, land_sensible (by decide), hh, log3_modest, (work_modest _ _).1,
    (work_modest _ _).2, hout, h2, by decide, by simp [land], h3, hx, hxt, by rw [ht]; decide⟩

private def log4 : List Served :=
  ⟨work 4, 10, [⟨1, 10, 5, 10, 0⟩], 10,
      [⟨(.depot 0, 1), 10, 5, TIME_INF⟩, ⟨(.depot 0, vehicles), 0, 5, 15⟩, ⟨(.road 0, vehicles), 1, 5, 10⟩,
        ⟨(.road 0, vehicles), 1, 10, 15⟩]⟩ :: log3

/-- Not proved because false: "a depot never sends more vehicles than it has" (as in C41). -/
theorem fleet_exceeded : ∃ (l : Land) (st : State) (log : List Served) (d : Depot) (t : Int), Sensible l ∧ History l st log ∧
    (∀ s ∈ log, Modest l s.work ∧ Housed l s.work) ∧ InOrder l log ∧ d ∈ l.depots ∧ d.fleet < onTheWay log d.id t := by
  have h : (run (land 2) ((work 4, 10) :: calls3)).map (·.2) = some log4 := by decide +kernel
  obtain ⟨r, hr, hl⟩ := Option.map_eq_some_iff.mp h
  have hh := run_history (by decide) hr
  rw [hl] at hh
  refine ⟨land 2, r.1, log4, near, 7, land_sensible (by decide), hh, ?_, by simp [InOrder, log4, log3, land, work], by simp [land], by decide⟩
  intro s hs
  rcases List.mem_cons.1 hs with rfl | hs
  · exact work_modest _ _
  · exact log3_modest s hs

end Sampo.C98
