import Verif.Lemmas.SupplyPlatform
import Verif.Lemmas.SupplyTrip

/-!
# C41: material stock is never overdrawn

Stocks of depots and bandwidths of roads are respected by every sequence of deliveries.  The number of vehicles of a depot, what
a vehicle can carry, and the storage of a platform are not; the storage is respected when the works of a platform are asked for
in order, no work needs more than the platform can store, and no delivery brings only a part of what its work needs.
-/

namespace Sampo.C41

open Supply

/-- The quantity delivered from a depot never exceeds its stock. -/
theorem stock_not_exceeded {l : Land} (hl : ∀ i, 0 < l.overcome i) {st : State} {log : List Served} (h : History l st log)
    (hm : ∀ s ∈ log, Modest l s.work) (hc : InCalendar log) (hids : (l.depots.map (·.id)).Nodup) {d : Depot}
    (hd : d ∈ l.depots) (hnames : (d.stock.map (·.name)).Nodup) {x : Mat} (hx : x ∈ d.stock) (hv : x.name ≠ vehicles)
    (h0 : 0 ≤ x.count) : taken log d.id x.name ≤ x.count := by
  have find_mem : ∀ {α : Type} (f : α → Nat) (xs : List α), (xs.map f).Nodup → ∀ y ∈ xs, (xs.find? fun z => f z = f y) = some y := by
    intro α f xs
    induction xs with
    | nil => intro _ y hy; simp at hy
    | cons z zs ih =>
      intro hn y hy
      rw [List.map_cons, List.nodup_cons] at hn
      rcases List.mem_cons.mp hy with rfl | hy
      · simp
      · have hne : f z ≠ f y := fun heq => hn.1 (by rw [heq]; exact List.mem_map_of_mem hy)
        rw [List.find?_cons_of_neg (by simpa using hne)]
        exact ih hn.2 y hy
  have hi : l.initial (.depot d.id, x.name) = some x.count := by
    simp only [Land.initial]
    rw [find_mem (·.id) l.depots hids d hd]
    simp only [Option.bind_some, Depot.initial, hv, if_false]
    rw [find_mem (·.name) d.stock hnames x hx]
    rfl
  obtain ⟨s, hs, hk⟩ := ((history_inv hl h hm hc).follows _).2 x.count hi
  rw [taken_eq hl h hc hv]
  exact hk.room h0 _ (by simp [TIME_INF])

/-- At no moment are more vehicles on a road than it can take. -/
theorem road_not_overcrowded {l : Land} (hl : ∀ i, 0 < l.overcome i) {st : State} {log : List Served} (h : History l st log)
    (hm : ∀ s ∈ log, Modest l s.work) (hc : InCalendar log) {i : Nat} (hi : i ∈ l.roads) (h0 : 0 ≤ l.bandwidth i) (t : Int) :
    onRoad log i t ≤ l.bandwidth i := by
  have hinv := history_inv hl h hm hc
  obtain ⟨s, hs, hk⟩ := (hinv.follows (.road i, vehicles)).2 (l.bandwidth i) (by simp [Land.initial, hi])
  by_cases ht : 0 ≤ t
  · exact hk.room h0 t ht
  · have hz : ∀ bs : List Booking, (∀ b ∈ bs, b.Proper) → inUse bs (.road i, vehicles) t = 0 := by
      intro bs
      induction bs with
      | nil => intro _; rfl
      | cons b bs ih =>
        intro hp
        have := (hp b (by simp)).1
        rw [inUse_cons, if_neg (by omega), ih (fun c hcc => hp c (by simp [hcc]))]; rfl
    unfold onRoad
    rw [hz _ hinv.proper]; exact h0

/-- A work gets its materials not before the moment asked for; what is delivered comes from one of the depots, leaves before it
arrives, and arrives when the work can start. -/
theorem delivery_in_time {l : Land} (hl : ∀ i, 0 < l.overcome i) {st : State} {w : Work} {deadline : Int} {out : Outcome}
    (h : deliver l st w deadline = some out) :
    deadline ≤ out.time ∧ ∀ r ∈ out.records, 0 ≤ r.start ∧ r.start < r.finish ∧ r.finish = out.time ∧
      ∃ d ∈ l.depotsFrom (l.platform w.id), r.depot = d.id := by
  rcases deliver_cases h with ⟨_, h2, _, h4⟩ | ⟨req, _, _, o, _, hp, _, _, _, hrec, htime, _⟩
  · rw [h4, h2]; exact ⟨le_refl _, by simp⟩
  · obtain ⟨d, hd, _, hle, start, h0, hoff⟩ := plan_spec hp
    obtain ⟨hdep, hok⟩ := offer_ok hl hoff
    refine ⟨by rw [htime]; exact hle, ?_⟩
    intro r hr
    rw [hrec] at hr
    obtain ⟨m, _, rfl⟩ := List.mem_map.mp hr
    have := hok.later
    have := hok.ahead
    exact ⟨by dsimp only; omega, by dsimp only; omega, htime.symm, d, hd, by dsimp only; rw [hdep]⟩

/-- Which depot delivers: the search ends at a moment for which every depot that has the materials made an offer.  If one of the
offers arrives exactly when asked for, so does the delivery; if none arrives earlier than asked for, the delivery is the earliest
of them. -/
theorem delivery_chosen {l : Land} {st : State} {w : Work} {deadline : Int} {out : Outcome} (h0 : 0 ≤ deadline)
    (h : deliver l st w deadline = some out) (hne : out.records ≠ []) {req : List Mat}
    (hreq : request l st.platforms (l.platform w.id) deadline w.needs = some req) :
    ∃ moment, 0 ≤ moment ∧ ∀ d ∈ l.depotsFrom (l.platform w.id), canSupply st.supply req d = true →
      ∃ x, offer l st.supply (l.platform w.id) req moment d = some x ∧
        (x.start + x.ahead = deadline → out.time = deadline) ∧
        ((∀ d' ∈ l.depotsFrom (l.platform w.id), canSupply st.supply req d' = true →
          ∀ x', offer l st.supply (l.platform w.id) req moment d' = some x' → deadline ≤ x'.start + x'.ahead) →
          out.time ≤ x.start + x.ahead) := by
  rcases deliver_cases h with ⟨_, h2, _, h4⟩ | ⟨req', _, hreq', o, _, hp, _, _, _, hrec, htime, _⟩
  · exact absurd h2 hne
  · rw [hreq] at hreq'; cases hreq'
    rw [htime]
    exact plan_best h0 hp

/-- A work whose platform is served by well equipped depots, one of which still has what is to be brought, gets it: a trip is
found, and unless the trip starts beyond the calendar no assertion fails when it is booked. -/
theorem delivery_made {l : Land} (hl : Sensible l) {st : State} {log : List Served} (h : History l st log)
    (hm : ∀ s ∈ log, Modest l s.work) (hc : InCalendar log) {w : Work} (hw : Modest l w) (hh : Housed l w) {deadline : Int}
    (h0 : 0 ≤ deadline) (hserve : ∀ d ∈ l.depotsFrom (l.platform w.id), Serves l (l.platform w.id) d) {req : List Mat}
    (hreq : request l st.platforms (l.platform w.id) deadline w.needs = some req)
    (hstock : ∃ d ∈ l.depotsFrom (l.platform w.id), ∀ m ∈ req, ∃ n, l.initial (.depot d.id, m.name) = some n ∧
      m.count ≤ n - taken log d.id m.name) :
    (∃ out, deliver l st w deadline = some out) ∨
      ∃ o, plan l st.supply (l.platform w.id) deadline req = some o ∧ TIME_INF ≤ o.start := by
  have hinv := history_inv hl.long h hm hc
  have hknown := history_known hl.long h hm
  by_cases hno : w.needs = [] ∨ w.service = true
  · left; exact ⟨_, by unfold deliver; rw [if_pos hno]⟩
  by_cases hr : req = []
  · left
    obtain ⟨ok, hok⟩ := calm_exists (time := deadline) hknown hh.1 hh.2
    obtain ⟨p, hp⟩ := takeAll_exists hh.1 h0 hknown hh.2
    cases ok with
    | true => exact ⟨_, by unfold deliver; rw [if_neg hno]; simp [hreq, hr, hok, hp]; rfl⟩
    | false => exact ⟨_, by unfold deliver; rw [if_neg hno]; simp [hreq, hr, hok, supply]; rfl⟩
  · have hpos : ∀ m ∈ req, 0 < m.count ∧ m.name ≠ vehicles := by
      intro m hmm
      obtain ⟨q, hq, hn, s, e, c, _, _, hcap, hlt, hcount⟩ := request_mem hreq m hmm
      obtain ⟨h1, h2, h3⟩ := hw.2 q hq
      have := h3 c hcap
      exact ⟨by omega, by rw [← hn]; exact h1⟩
    obtain ⟨d, hd, hds⟩ := hstock
    have hcan := canSupply_of hl.long h hinv hc (fun m hmm => ⟨(hpos m hmm).2, hds m hmm⟩)
    obtain ⟨o, ho⟩ := plan_exists hl hinv hc h0 hr hpos hserve hd hcan
    by_cases hinf : o.start < TIME_INF
    · left
      obtain ⟨tl, htl⟩ := book_plan hl hinv hc ((request_sublist hreq).nodup hw.1)
        (fun m hmm => ⟨by have := (hpos m hmm).1; omega, (hpos m hmm).2⟩) ho hinf
      obtain ⟨use, hu⟩ := platformUse_exists (needs := w.needs) (mats := req) (by
        intro m hmm
        obtain ⟨q, hq, hn, _⟩ := request_mem hreq m hmm
        exact ⟨q, hq, hn⟩)
      obtain ⟨_, _, _, _, start, hs0, hoff⟩ := plan_spec ho
      have hok := (offer_ok hl.long hoff).2
      obtain ⟨p, hp⟩ := takeAll_exists (l := l) hh.1 (start := o.start + o.ahead)
        (by have := hok.later; have := hok.ahead; omega) hknown (mats := use) (by
          intro u hu'
          obtain ⟨_, _, q, hq, _, hqn, _⟩ := (platformUse_spec hu).2 u hu'
          rw [← hqn]; exact hh.2 q hq)
      exact ⟨_, by unfold deliver; rw [if_neg hno]; simp [hreq, hr, supply, ho, hu, hp, htl]; rfl⟩
    · exact Or.inr ⟨o, ho, by omega⟩

/-- Partial: what a platform has received covers, together with what it had at the beginning, what its works have needed, and
the storage is never overfilled - if the works of a platform are asked for in order and each delivery brings everything or
nothing, and no work needs more than the platform can store.  Missing: the cases without these conditions, where it is false
(`storage_overdrawn_*`). -/
theorem needs_covered_partial {l : Land} (hl : ∀ i, 0 < l.overcome i) {st : State} {log : List Served} (h : History l st log)
    (hm : ∀ s ∈ log, Modest l s.work ∧ Housed l s.work) (ho : InOrder l log) (ha : AllOrNothing log) {platform name : Nat}
    {c : Int} (hp : platform ∈ l.platforms) (hc : l.capacity platform name = some c) (h0 : 0 ≤ c) :
    needed l log platform name ≤ c + received l log platform name ∧ received l log platform name ≤ needed l log platform name := by
  obtain ⟨_, e, _, _, _, h1, h2, h3, _⟩ := history_stored hl h hm ho ha platform name c hp hc h0
  omega

/-- Partial: the vehicles sent can carry what they deliver, are at most those of the depot, and all roads are booked between the
moment at which the materials leave and the moment at which the vehicles are back - if the depots have enough vehicles for what
they deliver.  Missing: depots with too few vehicles (`vehicles_overloaded`, `roads_booked_earlier`); and vehicles used by other
deliveries at the same time (`fleet_exceeded`). -/
theorem trip_as_booked_partial {l : Land} (hl : ∀ i, 0 < l.overcome i) {st : State} {log : List Served} (h : History l st log)
    (hm : ∀ s ∈ log, Modest l s.work) {w : Work} (hw : Modest l w) {deadline : Int} {out : Outcome}
    (hout : deliver l st w deadline = some out)
    (hdep : ∀ d ∈ l.depotsFrom (l.platform w.id), l.initial (.depot d.id, vehicles) = some (d.fleet : Int) ∧
      (∀ m ∈ d.load, 0 < m.count) ∧
      ∀ r ∈ out.records, ∀ m ∈ d.load, r.name = m.name → r.count ≤ d.fleet * m.count) :
    ∀ r ∈ out.records, ∃ d ∈ l.depotsFrom (l.platform w.id), r.depot = d.id ∧ ∃ back, r.finish < back ∧
      ∀ b ∈ out.booked, ∀ i, b.key = (.road i, vehicles) →
        r.start ≤ b.start ∧ b.finish = b.start + l.overcome i ∧ b.finish ≤ back ∧ b.count ≤ d.fleet ∧
        (b.finish ≤ r.finish ∨ r.finish ≤ b.start) ∧ ∀ m ∈ d.load, r.name = m.name → r.count ≤ b.count * m.count := by
  intro r hr
  rcases deliver_cases hout with ⟨_, h2, _, _⟩ | ⟨req, _, hreq, o, _, hp, _, _, _, hrec, htime, hbk⟩
  · rw [h2] at hr; simp at hr
  · obtain ⟨d, hd, _, hle, start, h0, hoff⟩ := plan_spec hp
    obtain ⟨hdo, hok⟩ := offer_ok hl hoff
    obtain ⟨h1, h2, h3⟩ := hdep d hd
    have hn : (req.map (·.name)).Nodup := (request_sublist hreq).nodup hw.1
    obtain ⟨hst, hcarry, hfl⟩ := offer_trip (idle_history h hm) hn hoff h1 h2 (by
      intro m hmm q hq hqm
      exact h3 ⟨q.name, q.count, o.start, o.start + o.ahead, o.depot.id⟩
        (by rw [hrec]; exact List.mem_map_of_mem (f := fun m : Mat => (⟨m.name, m.count, o.start, o.start + o.ahead, o.depot.id⟩ : Record)) hq)
        m hmm hqm)
    rw [hrec] at hr
    obtain ⟨q, hq, rfl⟩ := List.mem_map.mp hr
    have := hok.ahead
    have := hok.back
    refine ⟨d, hd, by dsimp only; rw [hdo], o.start + o.ahead + o.back, by dsimp only; omega, ?_⟩
    intro b hb i hk
    rw [hbk] at hb
    have hroad : ∃ e : Nat × Int × Int, (e ∈ o.thither ∨ e ∈ o.hither) ∧ b = ⟨(.road e.1, vehicles), o.batch, e.2.1, e.2.2⟩ := by
      unfold bookings at hb
      simp only [List.mem_append] at hb
      rcases hb with ((hb | hb) | hb) | hb
      · obtain ⟨m, hmm, rfl⟩ := List.mem_map.mp hb
        simp at hk
      · simp at hb; subst hb; simp at hk
      · obtain ⟨e, he, hb⟩ := List.mem_flatMap.mp hb
        rcases List.mem_cons.mp hb with rfl | hb
        · exact ⟨e, Or.inl he, rfl⟩
        · obtain ⟨f, hf, rfl⟩ := List.mem_map.mp hb
          exact ⟨f, Or.inr (List.mem_filter.mp hf).1, rfl⟩
      · obtain ⟨f, hf, rfl⟩ := List.mem_map.mp hb
        exact ⟨f, Or.inr (List.mem_filter.mp hf).1, rfl⟩
    obtain ⟨e, he, rfl⟩ := hroad
    simp at hk
    subst hk
    have hfl' : (o.batch : Int) ≤ d.fleet := by exact_mod_cast hfl
    rcases he with he | he
    · have h := hok.thither.ok e he
      exact ⟨by dsimp only; omega, h.2.1, by dsimp only; omega, hfl', Or.inl (by dsimp only; omega),
        fun m hmm hqm => hcarry m hmm q hq hqm⟩
    · have h := hok.hither.ok e he
      exact ⟨by dsimp only; omega, h.2.1, by dsimp only; omega, hfl', Or.inr (by dsimp only; omega),
        fun m hmm hqm => hcarry m hmm q hq hqm⟩

/-! ## Examples -/

/-- A sequence of calls, the latest first. -/
private def run (l : Land) : List (Work × Int) → Option (State × List Served)
  | [] => some (State.init l, [])
  | c :: cs => (run l cs).bind fun r => (deliver l r.1 c.1 c.2).map fun out =>
    (out.state, ⟨c.1, c.2, out.records, out.time, out.booked⟩ :: r.2)

private theorem run_history {l : Land} : ∀ {cs : List (Work × Int)} {log : List Served}, (∀ c ∈ cs, 0 ≤ c.2) →
    (run l cs).map (·.2) = some log → ∃ st, History l st log := by
  intro cs log h0 h
  obtain ⟨r, hr, rfl⟩ := Option.map_eq_some_iff.mp h
  refine ⟨r.1, ?_⟩
  clear h
  induction cs generalizing r with
  | nil => simp [run] at hr; subst hr; exact .fresh
  | cons c cs ih =>
    unfold run at hr
    simp only [Option.bind_eq_some_iff, Option.map_eq_some_iff] at hr
    obtain ⟨r', hr', out, hout, rfl⟩ := hr
    exact .serve (ih (fun x hx => h0 x (by simp [hx])) r' hr') (h0 c (by simp)) hout

/-- One depot with one vehicle, two platforms, a road to each. -/
private def depot : Depot := ⟨0, 0, 1, [⟨1, 5⟩, ⟨2, 10⟩], [⟨1, 100⟩, ⟨2, 100⟩]⟩

private def land : Land where
  depots := [depot]
  depotsFrom _ := [depot]
  roads := [0, 1]
  bandwidth _ := 2
  overcome _ := 3
  route b x y := if b ≤ 2 then (if x = 2 ∨ y = 2 then [1] else [0]) else []
  platforms := [1, 2]
  platform w := if w % 2 = 1 then 1 else 2
  capacity _ m := if m = 1 ∨ m = 2 then some 10 else none

private theorem land_sensible : Sensible land := by
  refine ⟨fun i => (by simp [land]), fun batch a b i hi => ?_⟩
  simp only [land] at hi ⊢
  split at hi
  · split at hi <;> simp at hi <;> subst hi <;> simp <;> omega
  · simp at hi

private theorem depot_serves (p : Nat) : Serves land p depot := by
  refine ⟨⟨1, rfl⟩, by decide, by decide, ?_, ?_, ?_⟩
  · intro r n h hr
    simp [Land.initial, land, depot, Depot.initial, hr] at h
    obtain ⟨m, h1, h2⟩ := h
    by_cases h1' : r = 1
    · exact ⟨⟨1, 5⟩, by simp [depot], h1'.symm⟩
    · by_cases h2' : r = 2
      · exact ⟨⟨2, 10⟩, by simp [depot], h2'.symm⟩
      · exfalso
        have hne1 : ¬ (1 = r) := fun hh => h1' hh.symm
        have hne2 : ¬ (2 = r) := fun hh => h2' hh.symm
        simp [hne1, hne2] at h1
  · intro batch _ hb
    have : batch ≤ 2 := by simp [depot] at hb; omega
    simp only [land, this, if_true]
    split <;> simp
  · intro batch _ hb
    have : batch ≤ 2 := by simp [depot] at hb; omega
    simp only [land, this, if_true]
    split <;> simp

/-- The log of two works on the first platform: the second one needs a delivery. -/
private def log1 : List Served :=
  [⟨⟨3, false, [⟨1, 4⟩]⟩, 5, [⟨1, 8, 2, 5, 0⟩], 5,
      [⟨(.depot 0, 1), 8, 2, TIME_INF⟩, ⟨(.depot 0, vehicles), 0, 2, 8⟩, ⟨(.road 0, vehicles), 1, 2, 5⟩,
        ⟨(.road 0, vehicles), 1, 5, 8⟩]⟩,
    ⟨⟨1, false, [⟨1, 8⟩]⟩, 0, [], 0, []⟩]

/-- The hypotheses of the theorems above can be met. -/
example : (∃ st, History land st log1) ∧ (∀ s ∈ log1, Modest land s.work ∧ Housed land s.work) ∧ InCalendar log1 ∧
    InOrder land log1 ∧ AllOrNothing log1 ∧ taken log1 0 1 = 8 ∧ onRoad log1 0 2 = 1 ∧ needed land log1 1 1 = 12 ∧
    received land log1 1 1 = 8 := by
  refine ⟨run_history (cs := [(⟨3, false, [⟨1, 4⟩]⟩, 5), (⟨1, false, [⟨1, 8⟩]⟩, 0)]) (by decide) (by decide +kernel), ?_, ?_, ?_, ?_,
    by decide, by decide, by decide, by decide⟩
  · intro s hs
    simp [log1] at hs
    rcases hs with rfl | rfl <;>
      exact ⟨⟨by decide, by simp [land, vehicles]⟩, by decide, by simp [land]⟩
  · intro s hs b hb
    simp [log1] at hs
    rcases hs with rfl | rfl
    · simp at hb
      rcases hb with rfl | rfl | rfl | rfl <;> simp [TIME_INF, vehicles]
    · simp at hb
  · simp [InOrder, log1]
  · intro s hs
    simp [log1] at hs
    rcases hs with rfl | rfl <;> simp

/-- `delivery_made`: after the first work the second one has something to be brought, the depot has it and can bring it. -/
example : (∀ d ∈ land.depotsFrom 1, Serves land 1 d) ∧
    ((run land [(⟨1, false, [⟨1, 8⟩]⟩, 0)]).bind fun r => request land r.1.platforms 1 5 [⟨1, 4⟩]) = some [⟨1, 8⟩] ∧
    land.initial (.depot 0, 1) = some 100 :=
  ⟨fun d hd => by simp [land] at hd; subst hd; exact depot_serves 1, by decide +kernel, by decide⟩

/-- `trip_as_booked_partial`: one vehicle is enough to bring 10 of the second material. -/
example : (((run land [(⟨1, false, [⟨2, 10⟩]⟩, 0)]).bind fun r => deliver land r.1 ⟨3, false, [⟨2, 10⟩]⟩ 5).map fun out =>
      (out.records, (out.booked.filter fun b => b.key.1 = .road 0).map fun b => (b.start, b.finish, b.count))) =
      some ([⟨2, 10, 2, 5, 0⟩], [(2, 5, 1), (5, 8, 1)]) ∧
    ∀ d ∈ land.depotsFrom 1, land.initial (.depot d.id, vehicles) = some (d.fleet : Int) ∧ (∀ m ∈ d.load, 0 < m.count) ∧
      ∀ m ∈ d.load, 2 = m.name → 10 ≤ d.fleet * m.count := by
  refine ⟨by decide +kernel, ?_⟩
  intro d hd
  simp [land] at hd; subst hd
  exact ⟨by decide, by decide, by decide⟩

/-! ## What is not guaranteed -/

private theorem modest_of {w : Work} (h1 : (w.needs.map (·.name)).Nodup) (h2 : ∀ m ∈ w.needs, (m.name = 1 ∨ m.name = 2) ∧ 0 ≤ m.count)
    (h3 : ∀ m ∈ w.needs, m.count ≤ 10) : Modest land w ∧ Housed land w := by
  have hp : land.platform w.id ∈ land.platforms := by
    simp only [land]; split <;> simp
  refine ⟨⟨h1, fun m hm => ⟨?_, (h2 m hm).2, ?_⟩⟩, hp, fun m hm => ⟨10, ?_⟩⟩
  · have := (h2 m hm).1
    unfold vehicles; omega
  · intro c hc
    have := h3 m hm
    simp only [land, (h2 m hm).1, if_true, Option.some.injEq] at hc
    omega
  · simp [land, (h2 m hm).1]

/-- Two platforms, both of which are supplied at the same moment. -/
private def log2 : List Served :=
  [⟨⟨4, false, [⟨2, 10⟩]⟩, 5, [⟨2, 10, 2, 5, 0⟩], 5,
      [⟨(.depot 0, 2), 10, 2, TIME_INF⟩, ⟨(.depot 0, vehicles), 0, 2, 8⟩, ⟨(.road 1, vehicles), 1, 2, 5⟩,
        ⟨(.road 1, vehicles), 1, 5, 8⟩]⟩,
    ⟨⟨3, false, [⟨2, 10⟩]⟩, 5, [⟨2, 10, 2, 5, 0⟩], 5,
      [⟨(.depot 0, 2), 10, 2, TIME_INF⟩, ⟨(.depot 0, vehicles), 0, 2, 8⟩, ⟨(.road 0, vehicles), 1, 2, 5⟩,
        ⟨(.road 0, vehicles), 1, 5, 8⟩]⟩,
    ⟨⟨2, false, [⟨2, 10⟩]⟩, 0, [], 0, []⟩,
    ⟨⟨1, false, [⟨2, 10⟩]⟩, 0, [], 0, []⟩]

private theorem log2_history : ∃ st, History land st log2 :=
  run_history (cs := [(⟨4, false, [⟨2, 10⟩]⟩, 5), (⟨3, false, [⟨2, 10⟩]⟩, 5), (⟨2, false, [⟨2, 10⟩]⟩, 0), (⟨1, false, [⟨2, 10⟩]⟩, 0)])
    (by decide) (by decide +kernel)

/-- Not proved because false: "a depot never sends more vehicles than it has".  The vehicles of a trip are not booked (the list
whose length is booked is never filled), so that two trips use the only vehicle of the depot at the same time. -/
theorem fleet_exceeded : ∃ (l : Land) (st : State) (log : List Served) (d : Depot) (t : Int), Sensible l ∧ History l st log ∧
    (∀ s ∈ log, Modest l s.work ∧ Housed l s.work) ∧ InOrder l log ∧ d ∈ l.depots ∧ d.fleet < onTheWay log d.id t := by
  obtain ⟨st, hst⟩ := log2_history
  refine ⟨land, st, log2, depot, 3, land_sensible, hst, ?_, by simp [InOrder, log2, land], by simp [land], by decide⟩
  intro s hs
  simp [log2] at hs
  rcases hs with rfl | rfl | rfl | rfl <;> exact modest_of (by decide) (by decide) (by decide)

/-- The same with a material of which the vehicle can carry a half only. -/
private def log3 : List Served :=
  [⟨⟨4, false, [⟨1, 10⟩]⟩, 5, [⟨1, 10, 8, 11, 0⟩], 11,
      [⟨(.depot 0, 1), 10, 8, TIME_INF⟩, ⟨(.depot 0, vehicles), 0, 8, 14⟩, ⟨(.road 1, vehicles), 1, 0, 3⟩,
        ⟨(.road 1, vehicles), 1, 3, 6⟩]⟩,
    ⟨⟨3, false, [⟨1, 10⟩]⟩, 5, [⟨1, 10, 2, 5, 0⟩], 5,
      [⟨(.depot 0, 1), 10, 2, TIME_INF⟩, ⟨(.depot 0, vehicles), 0, 2, 8⟩, ⟨(.road 0, vehicles), 1, 2, 5⟩,
        ⟨(.road 0, vehicles), 1, 5, 8⟩]⟩,
    ⟨⟨2, false, [⟨1, 10⟩]⟩, 0, [], 0, []⟩,
    ⟨⟨1, false, [⟨1, 10⟩]⟩, 0, [], 0, []⟩]

private theorem log3_history : ∃ st, History land st log3 :=
  run_history (cs := [(⟨4, false, [⟨1, 10⟩]⟩, 5), (⟨3, false, [⟨1, 10⟩]⟩, 5), (⟨2, false, [⟨1, 10⟩]⟩, 0), (⟨1, false, [⟨1, 10⟩]⟩, 0)])
    (by decide) (by decide +kernel)

private theorem log3_modest : ∀ s ∈ log3, Modest land s.work ∧ Housed land s.work := by
  intro s hs
  simp [log3] at hs
  rcases hs with rfl | rfl | rfl | rfl <;> exact modest_of (by decide) (by decide) (by decide)

/-- Not proved because false: "the vehicles sent can carry what they deliver".  If a depot has fewer vehicles than are needed,
it sends all it has, and they deliver everything in one trip. -/
theorem vehicles_overloaded : ∃ (l : Land) (st : State) (log : List Served) (d : Depot) (m : Mat) (s : Served) (r : Record),
    Sensible l ∧ History l st log ∧ (∀ s ∈ log, Modest l s.work ∧ Housed l s.work) ∧ d ∈ l.depots ∧ m ∈ d.load ∧ s ∈ log ∧
    r ∈ s.records ∧ r.depot = d.id ∧ r.name = m.name ∧ d.fleet * m.count < r.count ∧
    ∀ b ∈ s.booked, b.key.1 ≠ .depot d.id → b.count * m.count < r.count := by
  obtain ⟨st, hst⟩ := log3_history
  refine ⟨land, st, log3, depot, ⟨1, 5⟩, log3[1], ⟨1, 10, 2, 5, 0⟩, land_sensible, hst, log3_modest, by simp [land],
    by simp [depot], by simp [log3], by simp [log3], rfl, rfl, by decide, ?_⟩
  intro b hb hk
  simp [log3] at hb
  rcases hb with rfl | rfl | rfl | rfl <;> simp [depot] at hk ⊢

/-- Not proved because false: "the roads are booked for the time of the trip".  The roads are searched from a moment at which the
vehicles may be away; the trip is then put off, and the bookings of the roads are not: here the materials travel from 8 to 11, and
no road is booked at any moment of it. -/
theorem roads_booked_earlier : ∃ (l : Land) (st : State) (log : List Served) (s : Served) (r : Record),
    Sensible l ∧ History l st log ∧ (∀ s ∈ log, Modest l s.work ∧ Housed l s.work) ∧ s ∈ log ∧ r ∈ s.records ∧
    r.start < r.finish ∧ ∀ i t, r.start ≤ t → t < r.finish → inUse s.booked (.road i, vehicles) t = 0 := by
  obtain ⟨st, hst⟩ := log3_history
  refine ⟨land, st, log3, log3[0], ⟨1, 10, 8, 11, 0⟩, land_sensible, hst, log3_modest, by simp [log3], by simp [log3],
    by decide, ?_⟩
  intro i t h1 h2
  dsimp only at h1
  have h3 : ¬ t < 3 := by omega
  have h4 : ¬ t < 6 := by omega
  simp [log3, inUse, h3, h4]

/-- Not proved because false: "what a platform has and receives covers what its works need", for a work that needs more than
the platform can store: only what fits into the storage is brought. -/
theorem storage_overdrawn_large : ∃ (l : Land) (st : State) (log : List Served) (p m : Nat) (c : Int), Sensible l ∧
    History l st log ∧ (∀ s ∈ log, Housed l s.work) ∧ InOrder l log ∧ AllOrNothing log ∧ p ∈ l.platforms ∧
    l.capacity p m = some c ∧ c + received l log p m < needed l log p m := by
  obtain ⟨st, hst⟩ := run_history (l := land) (log := [⟨⟨3, false, [⟨1, 15⟩]⟩, 5, [⟨1, 6, 2, 5, 0⟩], 5,
      [⟨(.depot 0, 1), 6, 2, TIME_INF⟩, ⟨(.depot 0, vehicles), 0, 2, 8⟩, ⟨(.road 0, vehicles), 1, 2, 5⟩,
        ⟨(.road 0, vehicles), 1, 5, 8⟩]⟩, ⟨⟨1, false, [⟨1, 6⟩]⟩, 0, [], 0, []⟩])
    (cs := [(⟨3, false, [⟨1, 15⟩]⟩, 5), (⟨1, false, [⟨1, 6⟩]⟩, 0)]) (by decide) (by decide +kernel)
  refine ⟨land, st, _, 1, 1, 10, land_sensible, hst, ?_, by simp [InOrder], ?_, by simp [land], rfl, by decide⟩
  · intro s hs
    simp at hs
    rcases hs with rfl | rfl <;> exact ⟨by decide, by simp [land]⟩
  · intro s hs
    simp at hs
    rcases hs with rfl | rfl <;> simp

/-- Not proved because false: the same for works that get a delivery of only a part of their materials: what such a work takes
of the other materials is not recorded.  Three works in order need 20 of a material; the platform had 10 and received none. -/
theorem storage_overdrawn_part : ∃ (l : Land) (st : State) (log : List Served) (p m : Nat) (c : Int), Sensible l ∧
    History l st log ∧ (∀ s ∈ log, Modest l s.work ∧ Housed l s.work) ∧ InOrder l log ∧ p ∈ l.platforms ∧
    l.capacity p m = some c ∧ c + received l log p m < needed l log p m := by
  obtain ⟨st, hst⟩ := run_history (l := land) (log := [⟨⟨5, false, [⟨1, 10⟩]⟩, 9, [], 9, []⟩,
      ⟨⟨3, false, [⟨1, 10⟩, ⟨2, 10⟩]⟩, 5, [⟨2, 10, 2, 5, 0⟩], 5,
      [⟨(.depot 0, 2), 10, 2, TIME_INF⟩, ⟨(.depot 0, vehicles), 0, 2, 8⟩, ⟨(.road 0, vehicles), 1, 2, 5⟩,
        ⟨(.road 0, vehicles), 1, 5, 8⟩]⟩, ⟨⟨1, false, [⟨2, 10⟩]⟩, 0, [], 0, []⟩])
    (cs := [(⟨5, false, [⟨1, 10⟩]⟩, 9), (⟨3, false, [⟨1, 10⟩, ⟨2, 10⟩]⟩, 5), (⟨1, false, [⟨2, 10⟩]⟩, 0)]) (by decide)
    (by decide +kernel)
  refine ⟨land, st, _, 1, 1, 10, land_sensible, hst, ?_, by simp [InOrder], by simp [land], rfl, by decide⟩
  intro s hs
  simp at hs
  rcases hs with rfl | rfl | rfl <;> exact modest_of (by decide) (by decide) (by decide)

/-- Not proved because false: the same for works that are not asked for in order: one later event is tolerated, and it is not
lowered.  The works need 14 of a material; the platform had 10 and received none. -/
theorem storage_overdrawn_order : ∃ (l : Land) (st : State) (log : List Served) (p m : Nat) (c : Int), Sensible l ∧
    History l st log ∧ (∀ s ∈ log, Modest l s.work ∧ Housed l s.work) ∧ AllOrNothing log ∧ p ∈ l.platforms ∧
    l.capacity p m = some c ∧ c + received l log p m < needed l log p m := by
  obtain ⟨st, hst⟩ := run_history (l := land) (log := [⟨⟨3, false, [⟨1, 6⟩]⟩, 5, [], 5, []⟩, ⟨⟨1, false, [⟨1, 8⟩]⟩, 10, [], 10, []⟩])
    (cs := [(⟨3, false, [⟨1, 6⟩]⟩, 5), (⟨1, false, [⟨1, 8⟩]⟩, 10)]) (by decide) (by decide +kernel)
  refine ⟨land, st, _, 1, 1, 10, land_sensible, hst, ?_, ?_, by simp [land], rfl, by decide⟩
  · intro s hs
    simp at hs
    rcases hs with rfl | rfl <;> exact modest_of (by decide) (by decide) (by decide)
  · intro s hs
    simp at hs
    rcases hs with rfl | rfl <;> simp

end Sampo.C41
