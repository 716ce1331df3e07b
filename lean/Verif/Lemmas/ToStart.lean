import Verif.Spec.ToStart
import Verif.Lemmas.SupplyHistory
import Verif.Lemmas.SupplyQuery

/-! Lemmas about `ToStartSupplyTimeline`. -/

namespace Sampo.ToStart
open Supply

theorem foldl_pick {deadline : Int} : ∀ {os : List Offer} {s : Int × Option Offer},
    (os.foldl (pick deadline) s).2 = s.2 ∨ ∃ o ∈ os, (os.foldl (pick deadline) s).2 = some o := by
  intro os
  induction os with
  | nil => intro s; exact .inl rfl
  | cons o os ih =>
    intro s
    rw [List.foldl_cons]
    have hc : (pick deadline s o).2 = s.2 ∨ (pick deadline s o).2 = some o := by
      unfold pick; split
      · exact .inr rfl
      · exact .inl rfl
    rcases ih (s := pick deadline s o) with h | ⟨x, hx, h⟩
    · rw [h]
      rcases hc with hc | hc
      · exact .inl hc
      · exact .inr ⟨o, by simp, hc⟩
    · exact .inr ⟨x, by simp [hx], h⟩

theorem searchLoop_spec {l : Land} {tl : Timeline} {platform : Nat} {mats : List Mat} {ds : List Depot} {deadline : Int} :
    ∀ {fuel : Nat} {start : Int} {best res : Option Offer}, -1 ≤ start →
    (∀ o, best = some o → Offered l tl platform mats ds o) →
    searchLoop l tl platform mats ds deadline fuel start best = some (some res) →
    (∀ o, res = some o → Offered l tl platform mats ds o ∧ deadline ≤ o.start + o.ahead) := by
  intro fuel
  induction fuel with
  | zero => intro start best res _ _ h; simp [searchLoop] at h
  | succ fuel ih =>
    intro start best res hs hb h
    unfold searchLoop at h
    split at h
    · cases ho : offers l tl platform mats (start + 1) ds with
      | none => rw [ho] at h; simp at h
      | some os =>
        rw [ho] at h
        refine ih (by omega) ?_ h
        intro o hoo
        unfold round at hoo
        rcases foldl_pick (deadline := deadline) (os := os) (s := (TIME_INF, best)) with h1 | ⟨x, hx, h1⟩
        · rw [h1] at hoo; exact hb o hoo
        · rw [h1] at hoo; cases hoo
          obtain ⟨d, hd, hdo⟩ := offers_mem ho o hx
          exact ⟨start + 1, by omega, d, hd, hdo⟩
    · rename_i hlt
      simp only [Option.some.injEq] at h
      subst h
      intro o ho
      refine ⟨hb o ho, ?_⟩
      subst ho
      simp only [finishOf] at hlt
      omega

theorem plan_spec {l : Land} {tl : Timeline} {platform : Nat} {deadline : Int} {mats : List Mat} {o : Offer}
    (h : plan l tl platform deadline mats = some o) :
    ∃ d, d ∈ l.depotsFrom platform ∧ canSupply tl mats d = true ∧ deadline ≤ o.start + o.ahead ∧
      ∃ start, 0 ≤ start ∧ offer l tl platform mats start d = some o := by
  unfold plan at h
  simp only [Option.bind_eq_some_iff, id_eq] at h
  obtain ⟨ds, hds, res, ⟨x, hx, rfl⟩, h⟩ := h
  unfold holders at hds
  dsimp only at hds
  split at hds
  · simp at hds
  · cases hds
    obtain ⟨⟨start, h0, d, hd, hdo⟩, hle⟩ := searchLoop_spec (by omega) (by simp) hx o h
    have := List.mem_filter.mp hd
    exact ⟨d, this.1, this.2, hle, start, h0, hdo⟩

theorem supply_spec {l : Land} {st : State} {w : Work} {deadline : Int} {mats : List Mat} {out : Outcome} (hm : mats ≠ [])
    (h : supply l st w deadline mats = some out) : ∃ o use, plan l st.supply (l.platform w.id) deadline mats = some o ∧
      platformUse w.needs mats = some use ∧
      st.platforms.takeAll (l.platform w.id) (o.start + o.ahead) use = some out.state.platforms ∧
      st.supply.bookAll (bookings mats o) = some out.state.supply ∧ out.records = recordsOf mats o ∧
      out.time = o.start + o.ahead ∧ out.booked = bookings mats o := by
  unfold supply at h
  rw [if_neg hm] at h
  simp only [Option.bind_eq_some_iff, Option.map_eq_some_iff] at h
  obtain ⟨o, ho, use, hu, p, hp, tl, htl, rfl⟩ := h
  exact ⟨o, use, ho, hu, hp, htl, rfl, rfl, rfl⟩

/-- The ways a call can end. -/
theorem deliver_cases {l : Land} {st : State} {w : Work} {deadline : Int} {out : Outcome}
    (h : deliver l st w deadline = some out) :
    (out.state.supply = st.supply ∧ out.records = [] ∧ out.booked = [] ∧ out.time = deadline) ∨
    ∃ req, req ≠ [] ∧ request l st.platforms (l.platform w.id) deadline w.needs = some req ∧
      ∃ o use, plan l st.supply (l.platform w.id) deadline req = some o ∧
      platformUse w.needs req = some use ∧
      st.platforms.takeAll (l.platform w.id) (o.start + o.ahead) use = some out.state.platforms ∧
      st.supply.bookAll (bookings req o) = some out.state.supply ∧ out.records = recordsOf req o ∧
      out.time = o.start + o.ahead ∧ out.booked = bookings req o := by
  unfold deliver at h
  split at h
  · cases h; exact .inl ⟨rfl, rfl, rfl, rfl⟩
  · simp only [Option.bind_eq_some_iff] at h
    obtain ⟨req, hreq, h⟩ := h
    by_cases hr : req = []
    · rw [if_pos hr] at h
      simp only [Option.bind_eq_some_iff] at h
      obtain ⟨ok, _, h⟩ := h
      split at h
      · simp only [Option.map_eq_some_iff] at h
        obtain ⟨p, _, rfl⟩ := h
        exact .inl ⟨rfl, rfl, rfl, rfl⟩
      · unfold supply at h
        rw [if_pos hr] at h
        cases h; exact .inl ⟨rfl, rfl, rfl, rfl⟩
    · rw [if_neg hr] at h
      exact .inr ⟨req, hr, hreq, supply_spec hr h⟩

theorem history_inv {l : Land} (hl : ∀ i, 0 < l.overcome i) {st : State} {log : List Served} (h : History l st log)
    (hm : ∀ s ∈ log, Modest l s.work) (hc : InCalendar log) : HistoryInv l st log := by
  induction h with
  | fresh => exact ⟨follows_init l, eventsFrom_init l, by simp, by simp⟩
  | serve hh hd hdel ih =>
    rename_i st log w deadline out
    obtain ⟨hf, he, hend, hpr⟩ := ih (fun s hs => hm s (by simp [hs])) (fun s hs => hc s (by simp [hs]))
    have hw : Modest l w := hm _ (List.mem_cons_self ..)
    rcases deliver_cases hdel with ⟨h1, _, h3, _⟩ | ⟨req, hne, hreq, o, use, hp, _, _, hb, _, _, hbk⟩
    · refine ⟨?_, ?_, ?_, ?_⟩
      · rw [h1]; simpa [h3] using hf
      · rw [h1]; simpa [h3] using he
      · simpa [h3] using hend
      · simpa [h3] using hpr
    · obtain ⟨d, _, _, _, start, h0, hoff⟩ := plan_spec hp
      obtain ⟨_, hok⟩ := offer_ok hl hoff
      have hinf : o.start < TIME_INF := (hc ⟨w, deadline, out.records, out.time, out.booked⟩ (by simp)
        _ (by show _ ∈ out.booked; rw [hbk]; exact vehicles_booked req o)).1
      have hprop := bookings_proper hok h0 hinf hl (fun m hmm => (request_nonneg hw hreq m hmm).1)
      have hperm : ((bookings req o).reverse ++ log.flatMap (·.booked)).Perm
          ((⟨w, deadline, out.records, out.time, out.booked⟩ :: log : List Served).flatMap (·.booked)) := by
        rw [List.flatMap_cons]; dsimp only; rw [hbk]
        exact (List.reverse_perm _).append_right _
      refine ⟨(follows_bookAll hf hprop hb).perm hperm, ?_, ?_, ?_⟩
      · exact (eventsFrom_bookAll he hb).mono (fun b hb' => hperm.mem_iff.mp hb')
      · intro b hb'
        rw [List.flatMap_cons] at hb'; dsimp only at hb'; rw [hbk] at hb'
        rcases List.mem_append.mp hb' with hb' | hb'
        · exact bookings_endless (by have := hok.later; omega) b hb'
        · exact hend b hb'
      · intro b hb'
        rw [List.flatMap_cons] at hb'; dsimp only at hb'; rw [hbk] at hb'
        rcases List.mem_append.mp hb' with hb' | hb'
        · exact hprop b hb'
        · exact hpr b hb'

theorem taken_eq {l : Land} (hl : ∀ i, 0 < l.overcome i) {st : State} {log : List Served} (h : History l st log)
    (hc : InCalendar log) {i m : Nat} (hmv : m ≠ vehicles) :
    taken log i m = inUse (log.flatMap (·.booked)) (.depot i, m) (TIME_INF - 1) := by
  induction h with
  | fresh => rfl
  | serve hh hd hdel ih =>
    rename_i st log w deadline out
    rw [taken_cons, List.flatMap_cons, inUse_append, ih (fun s hs => hc s (by simp [hs]))]
    congr 1
    dsimp only
    rcases deliver_cases hdel with ⟨h1, h2, h3, _⟩ | ⟨req, hne, hreq, o, use, hp, _, _, hb, hrec, _, hbk⟩
    · rw [h3]; simp [taken, h2, inUse]
    · obtain ⟨d, _, _, _, start, h0, hoff⟩ := plan_spec hp
      obtain ⟨_, hok⟩ := offer_ok hl hoff
      have hinf : o.start < TIME_INF := (hc ⟨w, deadline, out.records, out.time, out.booked⟩ (by simp)
        _ (by show _ ∈ out.booked; rw [hbk]; exact vehicles_booked req o)).1
      rw [hbk, bookings_taken (by have := hok.later; omega) hinf hmv]
      simp [taken, hrec]

/-! ### Which depot -/

/-- Who is chosen leaves before the moment noted, and leaves or arrives before all that come earlier in the list. -/
theorem pick_nearer {deadline : Int} {os : List Offer} : ∀ {s : Int × Option Offer},
    (os.foldl (pick deadline) s).2 ≠ s.2 →
    ∃ a o b, os = a ++ o :: b ∧ (os.foldl (pick deadline) s).2 = some o ∧ o.start < s.1 ∧
      ∀ xs : List Offer, (∀ x ∈ os, deadline ≤ x.start + x.ahead) →
      (∀ x ∈ xs, s.1 ≤ x.start ∨ deadline = finishOf s.2 ∨ (deadline < finishOf s.2 ∧ finishOf s.2 ≤ x.start + x.ahead)) →
      ∀ x ∈ xs ++ a, o.start < x.start ∨ o.start + o.ahead < x.start + x.ahead := by
  induction os with
  | nil => intro s h; simp at h
  | cons y os ih =>
    intro s hne
    rw [List.foldl_cons] at hne ⊢
    by_cases hy : y.start < s.1 ∧ ((finishOf s.2 > deadline ∧ y.start + y.ahead < finishOf s.2) ∨ finishOf s.2 < deadline)
    · have hp : pick deadline s y = (y.start, some y) := by unfold pick; rw [if_pos hy]
      rw [hp] at hne ⊢
      by_cases hsame : (os.foldl (pick deadline) (y.start, some y)).2 = some y
      · refine ⟨[], y, os, rfl, hsame, hy.1, fun xs hos hx x hxx => ?_⟩
        rw [List.append_nil] at hxx
        rcases hx x hxx with h | h | h
        · exact .inl (by omega)
        · omega
        · exact .inr (by omega)
      · obtain ⟨a, o, b, rfl, h1, h2, h3⟩ := ih (s := (y.start, some y)) hsame
        refine ⟨y :: a, o, b, rfl, h1, by dsimp only at h2; omega, fun xs hos hx x hxx => ?_⟩
        refine h3 (xs ++ [y]) (fun x hx => hos x (by simp [hx])) ?_ x (by simpa using hxx)
        intro x hxx
        rcases List.mem_append.1 hxx with hxx | hxx
        · have := hos y (by simp)
          rcases hx x hxx with h | h | h
          · exact .inl (by dsimp only; omega)
          · omega
          · simp only [finishOf]
            omega
        · rw [List.mem_singleton] at hxx
          subst hxx
          exact .inl (Int.le_refl _)
    · have hp : pick deadline s y = s := by unfold pick; rw [if_neg hy]
      rw [hp] at hne ⊢
      obtain ⟨a, o, b, rfl, h1, h2, h3⟩ := ih (s := s) hne
      refine ⟨y :: a, o, b, rfl, h1, h2, fun xs hos hx x hxx => ?_⟩
      refine h3 (xs ++ [y]) (fun x hx => hos x (by simp [hx])) ?_ x (by simpa using hxx)
      intro x hxx
      rcases List.mem_append.1 hxx with hxx | hxx
      · exact hx x hxx
      · rw [List.mem_singleton] at hxx
        subst hxx
        omega

/-- The first offer of a round sets the bound. -/
theorem pick_first {deadline : Int} {best : Option Offer} (hb : finishOf best < deadline) (y : Offer) (os : List Offer)
    (hne : ((y :: os).foldl (pick deadline) (TIME_INF, best)).2 ≠ best) :
    ∃ a o b, y :: os = a ++ o :: b ∧ ((y :: os).foldl (pick deadline) (TIME_INF, best)).2 = some o ∧
      (a ≠ [] → o.start < y.start) ∧
      ((∀ x ∈ y :: os, deadline ≤ x.start + x.ahead) → ∀ x ∈ a, o.start < x.start ∨ o.start + o.ahead < x.start + x.ahead) := by
  have h0 : ∀ {s : Int × Option Offer} {xs : List Offer}, xs = [] → (∀ x ∈ xs, s.1 ≤ x.start ∨ deadline = finishOf s.2 ∨
      (deadline < finishOf s.2 ∧ finishOf s.2 ≤ x.start + x.ahead)) := by rintro s _ rfl; simp
  by_cases hy : y.start < TIME_INF
  · have hp : pick deadline (TIME_INF, best) y = (y.start, some y) := by
      unfold pick; rw [if_pos ⟨hy, .inr hb⟩]
    rw [List.foldl_cons, hp] at hne ⊢
    by_cases hsame : (os.foldl (pick deadline) (y.start, some y)).2 = some y
    · exact ⟨[], y, os, rfl, hsame, by simp, by simp⟩
    · obtain ⟨a, o, b, rfl, h1, h2, h3⟩ := pick_nearer hsame
      refine ⟨y :: a, o, b, rfl, h1, fun _ => h2, fun hos x hx => ?_⟩
      refine h3 [y] (fun x hx => hos x (by simp [hx])) ?_ x (by simpa using hx)
      intro x hx
      rw [List.mem_singleton] at hx
      subst hx
      exact .inl (Int.le_refl _)
  · obtain ⟨a, o, b, he, h1, h2, h3⟩ := pick_nearer hne
    refine ⟨a, o, b, he, h1, fun _ => by dsimp only at h2; omega, fun hos x hx => ?_⟩
    exact h3 [] hos (h0 rfl) x (by simpa using hx)

/-- Offers are made in the order of the depots. -/
theorem offers_split {l : Land} {tl : Timeline} {platform : Nat} {mats : List Mat} {start : Int} :
    ∀ {a b : List Offer} {o : Offer} {ds : List Depot}, offers l tl platform mats start ds = some (a ++ o :: b) →
    ∃ near d far, ds = near ++ d :: far ∧ offers l tl platform mats start near = some a ∧
      offer l tl platform mats start d = some o ∧ offers l tl platform mats start far = some b := by
  intro a
  induction a with
  | nil =>
    intro b o ds h
    cases ds with
    | nil => simp [offers] at h
    | cons d ds =>
      unfold offers at h
      simp only [Option.bind_eq_some_iff, Option.map_eq_some_iff, List.nil_append, List.cons.injEq] at h
      obtain ⟨o', ho, os, hos, rfl, rfl⟩ := h
      exact ⟨[], d, ds, rfl, rfl, ho, hos⟩
  | cons y a ih =>
    intro b o ds h
    cases ds with
    | nil => simp [offers] at h
    | cons d ds =>
      unfold offers at h
      simp only [Option.bind_eq_some_iff, Option.map_eq_some_iff, List.cons_append, List.cons.injEq] at h
      obtain ⟨o', ho, os, hos, rfl, rfl⟩ := h
      obtain ⟨near, e, far, rfl, h1, h2, h3⟩ := ih hos
      exact ⟨d :: near, e, far, rfl, by simp [offers, ho, h1], h2, h3⟩

/-- The moment found without vehicles booked is not before the moment asked for. -/
theorem supplyTime_ge {l : Land} {tl : Timeline} {platform : Nat} {deadline t : Int} {mats : List Mat}
    (h : supplyTime l tl platform deadline mats = some t) : deadline ≤ t := by
  unfold supplyTime at h
  split at h
  · cases h; exact Int.le_refl _
  · obtain ⟨o, ho, rfl⟩ := Option.map_eq_some_iff.1 h
    obtain ⟨_, _, _, hle, _⟩ := plan_spec ho
    exact hle

theorem total_pos {mats : List Mat} (h : ∀ m ∈ mats, 0 < m.count) (hne : mats ≠ []) : 0 < total mats := by
  induction mats with
  | nil => simp at hne
  | cons m ms ih =>
    have := h m (by simp)
    by_cases hms : ms = []
    · subst hms; simp [total]; omega
    · have := ih (fun x hx => h x (by simp [hx])) hms
      simp only [total, List.map_cons, List.sum_cons] at *
      omega

/-- The offers of the last round. -/
theorem searchLoop_last {l : Land} {tl : Timeline} {platform : Nat} {mats : List Mat} {ds : List Depot} {deadline : Int} :
    ∀ {fuel : Nat} {start : Int} {best res : Option Offer}, -1 ≤ start →
    searchLoop l tl platform mats ds deadline fuel start best = some (some res) → finishOf best < deadline →
    ∃ s os best', 0 ≤ s ∧ finishOf best' < deadline ∧ offers l tl platform mats s ds = some os ∧ round deadline best' os = res ∧
      deadline ≤ finishOf res := by
  intro fuel
  induction fuel with
  | zero => intro start best res _ h; simp [searchLoop] at h
  | succ fuel ih =>
    intro start best res h0 h hb
    unfold searchLoop at h
    rw [if_pos hb] at h
    cases ho : offers l tl platform mats (start + 1) ds with
    | none => rw [ho] at h; simp at h
    | some os =>
      rw [ho] at h
      dsimp only at h
      by_cases hlt : finishOf (round deadline best os) < deadline
      · exact ih (by omega) h hlt
      · cases fuel with
        | zero => simp [searchLoop] at h
        | succ fuel =>
          unfold searchLoop at h
          rw [if_neg hlt] at h
          simp only [Option.some.injEq] at h
          exact ⟨start + 1, os, best, by omega, hb, ho, h, by rw [← h]; omega⟩

end Sampo.ToStart
