import Verif.Lemmas.Decode

/-! Termination of the parallel scheme. -/

namespace Sampo.Decode

variable {σ : Type} {D : Input σ} {E : Env σ}

/-! ### Nothing raises -/

theorem findMinStart_isSome {pool : AgentId → Option Int} {tl : JIT.Timeline} {ps : List Placement}
    (hh : JIT.History pool tl ps) {team : List Worker} (hwf : ∀ w ∈ team, 0 ≤ w.count) (hwp : WithinPool pool team)
    (acc : Int) : ∃ m, JIT.findMinStart tl false team acc = some m := by
  induction team generalizing acc with
  | nil => exact ⟨acc, rfl⟩
  | cons w ws ih =>
    obtain ⟨c, hc, hle⟩ := hwp w (by simp)
    have h0 := hwf w (by simp)
    obtain ⟨q, hq, hinv⟩ := JIT.history_inv hh hc (by omega)
    obtain ⟨r, hr⟩ := JIT.grab_isSome hinv.nonneg acc (by rw [hinv.total_eq]; exact hle : w.count ≤ JIT.total q)
    obtain ⟨m, hm⟩ := ih (fun w hw => hwf w (by simp [hw])) (fun w hw => hwp w (by simp [hw])) r
    refine ⟨m, ?_⟩
    simp only [JIT.findMinStart, hq, JIT.ask, Bool.false_eq_true, if_false, JIT.grabWrap, Option.bind_eq_bind,
      Option.bind_some, JIT.grab_append q hr]
    exact hm

theorem queue_ne_nil {pool : AgentId → Option Int} {tl : JIT.Timeline} {ps : List Placement}
    (hh : JIT.History pool tl ps) {w : Worker} (hpos : 0 < w.count) {c : Int} (hc : pool w.agent = some c)
    (hle : w.count ≤ c) : ∃ q, tl w.agent = some q ∧ q ≠ [] := by
  obtain ⟨q, hq, hinv⟩ := JIT.history_inv hh hc (by omega)
  refine ⟨q, hq, ?_⟩
  rintro rfl
  have := hinv.total_eq
  simp [JIT.total] at this
  omega

theorem latest_isSome {q : JIT.Queue} (h : q ≠ []) : ∃ l, JIT.latest q = some l := by
  unfold JIT.latest
  cases hq : q.getLast? with
  | none => simp at hq; exact absurd hq h
  | some x => exact ⟨x.time, rfl⟩

/-- Moments from which all workers of a team are released. -/
theorem allReleased_eventually {pool : AgentId → Option Int} {tl : JIT.Timeline} {ps : List Placement}
    (hh : JIT.History pool tl ps) {team : List Worker} (hwf : ∀ w ∈ team, 0 < w.count) (hwp : WithinPool pool team) :
    (∀ t, ∃ b, allReleased tl t team = some b) ∧ ∃ B, ∀ t, B ≤ t → allReleased tl t team = some true := by
  induction team with
  | nil => exact ⟨fun t => ⟨true, rfl⟩, 0, fun t _ => rfl⟩
  | cons w ws ih =>
    obtain ⟨c, hc, hle⟩ := hwp w (by simp)
    obtain ⟨q, hq, hne⟩ := queue_ne_nil hh (hwf w (by simp)) hc hle
    obtain ⟨l, hl⟩ := latest_isSome hne
    obtain ⟨h1, B, h2⟩ := ih (fun w hw => hwf w (by simp [hw])) (fun w hw => hwp w (by simp [hw]))
    constructor
    · intro t
      simp only [allReleased, hq, hl, Option.bind_some]
      split
      · exact ⟨_, rfl⟩
      · exact h1 t
    · refine ⟨max B l, fun t ht => ?_⟩
      simp only [allReleased, hq, hl, Option.bind_some]
      rw [if_neg (by omega)]
      exact h2 t (by omega)

theorem canNow_isSome {st : JIT.State σ} {it : Item} (hc : JIT.Covered (borderPool D) st)
    (hwf : ∀ w ∈ it.team, 0 < w.count) (hwp : WithinPool (borderPool D) it.team) (t : Int) :
    ∃ b, canNow D E st it t = some b := by
  obtain ⟨ps, hh, _⟩ := hc
  unfold canNow
  split
  · exact (allReleased_eventually hh hwf hwp).1 t
  · split
    · exact ⟨_, rfl⟩
    · split
      · exact ⟨_, rfl⟩
      · obtain ⟨m, hm⟩ := findMinStart_isSome hh (fun w hw => Int.le_of_lt (hwf w hw)) hwp 0
        rw [hm]
        exact ⟨_, rfl⟩

theorem update_isSome {tl : JIT.Timeline} {f : Int} {ind : Bool} {team : List Worker}
    (hnd : (team.map (·.agent)).Nodup) (h : ∀ w ∈ team, ∃ q, tl w.agent = some q ∧ q ≠ []) :
    ∃ tl', JIT.update tl f ind team = some tl' := by
  induction team generalizing tl with
  | nil => exact ⟨tl, rfl⟩
  | cons w ws ih =>
    obtain ⟨q, hq, hne⟩ := h w (by simp)
    have hs : ∃ q', JIT.stepQueue ind q w.count f = some q' := by
      unfold JIT.stepQueue
      split
      · exact ⟨_, rfl⟩
      · obtain ⟨q', hq'⟩ := JIT.consume_isSome w.count hne
        exact ⟨_, by rw [JIT.updateQueue, hq']; rfl⟩
    obtain ⟨q', hq'⟩ := hs
    rw [List.map_cons, List.nodup_cons] at hnd
    obtain ⟨tl', htl'⟩ := ih (tl := JIT.set tl w.agent q') hnd.2 (fun v hv => by
      obtain ⟨p, hp, hpn⟩ := h v (by simp [hv])
      refine ⟨p, ?_, hpn⟩
      unfold JIT.set
      rw [if_neg]
      · exact hp
      · intro heq
        exact hnd.1 (heq ▸ List.mem_map_of_mem hv))
    exact ⟨tl', by simp only [JIT.update, hq, hq', Option.bind_eq_bind, Option.bind_some]; exact htl'⟩

/-- A work's inseparable predecessor is an earlier work of the same chain and is linked to it by an edge. -/
def ChainLinked (E : Env σ) (v : Nat) : Prop :=
  ∀ l₁ u l₂, E.chain v = l₁ ++ u :: l₂ → ∀ p, E.insepParent u = some p → p ∈ l₁ ∧ ∃ lag, (p, lag) ∈ E.edgesTo u ∧ 0 ≤ lag

theorem placeChain_isSome (hdel : ∀ s v t, (E.deliver s v t).isSome) {v : Nat} (hlink : ChainLinked E v)
    {team : List Worker} {c : Nat} {times : ExecTimes} {done vs : List Nat} (hch : E.chain v = done ++ vs) {cur : Int} {s : σ}
    {sw : Sched} (hdone : ∀ d ∈ done, d ∈ sw.works) : ∃ r, JIT.placeChain E team c times vs cur s sw = some r := by
  induction vs generalizing done cur s sw with
  | nil => exact ⟨_, rfl⟩
  | cons u vs ih =>
    have hp : JIT.parentCheck E u sw (minStart (E.edgesTo u) sw) = true := by
      unfold JIT.parentCheck
      split
      · rfl
      · rename_i p hp
        obtain ⟨h1, lag, h2, h3⟩ := hlink done u vs hch p hp
        obtain ⟨x, hx⟩ := (get_isSome_iff sw p).mpr (hdone p h1)
        have := le_minStart h2 hx
        simp only at this
        rw [hx]
        simp only [decide_eq_true_eq]
        omega
    simp only [JIT.placeChain, hp, if_true]
    obtain ⟨d, hd⟩ := Option.isSome_iff_exists.mp (hdel s u (max (cur + ((times u).getD (0, E.estimate u team)).1) (minStart (E.edgesTo u) sw)))
    rw [hd]
    simp only [Option.bind_some]
    apply ih (done := done ++ [u]) (by simp [hch])
    intro d hd
    rcases List.mem_append.mp hd with hd | hd
    · simp only [Sched.works, List.map_cons, List.mem_cons]; exact .inr (hdone d hd)
    · simp only [List.mem_singleton] at hd; subst hd; simp [Sched.works]

/-- What termination needs about an item. -/
structure Live (D : Input σ) (E : Env σ) (it : Item) : Prop where
  times : GoodTimes D E it
  team : GoodTeam D it
  pos : ∀ w ∈ it.team, 0 < w.count
  spec : ∃ team, respec (D.reqs it.node) (D.spec it.node).assigned it.team = some team
  link : ChainLinked E it.node

/-- The landscape never raises. -/
structure Calm (E : Env σ) : Prop where
  deliver : ∀ s v t, (E.deliver s v t).isSome
  occupy : ∀ s v t d, (E.occupy s v t d).isSome
  finish : ∀ s, (E.finishZones s).isSome

theorem place_isSome (hcalm : Calm E) {st : JIT.State σ} {it : Item} (hc : JIT.Covered (borderPool D) st)
    (hl : Live D E it) (t : Int) : ∃ r, place D E st it t = some r := by
  obtain ⟨ps, hh, _⟩ := hc
  obtain ⟨team, hteam⟩ := hl.spec
  obtain rfl := hl.team.2.2.2 team hteam
  have hst : ∃ es, startOf D E st.env it t = some es := by
    unfold startOf
    split
    · obtain ⟨z, hz⟩ := Option.isSome_iff_exists.mp (hcalm.finish st.env)
      exact ⟨_, by rw [hz]; rfl⟩
    · exact ⟨_, rfl⟩
  obtain ⟨es, hes⟩ := hst
  obtain ⟨x, hx⟩ := placeChain_isSome hcalm.deliver hl.link (team := it.team) (c := it.contractor)
    (times := chainTimes D (E.chain it.node) it.exec) (done := []) (vs := E.chain it.node) rfl (cur := es.2) (s := es.1)
    (sw := st.sched) (by simp)
  obtain ⟨tl', htl⟩ := update_isSome (tl := st.tl) (f := x.1) (ind := D.independent it.node) hl.team.1.1 (fun w hw => by
    obtain ⟨c, hc, hle⟩ := hl.team.2.1 w hw
    exact queue_ne_nil hh (hl.pos w hw) hc hle)
  obtain ⟨env', henv⟩ := Option.isSome_iff_exists.mp (hcalm.occupy x.2.1 it.node es.2 (x.1 - es.2))
  exact ⟨_, by simp only [place, hteam, hes, JIT.scheduleAt, hx, htl, henv, Option.bind_some, Option.map_some]; rfl⟩

/-! ### Passes -/

/-- Invariant: works placed and remaining, timeline. -/
structure LInv (D : Input σ) (E : Env σ) (l : List Item) (st : JIT.State σ) : Prop where
  live : ∀ it ∈ l, Live D E it
  covered : JIT.Covered (borderPool D) st
  works : ∃ vs, st.sched.works.Perm (vs.flatMap E.chain) ∧ (vs ++ l.map (·.node)).Perm (D.order.map D.node)

theorem LInv.perm {l l' : List Item} {st : JIT.State σ} (hp : l.Perm l') (h : LInv D E l st) : LInv D E l' st := by
  obtain ⟨h1, h2, vs, h3, h4⟩ := h
  exact ⟨fun it hit => h1 it (hp.mem_iff.mpr hit), h2, vs, h3, ((hp.map _).symm.append_left vs).trans h4⟩

theorem LInv.step (hest : ∀ v team, 0 ≤ E.estimate v team) {t : Int} {it : Item} {l : List Item} {st : JIT.State σ}
    {r : JIT.State σ × Int} (hok : canNow D E st it t = some true) (hp : place D E st it t = some r)
    (h : LInv D E (it :: l) st) : LInv D E l r.1 := by
  obtain ⟨h1, ⟨ps, hh, hb⟩, vs, h3, h4⟩ := h
  have hlive := h1 it (by simp)
  obtain ⟨hwf, hwp, h0, hag⟩ := hlive.team
  obtain ⟨team, fin, hre, hrow, hup, hge⟩ := place_spec hest hlive.times hp
  obtain rfl := hag team hre
  refine ⟨fun x hx => h1 x (by simp [hx]), ?_, vs ++ [it.node], ?_, by simpa using h4⟩
  · obtain ⟨from_, m, hrep, hle⟩ : ∃ from_ m, JIT.findMinStart st.tl (D.independent it.node) it.team from_ = some m ∧
        m ≤ r.2 := by
      by_cases hidx : it.idx = 0
      · rw [h0 hidx]; exact ⟨r.2, r.2, rfl, Int.le_refl _⟩
      · obtain ⟨from_, m, h2, h3⟩ := canNow_report hok
        have := hge hidx
        exact ⟨from_, m, h2, by omega⟩
    refine ⟨⟨it.team, r.2, fin, D.independent it.node⟩ :: ps,
      .place ⟨it.team, r.2, fin, D.independent it.node⟩ from_ m hh hwf hwp hrep hle hrow.le hup, fun a t => ?_⟩
    refine Int.le_trans (hrow.busy_le hwf.2 a t) ?_
    rw [JIT.busy_cons]
    have := hb a t
    simp only
    omega
  · rw [hrow.works]
    simp only [List.flatMap_append, List.flatMap_cons, List.flatMap_nil, List.append_nil]
    exact (List.perm_append_comm.trans ((h3.append_right _).trans ((List.reverse_perm _).append_left _)))

/-- A pass raises no exception; it removes works from the list; if it removes none, nothing changes. -/
theorem pass_total (hest : ∀ v team, 0 ≤ E.estimate v team) (hcalm : Calm E) {t : Int} {its kept : List Item}
    {st : JIT.State σ} {ev : List Int} (hi : LInv D E (its ++ kept) st) :
    ∃ r, pass D E t its st ev = some r ∧ r.1.Sublist its ∧ (r.1.length = its.length → r = (its, st, ev)) := by
  induction its generalizing kept st ev with
  | nil => exact ⟨_, rfl, by simp, fun _ => rfl⟩
  | cons it its ih =>
    have hlive := hi.live it (by simp)
    obtain ⟨b, hb⟩ := canNow_isSome (E := E) hi.covered hlive.pos hlive.team.2.1 t
    cases b with
    | true =>
      obtain ⟨p, hp⟩ := place_isSome hcalm hi.covered hlive t
      obtain ⟨r, h1, h2, h3⟩ := ih (ev := addEvents ev p.2 it.exec) (LInv.step hest hb hp hi)
      refine ⟨r, by simp [pass, hb, hp, h1], h2.cons _, ?_⟩
      intro hl
      have := h2.length_le
      simp only [List.length_cons] at hl
      omega
    | false =>
      obtain ⟨r, h1, h2, h3⟩ := ih (kept := it :: kept) (ev := ev) (hi.perm (by simp [List.perm_middle.symm]))
      refine ⟨(it :: r.1, r.2), by simp [pass, hb, h1], h2.cons_cons _, ?_⟩
      intro hl
      simp only [List.length_cons, Nat.add_right_cancel_iff] at hl
      rw [h3 hl]

/-- The first remaining work can be placed from some moment on. -/
theorem head_eventually {it : Item} {l : List Item} {st : JIT.State σ} (hi : LInv D E (it :: l) st)
    (hmat : ∀ s v d, ∃ B, ∀ t, B ≤ t → D.matOk s v t = true ∧ D.zoneOk s v t d = true)
    (hpar : ∀ u ∈ E.chain it.node, ∀ p ∈ D.parents u, p ∈ E.chain it.node ∨ p ∈ st.sched.works) :
    ∃ B, ∀ t, B ≤ t → canNow D E st it t = some true := by
  have hlive := hi.live it (by simp)
  obtain ⟨ps, hh, _⟩ := hi.covered
  cases hind : D.independent it.node with
  | true =>
    obtain ⟨B, hB⟩ := (allReleased_eventually hh hlive.pos hlive.team.2.1).2
    refine ⟨B, fun t ht => ?_⟩
    unfold canNow
    rw [hind]
    simpa using hB t ht
  | false =>
    obtain ⟨m, hm⟩ := findMinStart_isSome hh (fun w hw => Int.le_of_lt (hlive.pos w hw)) hlive.team.2.1 0
    obtain ⟨B, hB⟩ := hmat st.env it.node it.exec
    refine ⟨max B (max m (minStart (E.edgesTo it.node) st.sched)), fun t ht => ?_⟩
    obtain ⟨h1, h2⟩ := hB t (by omega)
    unfold canNow
    rw [hind]
    simp only [Bool.false_eq_true, if_false]
    rw [if_neg, if_neg (by omega), hm]
    · simp only [Option.map_some]
      rw [if_pos (by omega), h1, h2]; rfl
    · simp only [List.any_eq_true]
      rintro ⟨u, hu, p, hp, hc⟩
      rcases hpar u hu p hp with hin | hin
      · simp [hin] at hc
      · obtain ⟨x, hx⟩ := (get_isSome_iff st.sched p).mpr hin
        simp [hx] at hc

theorem sublist_after {a : Nat} {l h1 h2 : List Nat} (hs : (a :: l).Sublist (h1 ++ a :: h2)) (hnd : (h1 ++ a :: h2).Nodup) :
    l.Sublist h2 := by
  induction h1 with
  | nil =>
    simp only [List.nil_append] at hs
    cases hs with
    | cons _ h =>
      exact absurd (h.subset (show a ∈ a :: l by simp)) (by simp only [List.nil_append, List.nodup_cons] at hnd; exact hnd.1)
    | cons_cons _ h => exact h
  | cons x h1 ih =>
    simp only [List.cons_append, List.nodup_cons] at hnd
    simp only [List.cons_append] at hs
    cases hs with
    | cons _ h => exact ih h hnd.2
    | cons_cons _ h => exact absurd (show a ∈ h1 ++ a :: h2 by simp) hnd.1

theorem heads_nodup {chain : Nat → List Nat} (hself : ∀ v, v ∈ chain v) {l : List Nat} (h : (l.flatMap chain).Nodup) :
    l.Nodup := by
  rw [List.nodup_flatMap] at h
  refine h.2.imp ?_
  rintro a b hd rfl
  exact hd (hself a) (hself a)

/-- All predecessors of the first remaining work are placed. -/
theorem head_parents {all l : List Item} {it : Item} {st : JIT.State σ} (hi : LInv D E (it :: l) st)
    (hall : all.map (·.node) = D.order.map D.node) (hsub : (it :: l).Sublist all)
    (hself : ∀ v, v ∈ E.chain v)
    (hpar : ∀ u, ∀ p ∈ D.parents u, ∃ e ∈ E.edgesTo u, e.1 = p)
    (htopo : TopoList (fun v => (E.edgesTo v).map (·.1)) ((D.order.map D.node).flatMap E.chain))
    (hnd : ((D.order.map D.node).flatMap E.chain).Nodup) :
    ∀ u ∈ E.chain it.node, ∀ p ∈ D.parents u, p ∈ E.chain it.node ∨ p ∈ st.sched.works := by
  intro u hu p hp
  have hs : (it.node :: l.map (·.node)).Sublist (D.order.map D.node) := by
    rw [← hall]; simpa using hsub.map (·.node)
  have hmem : it.node ∈ D.order.map D.node := hs.subset (by simp)
  obtain ⟨h1, h2, hsplit⟩ := List.append_of_mem hmem
  obtain ⟨c1, c2, hc⟩ := List.append_of_mem hu
  obtain ⟨e, he, rfl⟩ := hpar u p hp
  have hn := heads_nodup hself hnd
  rw [hsplit] at hn hs
  have hrest := sublist_after hs hn
  have := htopo (h1.flatMap E.chain ++ c1) u (c2 ++ h2.flatMap E.chain) (by rw [hsplit]; simp [hc]) e.1
    (List.mem_map.mpr ⟨e, he, rfl⟩)
  rcases List.mem_append.mp this with hin | hin
  · right
    obtain ⟨x, hx, hxc⟩ := List.mem_flatMap.mp hin
    obtain ⟨vs, h3, h4⟩ := hi.works
    have hx' : x ∈ vs ++ (it :: l).map (·.node) := h4.mem_iff.mpr (by rw [hsplit]; simp [hx])
    rcases List.mem_append.mp hx' with hv | hv
    · exact h3.mem_iff.mpr (List.mem_flatMap.mpr ⟨x, hv, hxc⟩)
    · exfalso
      rw [List.nodup_append] at hn
      simp only [List.map_cons, List.mem_cons] at hv
      rcases hv with rfl | hv
      · exact hn.2.2 _ hx _ (by simp) rfl
      · exact hn.2.2 _ hx _ (List.mem_cons_of_mem _ (hrest.subset hv)) rfl
  · left; rw [hc]; simp [hin]

/-! ### Termination -/

section term

variable {inf : Int} (hest : ∀ v team, 0 ≤ E.estimate v team) (hcalm : Calm E)
  (hmat : ∀ s v d, ∃ B, ∀ t, B ≤ t → D.matOk s v t = true ∧ D.zoneOk s v t d = true)
  (hself : ∀ v, v ∈ E.chain v)
  (hpar : ∀ u, ∀ p ∈ D.parents u, ∃ e ∈ E.edgesTo u, e.1 = p)
  (htopo : TopoList (fun v => (E.edgesTo v).map (·.1)) ((D.order.map D.node).flatMap E.chain))
  (hnd : ((D.order.map D.node).flatMap E.chain).Nodup)

/-- How a finished run looks. -/
def Finished (inf : Int) (L : Loop σ) : Prop := L.items = [] ∨ ∃ t ∈ L.events, inf ≤ t

theorem loop_mono {fuel : Nat} {L : Loop σ} {r : Option (Loop σ)} (h : loop D E inf fuel L = some r) :
    loop D E inf (fuel + 1) L = some r := by
  induction fuel generalizing L with
  | zero => simp [loop] at h
  | succ n ih =>
    rw [loop] at h ⊢
    split at h
    · rename_i hc; rw [if_pos hc]; exact h
    · rename_i hc
      rw [if_neg hc]
      cases hg : L.events[L.ckpt]? with
      | some t =>
        rw [hg] at h
        simp only at h ⊢
        by_cases hp : L.prev = t
        · rw [if_pos hp] at h ⊢; exact ih h
        · rw [if_neg hp] at h ⊢
          by_cases hf : inf ≤ t
          · rw [if_pos hf] at h ⊢; exact h
          · rw [if_neg hf] at h ⊢
            cases ha : advance D E t t L with
            | none => rw [ha] at h; exact h
            | some L' => rw [ha] at h; exact ih h
      | none =>
        rw [hg] at h
        simp only at h ⊢
        cases ha : advance D E (L.start + 1) L.prev L with
        | none => rw [ha] at h; exact h
        | some L' => rw [ha] at h; exact ih h

include hest hcalm in
/-- One advance: fewer works, or the same variables with the checkpoint moved. -/
theorem advance_total {all : List Item} {t prev : Int} {L : Loop σ} (hi : LInv D E L.items L.st)
    (hsub : L.items.Sublist all) :
    ∃ L', advance D E t prev L = some L' ∧ L'.items.Sublist all ∧ LInv D E L'.items L'.st ∧
      (L'.items.length < L.items.length ∨
        L' = ⟨L.items, L.st, L.events, min (L.ckpt + 1) L.events.length, t, prev⟩) := by
  obtain ⟨r, h1, h2, h3⟩ := pass_total (kept := []) hest hcalm (t := t) (ev := L.events) (by simpa using hi)
  refine ⟨⟨r.1, r.2.1, r.2.2, min (L.ckpt + 1) r.2.2.length, t, prev⟩, by simp only [advance, h1, Option.map_some],
    h2.trans hsub, ?_, ?_⟩
  · have := pass_inv (Inv := LInv D E) (kept := []) (fun _ _ _ hp h => LInv.perm hp h)
      (fun it l st r hok hp h => LInv.step hest hok hp h) h1 (by simpa using hi)
    simpa using this
  · by_cases hl : r.1.length = L.items.length
    · right; rw [h3 hl]
    · left; have := h2.length_le; simp only; omega

theorem pass_head {t : Int} {it : Item} {its : List Item} {st : JIT.State σ} {ev : List Int}
    {r : List Item × JIT.State σ × List Int} (hok : canNow D E st it t = some true)
    (h : pass D E t (it :: its) st ev = some r) : r.1.length ≤ its.length := by
  have key : ∀ (its : List Item) (st : JIT.State σ) (ev : List Int) (r : List Item × JIT.State σ × List Int),
      pass D E t its st ev = some r → r.1.length ≤ its.length := by
    intro its
    induction its with
    | nil => intro st ev r h; simp only [pass, Option.some.injEq] at h; subst h; simp
    | cons x its ih =>
      intro st ev r h
      simp only [pass, Option.bind_eq_some_iff] at h
      obtain ⟨ok, _, h⟩ := h
      cases ok with
      | true =>
        simp only [if_true, Option.bind_eq_some_iff] at h
        obtain ⟨p, _, h⟩ := h
        have := ih _ _ _ h
        simp only [List.length_cons]; omega
      | false =>
        simp only [Bool.false_eq_true, if_false, Option.map_eq_some_iff] at h
        obtain ⟨r', hr', rfl⟩ := h
        have := ih _ _ _ hr'
        simp only [List.length_cons]; omega
  simp only [pass, hok, Option.bind_some, if_true, Option.bind_eq_some_iff] at h
  obtain ⟨p, _, h⟩ := h
  exact key _ _ _ _ h

include hest hcalm hmat hself hpar htopo hnd in
theorem loop_terminates {all : List Item} (hall : all.map (·.node) = D.order.map D.node) (n : Nat) :
    ∀ L : Loop σ, L.items.length ≤ n → LInv D E L.items L.st → L.items.Sublist all →
      ∃ fuel L', loop D E inf fuel L = some (some L') ∧ Finished inf L' := by
  induction n with
  | zero =>
    intro L hl _ _
    have : L.items = [] := List.length_eq_zero_iff.mp (by omega)
    exact ⟨1, L, by simp [loop, this], .inl this⟩
  | succ n ih =>
    intro L hl hi hsub
    cases hit : L.items with
    | nil => exact ⟨1, L, by simp [loop, hit], .inl hit⟩
    | cons it rest =>
      rw [hit] at hi hsub
      obtain ⟨B, hB⟩ := head_eventually hi hmat (head_parents hi hall hsub hself hpar htopo hnd)
      -- shorter lists are covered by the induction hypothesis
      have hrec : ∀ L' : Loop σ, LInv D E L'.items L'.st → L'.items.Sublist all → L'.items.length < L.items.length →
          ∃ fuel L'', loop D E inf fuel L' = some (some L'') ∧ Finished inf L'' := by
        intro L' h1 h2 h3
        exact ih L' (by omega) h1 h2
      -- past the last checkpoint
      have hpast : ∀ (m : Nat) (M : Loop σ), M.items = L.items → M.st = L.st → M.events.length ≤ M.ckpt →
          (B - M.start).toNat ≤ m → ∃ fuel L', loop D E inf fuel M = some (some L') ∧ Finished inf L' := by
        intro m
        induction m with
        | zero =>
          intro M h1 h2 h3 h4
          obtain ⟨M', ha, hs, hI, hlt⟩ := advance_total hest hcalm (t := M.start + 1) (prev := M.prev) (L := M) (all := all)
            (by rw [h1, h2, hit]; exact hi) (by rw [h1, hit]; exact hsub)
          have hlen : M'.items.length < L.items.length := by
            simp only [advance, Option.map_eq_some_iff] at ha
            obtain ⟨r, hr, rfl⟩ := ha
            rw [h1, hit] at hr
            have := pass_head (by rw [h2]; exact hB (M.start + 1) (by omega)) hr
            rw [hit]; simp only [List.length_cons]; omega
          obtain ⟨fuel, L'', hf, hfin⟩ := hrec M' hI hs hlen
          refine ⟨fuel + 1, L'', ?_, hfin⟩
          rw [loop, if_neg (by simp [h1, hit]), List.getElem?_eq_none h3]
          simp only [ha]; exact hf
        | succ m ihm =>
          intro M h1 h2 h3 h4
          obtain ⟨M', ha, hs, hI, hlt⟩ := advance_total hest hcalm (t := M.start + 1) (prev := M.prev) (L := M) (all := all)
            (by rw [h1, h2, hit]; exact hi) (by rw [h1, hit]; exact hsub)
          have : ∃ fuel L', loop D E inf fuel M' = some (some L') ∧ Finished inf L' := by
            rcases hlt with hlt | rfl
            · exact hrec M' hI hs (by rw [← h1]; exact hlt)
            · apply ihm ⟨M.items, M.st, M.events, min (M.ckpt + 1) M.events.length, M.start + 1, M.prev⟩ h1 h2
              · simp only; omega
              · simp only; omega
          obtain ⟨fuel, L'', hf, hfin⟩ := this
          refine ⟨fuel + 1, L'', ?_, hfin⟩
          rw [loop, if_neg (by simp [h1, hit]), List.getElem?_eq_none h3]
          simp only [ha]; exact hf
      -- checkpoints left
      have hckpt : ∀ (k : Nat) (M : Loop σ), M.items = L.items → M.st = L.st → M.events.length - M.ckpt ≤ k →
          ∃ fuel L', loop D E inf fuel M = some (some L') ∧ Finished inf L' := by
        intro k
        induction k with
        | zero => intro M h1 h2 h3; exact hpast _ M h1 h2 (by omega) (Nat.le_refl _)
        | succ k ihk =>
          intro M h1 h2 h3
          cases hg : M.events[M.ckpt]? with
          | none =>
            exact hpast _ M h1 h2 (by rw [List.getElem?_eq_none_iff] at hg; exact hg) (Nat.le_refl _)
          | some t =>
            have hlt : M.ckpt < M.events.length := by
              by_contra hc
              rw [List.getElem?_eq_none (by omega)] at hg; cases hg
            by_cases hp : M.prev = t
            · obtain ⟨fuel, L', hf, hfin⟩ := ihk { M with ckpt := M.ckpt + 1, start := t } h1 h2 (by simp only; omega)
              refine ⟨fuel + 1, L', ?_, hfin⟩
              rw [loop, if_neg (by simp [h1, hit]), hg]
              simp only [hp, if_true]
              exact hp ▸ hf
            · by_cases hf : inf ≤ t
              · refine ⟨1, M, ?_, .inr ⟨t, List.mem_of_getElem? hg, hf⟩⟩
                rw [loop, if_neg (by simp [h1, hit]), hg]
                simp [hp, hf]
              · obtain ⟨M', ha, hs, hI, hlt'⟩ := advance_total hest hcalm (t := t) (prev := t) (L := M) (all := all)
                  (by rw [h1, h2, hit]; exact hi) (by rw [h1, hit]; exact hsub)
                have : ∃ fuel L', loop D E inf fuel M' = some (some L') ∧ Finished inf L' := by
                  rcases hlt' with hlt' | rfl
                  · exact hrec M' hI hs (by rw [← h1]; exact hlt')
                  · exact ihk ⟨M.items, M.st, M.events, min (M.ckpt + 1) M.events.length, t, t⟩ h1 h2 (by simp only; omega)
                obtain ⟨fuel, L'', hfl, hfin⟩ := this
                refine ⟨fuel + 1, L'', ?_, hfin⟩
                rw [loop, if_neg (by simp [h1, hit]), hg]
                simp only [if_neg hp, if_neg hf, ha]; exact hfl
      exact hckpt _ L rfl rfl (Nat.le_refl _)

end term

end Sampo.Decode
