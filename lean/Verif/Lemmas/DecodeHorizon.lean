import Verif.Lemmas.DecodeLive
import Verif.Lemmas.SchedHorizon
import Verif.Props.C13_AssignedDuration

/-! How far the times of the parallel decoder can grow on a site without limits. -/

namespace Sampo.Decode

variable {σ : Type} {D : Input σ} {E : Env σ}

/-- No site limits for the decoder, lags at most `g`. -/
structure Quiet (D : Input σ) (E : Env σ) (g : Int) : Prop where
  deliver : ∀ s v t s' t', E.deliver s v t = some (s', t') → t' ≤ t
  finish : ∀ s s' t, E.finishZones s = some (s', t) → t ≤ 0
  ok : ∀ s v t d, D.matOk s v t = true ∧ D.zoneOk s v t d = true
  lag0 : 0 ≤ g
  lag : ∀ v, ∀ e ∈ E.edgesTo v, e.2 ≤ g
  independent : ∀ v, D.independent v = false

theorem lookup_zip : ∀ {c : List Nat} {ds : List Int}, c.Nodup → c.length = ds.length →
    (c.map fun v => (((c.zip ds).lookup v).map fun d => ((0 : Int), d)).getD (0, 0)) = ds.map fun d => (0, d) := by
  intro c
  induction c with
  | nil => intro ds _ h; cases ds <;> simp_all
  | cons v c ih =>
    intro ds hn h
    cases ds with
    | nil => simp at h
    | cons d ds =>
      rw [List.nodup_cons] at hn
      simp only [List.map_cons, List.zip_cons_cons, List.lookup_cons_self, Option.map_some, Option.getD_some, List.cons.injEq, true_and]
      rw [← ih hn.2 (by simpa using h)]
      refine List.map_congr_left fun u hu => ?_
      have : (u == v) = false := by
        rw [beq_eq_false_iff_ne]; rintro rfl; exact hn.1 hu
      simp only [List.lookup_cons, this]

theorem chainTimes_mem {c : List Nat} {t : Int} {v : Nat} (hv : v ∈ c) : ∃ d, chainTimes D c t v = some (0, d) := by
  have hne : c.map D.volume ≠ [] := by
    intro h; rw [List.map_eq_nil_iff] at h; rw [h] at hv; cases hv
  have hl := (C13.durations_sum_to_assigned D.share (c.map D.volume) hne t).1
  rw [List.length_map] at hl
  unfold chainTimes
  generalize Assigned.execTimes D.share (c.map D.volume) t = ds at hl ⊢
  have key : ∀ (c : List Nat) (ds : List Int), ds.length = c.length → v ∈ c → ∃ d, (c.zip ds).lookup v = some d := by
    intro c
    induction c with
    | nil => intro _ _ h; cases h
    | cons u c ih =>
      intro ds h hv
      cases ds with
      | nil => simp at h
      | cons d ds =>
        simp only [List.zip_cons_cons, List.lookup_cons]
        by_cases he : v = u
        · subst he; simp
        · rw [beq_eq_false_iff_ne.2 he]
          exact ih ds (by simpa using h) (by simpa [he] using hv)
  obtain ⟨d, hd⟩ := key c ds hl hv
  exact ⟨d, by rw [hd]; rfl⟩

theorem chainTimes_sum {c : List Nat} {t : Int} (hn : c.Nodup) (hne : c ≠ []) (x : Nat → Int × Int) :
    (c.map fun v => ((chainTimes D c t v).getD (x v)).2).sum = t := by
  have h1 := C13.durations_sum_to_assigned D.share (c.map D.volume) (by simpa using hne) t
  have h2 := lookup_zip hn (ds := Assigned.execTimes D.share (c.map D.volume) t) (by rw [h1.1, List.length_map])
  have h3 : (c.map fun v => ((chainTimes D c t v).getD (x v)).2) =
      (c.map fun v => (chainTimes D c t v).getD (0, 0)).map (·.2) := by
    rw [List.map_map]
    refine List.map_congr_left fun v hv => ?_
    obtain ⟨d, hd⟩ := chainTimes_mem (D := D) (t := t) hv
    simp only [hd, Option.getD_some, Function.comp]
  rw [h3]
  have h4 : (c.map fun v => (chainTimes D c t v).getD (0, 0)) = (Assigned.execTimes D.share (c.map D.volume) t).map fun d => (0, d) := h2
  rw [h4, List.map_map]
  simpa [Function.comp_def] using h1.2

theorem placeChain_horizon {g : Int} (hq : Quiet D E g) {team : List Worker} {c : Nat} {times : ExecTimes}
    (h0 : ∀ v, ((times v).getD (0, E.estimate v team)).1 = 0 ∧ 0 ≤ ((times v).getD (0, E.estimate v team)).2) :
    ∀ {vs : List Nat} {M cur : Int} {s : σ} {sw : Sched} {r : Int × σ × Sched}, 0 ≤ M → cur ≤ M → (∀ e ∈ sw, e.2.finish ≤ M) →
    JIT.placeChain E team c times vs cur s sw = some r →
    r.1 ≤ M + (vs.length * g + (vs.map fun v => ((times v).getD (0, E.estimate v team)).2).sum) ∧
      ∀ e ∈ r.2.2, e.2.finish ≤ M + (vs.length * g + (vs.map fun v => ((times v).getD (0, E.estimate v team)).2).sum) := by
  intro vs
  induction vs with
  | nil =>
    intro M cur s sw r _ hc hsw h
    simp only [JIT.placeChain, Option.some.injEq] at h
    subst h
    simp only [List.length_nil, Int.natCast_zero, Int.zero_mul, List.map_nil, List.sum_nil, Int.add_zero]
    exact ⟨hc, hsw⟩
  | cons v vs ih =>
    intro M cur s sw r hM hc hsw h
    simp only [JIT.placeChain] at h
    split at h
    · simp only [Option.bind_eq_some_iff] at h
      obtain ⟨d, hd, h⟩ := h
      have h1 := JIT.minStart_before (L := g) (by have := hq.lag0; omega) (hq.lag v) hsw
      have h2 := hq.deliver _ _ _ d.1 d.2 hd
      obtain ⟨h3, h4⟩ := h0 v
      have hg := hq.lag0
      have := ih (M := M + g + ((times v).getD (0, E.estimate v team)).2) (by omega) (by omega) (by
          intro e he
          rcases List.mem_cons.mp he with rfl | he
          · dsimp only; omega
          · have := hsw e he; omega) h
      rw [List.length_cons, List.map_cons, List.sum_cons]; push_cast
      rw [Int.add_mul, Int.one_mul]
      constructor
      · have := this.1; omega
      · intro x hx; have := this.2 x hx; omega
    · simp at h

/-- What is assumed of an item. -/
structure Short (D : Input σ) (E : Env σ) (d : Int) (it : Item) : Prop where
  exec0 : 0 ≤ it.exec
  exec : it.exec ≤ (E.chain it.node).length * d
  nodup : (E.chain it.node).Nodup
  self : it.node ∈ E.chain it.node

theorem mem_addEvents {ev : List Int} {a b x : Int} (h : x ∈ addEvents ev a b) : x ∈ ev ∨ x = a ∨ x = a + b := by
  unfold addEvents at h
  rw [List.mem_orderedInsert, List.mem_orderedInsert] at h
  tauto

theorem place_horizon {g d : Int} (hq : Quiet D E g) {st : JIT.State σ} {it : Item} {t M : Int} {r : JIT.State σ × Int}
    (ht : GoodTimes D E it) (hest : ∀ v team, 0 ≤ E.estimate v team) (hs : Short D E d it)
    (hb : JIT.Before st M) (hM : 0 ≤ M) (hP : D.parentTime ≤ M) (hle : t ≤ M + g + 1) (h : place D E st it t = some r) :
    ∃ M', M + g + 1 ≤ M' ∧ M' ≤ M + (E.chain it.node).length * (2 * g + d + 1) ∧ JIT.Before r.1 M' ∧ r.2 ≤ M' ∧ r.2 + it.exec ≤ M' := by
  simp only [place, JIT.scheduleAt, Option.bind_eq_some_iff, Option.map_eq_some_iff] at h
  obtain ⟨team, -, es, hes, st', ⟨pc, hpc, tl', htl, env', henv, rfl⟩, rfl⟩ := h
  have hg := hq.lag0
  have hstart : es.2 ≤ M + g + 1 := by
    unfold startOf at hes
    split at hes
    · simp only [Option.map_eq_some_iff] at hes
      obtain ⟨z, hz, rfl⟩ := hes
      have := hq.finish _ z.1 z.2 hz
      dsimp only; omega
    · simp only [Option.some.injEq] at hes
      subst hes
      dsimp only
      split <;> omega
  have htimes : ∀ v, ((chainTimes D (E.chain it.node) it.exec v).getD (0, E.estimate v team)).1 = 0 ∧
      0 ≤ ((chainTimes D (E.chain it.node) it.exec v).getD (0, E.estimate v team)).2 := by
    intro v
    cases hc : chainTimes D (E.chain it.node) it.exec v with
    | none => exact ⟨rfl, hest v team⟩
    | some x =>
      refine ⟨?_, (ht v x.1 x.2 hc).2⟩
      unfold chainTimes at hc
      simp only [Option.map_eq_some_iff] at hc
      obtain ⟨y, -, rfl⟩ := hc
      rfl
  have hp := placeChain_horizon hq htimes (M := M + g + 1) (by omega) hstart (fun e he => by have := hb.2 e he; omega) hpc
  rw [chainTimes_sum hs.nodup (List.ne_nil_of_mem hs.self)] at hp
  have hlen : (1 : Int) ≤ (E.chain it.node).length := by
    have := List.length_pos_of_mem hs.self
    omega
  have he := hs.exec
  have he0 := hs.exec0
  have hcg : g ≤ ((E.chain it.node).length : Int) * g := by nlinarith
  refine ⟨M + g + 1 + ((E.chain it.node).length * g + it.exec), by omega, ?_, ⟨?_, hp.2⟩, ?_, ?_⟩
  · have : ((E.chain it.node).length : Int) * (2 * g + d + 1) =
        (E.chain it.node).length * g + (E.chain it.node).length * g + (E.chain it.node).length * d + (E.chain it.node).length := by ring
    omega
  · exact JIT.update_le hp.1 htl fun a q hq r hr => by have := hb.1 a q hq r hr; omega
  · dsimp only; omega
  · dsimp only; omega

/-- Number of works in the chains of the items. -/
def size (E : Env σ) (l : List Item) : Int := ((l.map fun it => (E.chain it.node).length).sum : Nat)

theorem pass_horizon {g d : Int} (hq : Quiet D E g) (hest : ∀ v team, 0 ≤ E.estimate v team) {t : Int} :
    ∀ {its : List Item} {st : JIT.State σ} {ev : List Int} {r : List Item × JIT.State σ × List Int} {M : Int},
      (∀ it ∈ its, GoodTimes D E it ∧ Short D E d it) → JIT.Before st M → (∀ e ∈ ev, e ≤ M) → 0 ≤ M → D.parentTime ≤ M → t ≤ M + g + 1 →
      pass D E t its st ev = some r →
      ∃ M', M ≤ M' ∧ M' + size E r.1 * (2 * g + d + 1) ≤ M + size E its * (2 * g + d + 1) ∧ JIT.Before r.2.1 M' ∧ (∀ e ∈ r.2.2, e ≤ M') ∧
        (r.1.length < its.length → t ≤ M') := by
  intro its
  induction its with
  | nil =>
    intro st ev r M _ hb hev _ _ _ h
    simp only [pass, Option.some.injEq] at h
    subst h
    exact ⟨M, Int.le_refl _, Int.le_refl _, hb, hev, fun h => absurd h (by simp)⟩
  | cons it its ih =>
    intro st ev r M hits hb hev hM hP ht h
    simp only [pass, Option.bind_eq_some_iff] at h
    obtain ⟨ok, -, h⟩ := h
    have hg := hq.lag0
    have hsz : size E (it :: its) * (2 * g + d + 1) = (E.chain it.node).length * (2 * g + d + 1) + size E its * (2 * g + d + 1) := by
      simp only [size, List.map_cons, List.sum_cons]; push_cast; ring
    cases ok with
    | true =>
      simp only [if_true, Option.bind_eq_some_iff] at h
      obtain ⟨p, hp, h⟩ := h
      obtain ⟨h1, h2⟩ := hits it (by simp)
      obtain ⟨M1, e1, e2, e3, e4, e5⟩ := place_horizon hq h1 hest h2 hb hM hP ht hp
      obtain ⟨M2, f1, f2, f3, f4, -⟩ := ih (fun x hx => hits x (by simp [hx])) e3 (fun e he => by
        rcases mem_addEvents he with he | rfl | rfl
        · have := hev e he; omega
        · exact e4
        · exact e5) (by omega) (by omega) (by omega) h
      exact ⟨M2, by omega, by omega, f3, f4, fun _ => by omega⟩
    | false =>
      simp only [Bool.false_eq_true, if_false, Option.map_eq_some_iff] at h
      obtain ⟨r', hr', rfl⟩ := h
      obtain ⟨M2, f1, f2, f3, f4, f5⟩ := ih (fun x hx => hits x (by simp [hx])) hb hev hM hP ht hr'
      refine ⟨M2, f1, ?_, f3, f4, fun hl => f5 (by simpa using hl)⟩
      have : size E (it :: r'.1) * (2 * g + d + 1) = (E.chain it.node).length * (2 * g + d + 1) + size E r'.1 * (2 * g + d + 1) := by
        simp only [size, List.map_cons, List.sum_cons]; push_cast; ring
      dsimp only; omega

/-- The first remaining work can be placed at every moment at least a lag after all times so far. -/
theorem head_by {g : Int} (hq : Quiet D E g) {it : Item} {l : List Item} {st : JIT.State σ} (hi : LInv D E (it :: l) st)
    (hpar : ∀ u ∈ E.chain it.node, ∀ p ∈ D.parents u, p ∈ E.chain it.node ∨ p ∈ st.sched.works) {M t : Int} (hb : JIT.Before st M)
    (hM : 0 ≤ M) (ht : M + g ≤ t) : canNow D E st it t = some true := by
  have hlive := hi.live it (by simp)
  obtain ⟨ps, hh, _⟩ := hi.covered
  obtain ⟨m, hm⟩ := findMinStart_isSome hh (fun w hw => Int.le_of_lt (hlive.pos w hw)) hlive.team.2.1 0
  have hm' := JIT.findMinStart_before hb.1 hM hm
  have hg := hq.lag0
  have h3 := JIT.minStart_before (L := g) (by omega) (hq.lag it.node) hb.2
  obtain ⟨h1, h2⟩ := hq.ok st.env it.node t it.exec
  unfold canNow
  rw [hq.independent]
  simp only [Bool.false_eq_true, if_false]
  rw [if_neg, if_neg (by omega), hm]
  · simp only [Option.map_some]
    rw [if_pos (by omega), h1, h2]; rfl
  · simp only [List.any_eq_true]
    rintro ⟨u, hu, p, hp, hc⟩
    rcases hpar u hu p hp with hin | hin
    · simp [hin] at hc
    · obtain ⟨x, hx⟩ := (get_isSome_iff st.sched p).mpr hin
      simp [hx] at hc

section run

variable {inf : Int} (hest : ∀ v team, 0 ≤ E.estimate v team) (hcalm : Calm E)
  (hself : ∀ v, v ∈ E.chain v)
  (hpar : ∀ u, ∀ p ∈ D.parents u, ∃ e ∈ E.edgesTo u, e.1 = p)
  (htopo : TopoList (fun v => (E.edgesTo v).map (·.1)) ((D.order.map D.node).flatMap E.chain))
  (hnd : ((D.order.map D.node).flatMap E.chain).Nodup)

include hest hcalm hself hpar htopo hnd in
theorem loop_horizon {g d B : Int} (hq : Quiet D E g) (hd : 0 ≤ d) {all : List Item} (hall : all.map (·.node) = D.order.map D.node)
    (hshort : ∀ it ∈ all, Short D E d it) : ∀ (fuel : Nat) (L L' : Loop σ) (M : Int), LInv D E L.items L.st → L.items.Sublist all →
      JIT.Before L.st M → (∀ e ∈ L.events, e ≤ M) → 0 ≤ M → D.parentTime ≤ M → M + size E L.items * (2 * g + d + 1) ≤ B → L.start ≤ M + g →
      loop D E inf fuel L = some (some L') → (∀ e ∈ L'.events, e ≤ B) ∧ ∀ e ∈ L'.st.sched, e.2.finish ≤ B := by
  have hg := hq.lag0
  have hsz : ∀ l : List Item, 0 ≤ size E l * (2 * g + d + 1) := fun l => Int.mul_nonneg (by unfold size; omega) (by omega)
  intro fuel
  induction fuel with
  | zero => intro L L' M _ _ _ _ _ _ _ _ h; simp [loop] at h
  | succ n ih =>
    intro L L' M hi hsub hb hev hM hP hB hstart h
    have hdone : (∀ e ∈ L.events, e ≤ B) ∧ ∀ e ∈ L.st.sched, e.2.finish ≤ B := by
      have := hsz L.items
      exact ⟨fun e he => by have := hev e he; omega, fun e he => by have := hb.2 e he; omega⟩
    have hgood : ∀ it ∈ L.items, GoodTimes D E it ∧ Short D E d it := fun it hit => ⟨(hi.live it hit).times, hshort it (hsub.subset hit)⟩
    rw [loop] at h
    split at h
    · simp only [Option.some.injEq] at h; subst h; exact hdone
    · rename_i hne
      -- a pass at moment `t`
      have hstep : ∀ t prev, t ≤ M + g + 1 → ∀ L1, advance D E t prev L = some L1 → loop D E inf n L1 = some (some L') →
          (∀ e ∈ L'.events, e ≤ B) ∧ ∀ e ∈ L'.st.sched, e.2.finish ≤ B := by
        intro t prev ht L1 ha hl
        obtain ⟨L2, ha2, hs2, hI2, -⟩ := advance_total hest hcalm (t := t) (prev := prev) (L := L) (all := all) hi hsub
        rw [ha] at ha2
        cases ha2
        simp only [advance, Option.map_eq_some_iff] at ha
        obtain ⟨r, hr, rfl⟩ := ha
        obtain ⟨M', f1, f2, f3, f4, f5⟩ := pass_horizon hq hest hgood hb hev hM hP ht hr
        refine ih _ L' M' hI2 hs2 f3 f4 (by omega) (by omega) (by dsimp only; omega) ?_ hl
        dsimp only
        by_cases hlt : t ≤ M + g
        · omega
        · cases hit : L.items with
          | nil => simp [hit] at hne
          | cons it rest =>
            rw [hit] at hi hsub hr f5
            have hok := head_by hq hi (head_parents hi hall hsub hself hpar htopo hnd) hb hM (t := t) (by omega)
            have := pass_head hok hr
            have := f5 (by simp only [List.length_cons]; omega)
            omega
      split at h
      · rename_i t hget
        have htM := hev t (List.mem_of_getElem? hget)
        split at h
        · exact ih { L with ckpt := L.ckpt + 1, start := t } L' M hi hsub hb hev hM hP hB (by dsimp only; omega) h
        · split at h
          · simp only [Option.some.injEq] at h; subst h; exact hdone
          · split at h
            · simp at h
            · rename_i L1 ha
              exact hstep t t (by omega) L1 ha h
      · split at h
        · simp at h
        · rename_i L1 ha
          exact hstep (L.start + 1) L.prev (by omega) L1 ha h

end run

end Sampo.Decode
