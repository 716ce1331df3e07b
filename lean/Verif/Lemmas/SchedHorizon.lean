import Verif.Lemmas.SchedLive
import Verif.Lemmas.SchedMomentum
import Mathlib.Tactic.Linarith

/-! How far the times of a run can grow: bounds on start and finish times. -/

namespace Sampo.JIT

variable {σ : Type} {E : Env σ}

/-- No time recorded in the timeline or the schedule is after `M`. -/
def Before (st : State σ) (M : Int) : Prop :=
  (∀ a q, st.tl a = some q → ∀ r ∈ q, r.time ≤ M) ∧ ∀ e ∈ st.sched, e.2.finish ≤ M

theorem minStart_before {edges : List (Nat × Int)} {sw : Sched} {M L : Int} (h0 : 0 ≤ M + L) (hL : ∀ e ∈ edges, e.2 ≤ L)
    (hsw : ∀ e ∈ sw, e.2.finish ≤ M) : minStart edges sw ≤ M + L := by
  apply minStart_le h0
  intro e he y hy
  have h1 := hsw _ (mem_of_get hy)
  have h2 := hL e he
  dsimp only at h1
  omega

theorem grab_before {M : Int} : ∀ {q : List Rel} {needed acc r : Int}, (∀ x ∈ q, x.time ≤ M) → acc ≤ M → grab q needed acc = some r →
    r ≤ M := by
  intro q
  induction q with
  | nil =>
    intro needed acc r _ ha h
    unfold grab at h
    split at h
    · simp at h
    · cases h; exact ha
  | cons e rest ih =>
    intro needed acc r hq ha h
    unfold grab at h
    split at h
    · exact ih (fun x hx => hq x (List.mem_cons_of_mem _ hx)) (by have := hq e (List.mem_cons_self ..); omega) h
    · cases h; exact ha

theorem ask_before {M : Int} {ind : Bool} {q : Queue} {n acc r : Int} (hq : ∀ x ∈ q, x.time ≤ M) (ha : acc ≤ M)
    (h : ask ind q n acc = some r) : r ≤ M := by
  unfold ask at h
  split at h
  · unfold latest at h
    simp only [Option.map_map, Option.map_eq_some_iff, Function.comp] at h
    obtain ⟨x, hx, rfl⟩ := h
    have := hq x (List.mem_of_getLast? hx)
    omega
  · exact grab_before (fun x hx => hq x (by simpa using hx)) ha h

theorem findMinStart_before {M : Int} {tl : Timeline} {ind : Bool} (htl : ∀ a q, tl a = some q → ∀ r ∈ q, r.time ≤ M) :
    ∀ {team : List Worker} {acc r : Int}, acc ≤ M → findMinStart tl ind team acc = some r → r ≤ M := by
  intro team
  induction team with
  | nil => intro acc r ha h; simp only [findMinStart, Option.some.injEq] at h; omega
  | cons w ws ih =>
    intro acc r ha h
    simp only [findMinStart, Option.bind_eq_bind, Option.bind_eq_some_iff] at h
    obtain ⟨q, hq, acc', ha', h⟩ := h
    exact ih (ask_before (htl _ _ hq) ha ha') h

theorem findLoop_le (hsite : NoSiteLimits E) {M : Int} {tl : Timeline} {env : σ} {node : Nat} {team : List Worker} {ind : Bool}
    {exec : Int} (htl : ∀ a q, tl a = some q → ∀ r ∈ q, r.time ≤ M) {fuel : Nat} {cur r : Int} (hc : cur ≤ M)
    (h : findLoop E tl env node team ind exec fuel cur = some (some r)) : r ≤ M := by
  cases fuel with
  | zero => simp [findLoop] at h
  | succ n =>
    simp only [findLoop] at h
    split at h
    · simp at h
    · rename_i cur' hc'
      have h1 := hsite.material env node cur'
      have h2 := hsite.zone env node cur' exec
      rw [if_neg (by omega), if_neg (by omega)] at h
      simp only [Option.some.injEq] at h
      subst h
      exact findMinStart_before htl hc hc'

theorem chainDuration_le {team : List Worker} {sw : Sched} {B D : Int} :
    ∀ {vs : List Nat} {acc : Int}, (∀ u ∈ vs, E.estimate u team ≤ D ∧ minStart (E.edgesTo u) sw ≤ B) → 0 ≤ D → B ≤ acc →
    chainDuration E team sw vs acc ≤ acc + vs.length * D := by
  intro vs
  induction vs with
  | nil => intro acc _ _ _; simp [chainDuration]
  | cons v vs ih =>
    intro acc hv h0 ha
    simp only [chainDuration]
    obtain ⟨h1, h2⟩ := hv v (List.mem_cons_self ..)
    have hmono : ∀ (vs : List Nat) {a b : Int}, a ≤ b → chainDuration E team sw vs a ≤ chainDuration E team sw vs b := by
      intro vs
      induction vs with
      | nil => intro a b h; exact h
      | cons x xs ihx => intro a b h; simp only [chainDuration]; exact ihx (by omega)
    refine Int.le_trans (hmono vs (b := acc + D) (by omega)) ?_
    refine Int.le_trans (ih (fun u hu => hv u (List.mem_cons_of_mem _ hu)) h0 (by omega)) ?_
    rw [List.length_cons]; push_cast
    rw [Int.add_mul]; omega

theorem chainDuration_mono {team : List Worker} {sw : Sched} : ∀ (vs : List Nat) {a b : Int}, a ≤ b →
    chainDuration E team sw vs a ≤ chainDuration E team sw vs b := by
  intro vs
  induction vs with
  | nil => intro a b h; exact h
  | cons x xs ihx => intro a b h; simp only [chainDuration]; exact ihx (by omega)

/-- What the search reports. -/
theorem find_le (hsite : NoSiteLimits E) {st : State σ} {M L D : Int} (hb : Before st M) (h0 : 0 ≤ M) (hL0 : 0 ≤ L) (hD0 : 0 ≤ D)
    {v : Nat} {team : List Worker} {ind : Bool} {P : Int} (hP : P ≤ M) (hest : ∀ u ∈ E.chain v, E.estimate u team ≤ D)
    (hlag : ∀ u ∈ E.chain v, ∀ e ∈ E.edgesTo u, e.2 ≤ L) {fuel : Nat} {f : Int × Int}
    (h : find E st v team ind P fuel = some (some f)) :
    f.1 ≤ M ∧ f.2 ≤ 2 * M + L + (E.chain v).length * D := by
  have hlen : 0 ≤ ((E.chain v).length : Int) * D := Int.mul_nonneg (by omega) hD0
  unfold find at h
  split at h
  · simp only [Option.some.injEq] at h
    subst h
    have h1 := hsite.material st.env v P
    have h2 := hsite.zone st.env v (E.matTime st.env v P) 0
    dsimp only
    constructor <;> omega
  · simp only [Option.map_eq_some_iff] at h
    obtain ⟨o, ho, c, rfl, rfl⟩ := h
    have h1 := findLoop_le hsite hb.1 h0 ho
    have h2 := chainDuration_le (E := E) (team := team) (sw := st.sched) (B := M + L) (D := D) (vs := E.chain v) (acc := M + L)
      (fun u hu => ⟨hest u hu, minStart_before (by omega) (hlag u hu) hb.2⟩) hD0 (by omega)
    have h3 := chainDuration_mono (E := E) (team := team) (sw := st.sched) (E.chain v) (show (0 : Int) ≤ M + L by omega)
    dsimp only
    constructor <;> omega

theorem placeChain_le (hsite : NoSiteLimits E) {team : List Worker} {c : Nat} {L D : Int} (hL0 : 0 ≤ L) (hD0 : 0 ≤ D) :
    ∀ {vs : List Nat} {M cur : Int} {s : σ} {sw : Sched} {r : Int × σ × Sched}, (∀ u ∈ vs, E.estimate u team ≤ D) →
    (∀ u ∈ vs, ∀ e ∈ E.edgesTo u, e.2 ≤ L) → 0 ≤ M → cur ≤ M → (∀ e ∈ sw, e.2.finish ≤ M) →
    placeChain E team c (fun _ => none) vs cur s sw = some r →
    r.1 ≤ M + vs.length * (L + D) ∧ ∀ e ∈ r.2.2, e.2.finish ≤ M + vs.length * (L + D) := by
  intro vs
  induction vs with
  | nil =>
    intro M cur s sw r _ _ _ hc hsw h
    simp only [placeChain, Option.some.injEq] at h
    subst h
    simp only [List.length_nil, Int.natCast_zero, Int.zero_mul, Int.add_zero]
    exact ⟨hc, hsw⟩
  | cons v vs ih =>
    intro M cur s sw r hest hlag h0 hc hsw h
    simp only [placeChain] at h
    split at h
    · simp only [Option.bind_eq_some_iff, Option.getD_none] at h
      obtain ⟨d, hd, h⟩ := h
      have h1 := minStart_before (L := L) (by omega) (hlag v (List.mem_cons_self ..)) hsw
      obtain ⟨s', t', hd', hle⟩ := hsite.deliver s v (max (cur + 0) (minStart (E.edgesTo v) sw))
      rw [hd] at hd'
      cases hd'
      have h2 := hest v (List.mem_cons_self ..)
      dsimp only at h
      have := ih (M := M + (L + D)) (fun u hu => hest u (List.mem_cons_of_mem _ hu)) (fun u hu => hlag u (List.mem_cons_of_mem _ hu))
        (by omega) (by omega) (by
          intro e he
          rcases List.mem_cons.mp he with rfl | he
          · dsimp only; omega
          · have := hsw e he; omega) h
      rw [List.length_cons]; push_cast
      rw [Int.add_mul]
      have e : ((1 : Int) * (L + D)) = L + D := by omega
      rw [e]
      constructor
      · have := this.1; omega
      · intro x hx; have := this.2 x hx; omega
    · simp at h

theorem bubble_mem {x : Rel} {q : Queue} : ∀ r ∈ bubble x q, r = x ∨ r ∈ q := by
  induction q with
  | nil => intro r hr; simpa [bubble] using hr
  | cons y ys ih =>
    intro r hr
    unfold bubble at hr
    split at hr
    · rcases List.mem_cons.mp hr with rfl | hr
      · exact .inr (List.mem_cons_self ..)
      · rcases ih r hr with h | h
        · exact .inl h
        · exact .inr (List.mem_cons_of_mem _ h)
    · rcases List.mem_cons.mp hr with rfl | hr
      · exact .inl rfl
      · exact .inr hr

theorem update_le {M fin : Int} (hf : fin ≤ M) {ind : Bool} {team : List Worker} {tl tl' : Timeline}
    (h : update tl fin ind team = some tl') (htl : ∀ a q, tl a = some q → ∀ r ∈ q, r.time ≤ M) :
    ∀ a q, tl' a = some q → ∀ r ∈ q, r.time ≤ M := by
  refine (update_forall (P := fun _ q => ∀ r ∈ q, r.time ≤ M) h (fun w _ q q' hq hst r hr => ?_) htl).1
  unfold stepQueue at hst
  split at hst
  · cases hst
    simp only [squashQueue, List.mem_singleton] at hr
    subst hr
    exact hf
  · simp only [updateQueue, Option.map_eq_some_iff] at hst
    obtain ⟨q1, h1, rfl⟩ := hst
    rcases bubble_mem r hr with rfl | hr
    · exact hf
    · obtain ⟨x, hx, hxt⟩ := consume_mem_time h1 r hr
      rw [hxt]; exact hq x hx

/-- One round moves the horizon by no more than the chain can take. -/
theorem step_before (hsite : NoSiteLimits E) {P : Plan (State σ)} {fuel : Nat} {first last : Bool} {st st' : State σ} {v : Nat}
    {M L D : Int} (hb : Before st M) (h0 : 0 ≤ M) (hL0 : 0 ≤ L) (hD0 : 0 ≤ D) (hP : P.parentTime ≤ M)
    (hts : P.assignedTimes v = none)
    (hest : ∀ team c, P.choose st v = some (team, c) → ∀ u ∈ E.chain v, E.estimate u team ≤ D)
    (hlag : ∀ u ∈ E.chain v, ∀ e ∈ E.edgesTo u, e.2 ≤ L)
    (h : step E P fuel first last st v = some (some st')) : Before st' (M + (E.chain v).length * (L + D)) := by
  simp only [step] at h
  split at h
  · simp at h
  · rename_i c hc
    split at h
    · simp at h
    · simp at h
    · rename_i f hf
      simp only [Option.some.injEq, Option.bind_eq_some_iff, scheduleAt, Option.map_eq_some_iff, hts, Option.getD_none] at h
      obtain ⟨es, hes, r, hr, tl', htl, env', henv, rfl⟩ := h
      have hf1 := (find_le hsite hb h0 hL0 hD0 hP (hest c.1 c.2 hc) hlag hf).1
      have hes2 : es.2 ≤ M := by
        unfold startFor at hes
        dsimp only at hes
        split at hes
        · obtain ⟨s', t, h, ht⟩ := hsite.finish st.env
          rw [h] at hes
          simp only [Option.map_some, Option.some.injEq] at hes
          subst hes
          dsimp only
          split <;> omega
        · cases hes
          dsimp only
          split <;> omega
      obtain ⟨h1, h2⟩ := placeChain_le hsite hL0 hD0 (hest c.1 c.2 hc) hlag h0 hes2 hb.2 hr
      have hlen : 0 ≤ ((E.chain v).length : Int) * (L + D) := Int.mul_nonneg (by omega) (by omega)
      refine ⟨update_le h1 htl fun a q hq r hr => ?_, h2⟩
      have := hb.1 a q hq r hr
      omega

end Sampo.JIT

namespace Sampo

theorem Row.finishes_le {R team c vs cur sw cur' sw'} (h : Row R team c vs cur sw cur' sw') :
    ∀ e ∈ sw', e ∈ sw ∨ e.2.finish ≤ cur' := by
  induction h with
  | nil => exact fun e he => .inl he
  | cons _ _ _ hrow ih =>
    intro e he
    rcases ih e he with h | h
    · rcases List.mem_cons.mp h with rfl | h
      · exact .inr hrow.le
      · exact .inl h
    · exact .inr h

end Sampo

namespace Sampo.Momentum

variable {σ : Type} {E : Env σ}

/-- No time recorded in the timeline or the schedule is after `M`. -/
def Before (st : State σ) (M : Int) : Prop :=
  (∀ a s, st.tl.states a = some s → ∀ e ∈ s, e.time ≤ M) ∧ ∀ e ∈ st.sched, e.2.finish ≤ M

theorem lastShort_mem {n end_ : Int} : ∀ {l r : List Event}, lastShort n end_ l = some r → ∀ e ∈ r, e ∈ l := by
  intro l
  induction l with
  | nil => intro r h; simp [lastShort] at h
  | cons x xs ih =>
    intro r h e he
    simp only [lastShort] at h
    split at h
    · cases hx : lastShort n end_ xs with
      | none =>
        rw [hx] at h
        simp only [Option.none_or] at h
        split at h
        · cases h; exact List.mem_cons_of_mem _ he
        · simp at h
      | some y =>
        rw [hx] at h
        simp only [Option.some_or, Option.some.injEq] at h
        subst h
        exact List.mem_cons_of_mem _ (ih hx e he)
    · simp at h

theorem slotLoop_before {n exec last M : Int} : ∀ {fuel : Nat} {cur : Int} {rest : List Event} {r : Int}, cur ≤ M →
    (∀ e ∈ rest, e.time ≤ M) → slotLoop n exec last fuel cur rest = some (some r) → r ≤ M := by
  intro fuel
  induction fuel with
  | zero => intro cur rest r _ _ h; simp [slotLoop] at h
  | succ k ih =>
    intro cur rest r hc hr h
    simp only [slotLoop] at h
    split at h
    · split at h
      · simp only [Option.some.injEq] at h; omega
      · simp at h
      · rename_i e es he
        have hm := lastShort_mem he
        exact ih (hr e (hm e (List.mem_cons_self ..))) (fun x hx => hr x (hm x hx)) h
    · simp only [Option.some.injEq] at h; omega

theorem fromLast_mem : ∀ {s : List Event} {t : Int}, ∀ e ∈ fromLast s t, e ∈ s := by
  intro s
  induction s with
  | nil => intro t e he; simp [fromLast] at he
  | cons x xs ih =>
    intro t e he
    cases xs with
    | nil => simpa [fromLast] using he
    | cons y ys =>
      simp only [fromLast] at he
      split at he
      · exact List.mem_cons_of_mem _ (ih e he)
      · exact he

theorem findSlot_before {s : List Event} {parent exec n M r : Int} {ind : Bool} (hp : parent ≤ M) (hs : ∀ e ∈ s, e.time ≤ M)
    (h : findSlot s parent exec n ind = some (some r)) : r ≤ M := by
  unfold findSlot at h
  split at h
  · simp only [Option.some.injEq] at h; omega
  · split at h
    · simp at h
    · rename_i l hl
      split at h
      · simp only [Option.some.injEq] at h
        have := hs l (List.mem_of_getLast? hl)
        omega
      · exact slotLoop_before hp (fun e he => hs e (fromLast_mem e he)) h

theorem queueLoop_before {rt : Resources} {cnt : Nat → Option Int} {exec M : Int} {ind : Bool}
    (hrt : ∀ k s, rt k = some s → ∀ e ∈ s, e.time ≤ M) : ∀ {fuel : Nat} {queue sched : List Nat} {start r : Int}, start ≤ M →
    queueLoop rt cnt exec ind fuel queue sched start = some (some r) → r ≤ M := by
  intro fuel
  induction fuel with
  | zero => intro queue sched start r _ h; simp [queueLoop] at h
  | succ k ih =>
    intro queue sched start r hs h
    cases queue with
    | nil => simp only [queueLoop, Option.some.injEq] at h; omega
    | cons x xs =>
      simp only [queueLoop] at h
      split at h
      · rename_i s n hs' hn
        split at h
        · simp at h
        · simp at h
        · rename_i found hf
          have := findSlot_before hs (hrt _ _ hs') hf
          split at h
          · simp at h
          · split at h
            · exact ih this h
            · exact ih this h
      · simp at h

/-- The capacity check passes for a team that fits. -/
theorem enough_fits {pool : AgentId → Option Int} {tl : Timeline} {ps : List Placement} (h : History pool tl ps)
    {v : Nat} {w : Worker} {ws : List Worker} (hf : Fits E pool v (w :: ws)) :
    enoughForChain (tl.resources w.contractor) (w :: ws) ((E.chain v).map fun v => ⟨E.service v, E.kinds v⟩) = some true := by
  obtain ⟨⟨l, hl⟩, hk, hs, hall⟩ := hf.kinds (by simp)
  apply enoughForChain_true
  intro d hd
  obtain ⟨u, hu, rfl⟩ := List.mem_map.mp hd
  rcases hall u hu with hk | hk
  · apply enoughFor_true hk
    intro x hx
    obtain ⟨cap, h1, h2⟩ := hf.within x hx
    obtain ⟨s, h3, h4⟩ := history_inv h h1
    obtain ⟨es, hes, _⟩ := h4.head
    refine ⟨cap, es, ?_, h2⟩
    have hag : x.agent = (w.contractor, x.name) := by
      unfold Worker.agent; rw [hf.one x hx w (List.mem_cons_self ..)]
    unfold Timeline.resources
    rw [← hag, h3, hes]
  · dsimp only; rw [hk]; rfl

theorem findLoop_before (hsite : NoSiteLimits E) {pool : AgentId → Option Int} {tl : Timeline} {ps : List Placement}
    (h : History pool tl ps) {v : Nat} {w : Worker} {ws : List Worker} (hf : Fits E pool v (w :: ws)) {env : σ} {ind : Bool}
    {exec inf M : Int} {fuelIn fuel : Nat} {cur r : Int} (htl : ∀ a s, tl.states a = some s → ∀ e ∈ s, e.time ≤ M) (hc : cur ≤ M)
    (hfind : findLoop E tl env v (w :: ws) w.contractor ind exec inf fuelIn fuel cur = some (some r)) : r ≤ M := by
  cases fuel with
  | zero => simp [findLoop] at hfind
  | succ n =>
    simp only [findLoop] at hfind
    split at hfind
    · simp at hfind
    · simp at hfind
    · rename_i cur' hc'
      have h1 := hsite.material env v cur'
      have h2 := hsite.zone env v cur' exec
      rw [if_neg (by omega), if_neg (by omega)] at hfind
      simp only [Option.some.injEq] at hfind
      subst hfind
      unfold findMinStart at hc'
      rw [enough_fits h hf] at hc'
      split at hc'
      · simp only [Option.some.injEq] at hc'; omega
      · dsimp only at hc'
        split at hc'
        · simp at hc'
        · exact queueLoop_before (fun k s hs => htl _ s hs) hc hc'

theorem execTimes_le {sw : Sched} {team : List Worker} {a : Option Int} {P mp D : Int} (hD0 : 0 ≤ D) :
    ∀ {vs : List Nat} {e B : Int}, (∀ u ∈ vs, E.estimate u team ≤ D ∧ parentTimeOf E sw a P u ≤ B) → mp + e ≤ B →
    mp + (execTimes E sw team a P mp vs e).2 ≤ B + vs.length * D := by
  intro vs
  induction vs with
  | nil => intro e B _ h; simpa [execTimes] using h
  | cons v vs ih =>
    intro e B hv h
    obtain ⟨h1, h2⟩ := hv v (List.mem_cons_self ..)
    simp only [execTimes]
    have := ih (e := e + ((if parentTimeOf E sw a P v - mp - e > 0 then parentTimeOf E sw a P v - mp - e else 0) +
      (if (E.kinds v).isEmpty then 0 else E.estimate v team))) (B := B + D)
      (fun u hu => ⟨(hv u (List.mem_cons_of_mem _ hu)).1, by have := (hv u (List.mem_cons_of_mem _ hu)).2; omega⟩)
      (by split <;> split <;> omega)
    rw [List.length_cons]; push_cast
    rw [Int.add_mul]; omega

theorem parentTimeOf_before {sw : Sched} {a : Option Int} {P M L : Int} (h0 : 0 ≤ M + L) (hP : P ≤ M + L)
    (ha : ∀ t, a = some t → t ≤ M + L) (hsw : ∀ e ∈ sw, e.2.finish ≤ M) {v : Nat} (hL : ∀ e ∈ E.edgesTo v, e.2 ≤ L) :
    parentTimeOf E sw a P v ≤ M + L := by
  have := JIT.minStart_before h0 hL hsw
  unfold parentTimeOf applySpec
  cases a with
  | none => dsimp only; omega
  | some t => have := ha t rfl; dsimp only; omega

/-- What the search reports for a team that fits. -/
theorem find_before (hsite : NoSiteLimits E) {pool : AgentId → Option Int} {st : State σ} {ps : List Placement}
    (hh : History pool st.tl ps) {M L D : Int} (hb : Before st M) (h0 : 0 ≤ M) (hL0 : 0 ≤ L) (hD0 : 0 ≤ D) {v : Nat}
    {team : List Worker} (hfit : Fits E pool v team) {ind : Bool} {P inf : Int} (hP0 : 0 ≤ P) (hP : P ≤ M) {fuelIn fuel : Nat}
    (hest : ∀ u ∈ E.chain v, E.estimate u team ≤ D) (hlag : ∀ u ∈ v :: E.chain v, ∀ e ∈ E.edgesTo u, e.2 ≤ L) {f : Found}
    (h : find E st v team ind none P inf fuelIn fuel = some (some f)) :
    f.start ≤ M + L ∧ f.finish ≤ 2 * (M + L) + (E.chain v).length * D := by
  have hlen : 0 ≤ ((E.chain v).length : Int) * D := Int.mul_nonneg (by omega) hD0
  have hpt : ∀ u ∈ v :: E.chain v, parentTimeOf E st.sched none P u ≤ M + L := fun u hu =>
    parentTimeOf_before (by omega) (by omega) (by simp) hb.2 (hlag u hu)
  have hmp := hpt v (List.mem_cons_self ..)
  have hmp0 : 0 ≤ parentTimeOf E st.sched none P v := by unfold parentTimeOf; omega
  have hex := execTimes_le (E := E) (sw := st.sched) (team := team) (a := none) (P := P)
    (mp := parentTimeOf E st.sched none P v) hD0 (vs := E.chain v) (e := 0) (B := M + L)
    (fun u hu => ⟨hest u hu, hpt u (List.mem_cons_of_mem _ hu)⟩) (by omega)
  unfold find at h
  dsimp only at h
  split at h
  · simp only [Option.some.injEq] at h
    subst h
    have h1 := hsite.material st.env v (parentTimeOf E st.sched none P v)
    have h2 := hsite.zone st.env v (parentTimeOf E st.sched none P v)
      (execTimes E st.sched [] none P (parentTimeOf E st.sched none P v) (E.chain v) 0).2
    dsimp only
    constructor <;> omega
  · rename_i w ws
    simp only [Option.map_eq_some_iff] at h
    obtain ⟨o, ho, t, rfl, rfl⟩ := h
    simp only [findStart] at ho
    split at ho
    · simp at ho
    · simp at ho
    · rename_i t' ht'
      simp only [Option.some.injEq, Option.map_eq_some_iff] at ho
      obtain ⟨_, _, rfl⟩ := ho
      have := findLoop_before hsite hh hfit (M := M + L) (fun a s hs e he => by have := hb.1 a s hs e he; omega) hmp ht'
      dsimp only
      constructor <;> omega

theorem updateState_before {idx start end_ n M : Int} {s s' : List Event} (h : updateState idx start end_ n s = some s')
    (h1 : start ≤ M) (h2 : end_ ≤ M) (hs : ∀ e ∈ s, e.time ≤ M) : ∀ e ∈ s', e.time ≤ M := by
  unfold updateState at h
  obtain ⟨a, _, h⟩ := Option.bind_eq_some_iff.mp h
  split at h
  · obtain ⟨s1, hs1, h⟩ := Option.bind_eq_some_iff.mp h
    simp only [insertPair, Option.map_eq_some_iff] at h
    obtain ⟨l, _, rfl⟩ := h
    intro e he
    rcases mem_add.mp he with rfl | he
    · exact h2
    · rcases mem_add.mp he with rfl | he
      · exact h1
      · rw [(decrement_eq hs1).1] at he
        obtain ⟨x, hx, rfl⟩ := List.mem_map.mp he
        rw [dec_time]
        exact hs x hx
  · simp at h

theorem updateTeam_before {idx start end_ M : Int} (h1 : start ≤ M) (h2 : end_ ≤ M) : ∀ {team : List Worker}
    {f f' : AgentId → Option (List Event)}, updateTeam idx start end_ f team = some f' →
    (∀ a s, f a = some s → ∀ e ∈ s, e.time ≤ M) → ∀ a s, f' a = some s → ∀ e ∈ s, e.time ≤ M := by
  intro team
  induction team with
  | nil => intro f f' h hf; simp only [updateTeam, Option.some.injEq] at h; subst h; exact hf
  | cons w ws ih =>
    intro f f' h hf
    simp only [updateTeam, Option.bind_eq_bind, Option.bind_eq_some_iff] at h
    obtain ⟨s, hs, s', hs', h⟩ := h
    refine ih h fun a q hq => ?_
    unfold set at hq
    split at hq
    · cases hq; exact updateState_before hs' h1 h2 (hf _ _ hs)
    · exact hf a q hq

/-- One round moves the horizon by no more than the chain can take. -/
theorem step_before (hsite : NoSiteLimits E) (hest0 : ∀ v team, 0 ≤ E.estimate v team) {pool : AgentId → Option Int}
    {P : Plan (State σ)} {inf : Int} {fuelIn fuel : Nat} {first last : Bool} {st st' : State σ} {ps : List Placement}
    (hh : History pool st.tl ps) {v : Nat} {M L D : Int} (hb : Before st M) (h0 : 0 ≤ M) (hL0 : 0 ≤ L) (hD0 : 0 ≤ D)
    (hP0 : 0 ≤ P.parentTime) (hP : P.parentTime ≤ M) (hts : P.assignedTimes v = none) (hnd : (E.chain v).Nodup)
    (hchain : v ∈ E.chain v) (hfit : ∀ team c, P.choose st v = some (team, c) → Fits E pool v team)
    (hest : ∀ team c, P.choose st v = some (team, c) → ∀ u ∈ E.chain v, E.estimate u team ≤ D)
    (hlag : ∀ u ∈ E.chain v, ∀ e ∈ E.edgesTo u, e.2 ≤ L)
    (h : step E P inf fuelIn fuel first last st v = some (some st')) : Before st' (M + (E.chain v).length * (L + D)) := by
  have hlen1 : 1 ≤ ((E.chain v).length : Int) := by
    have := List.length_pos_of_mem hchain
    omega
  have hLl : L ≤ ((E.chain v).length : Int) * L := by nlinarith
  have hlag' : ∀ u ∈ v :: E.chain v, ∀ e ∈ E.edgesTo u, e.2 ≤ L := by
    intro u hu
    rcases List.mem_cons.mp hu with rfl | hu
    · exact hlag _ hchain
    · exact hlag u hu
  simp only [step] at h
  split at h
  · simp at h
  · rename_i c hc
    split at h
    · simp at h
    · simp at h
    · rename_i f hf
      split at h
      · simp at h
      · rename_i es hes
        have hf1 := (find_before hsite hh hb h0 hL0 hD0 (hfit c.1 c.2 hc) hP0 hP (hest c.1 c.2 hc) hlag' hf).1
        have hes2 : es.2 ≤ M + L := by
          unfold startFor at hes
          dsimp only at hes
          split at hes
          · obtain ⟨s', t, h, ht⟩ := hsite.finish st.env
            rw [h] at hes
            simp only [Option.map_some, Option.some.injEq] at hes
            subst hes
            dsimp only
            split <;> omega
          · cases hes
            dsimp only
            split <;> omega
        simp only [schedule, Option.map_eq_some_iff, hts, Option.getD_none] at h
        obtain ⟨o, ho, h⟩ := h
        simp only [Option.bind_eq_some_iff, scheduleAt, Option.map_eq_some_iff] at h
        obtain ⟨g, rfl, r, hr, tl', htl, env', _, rfl⟩ := h
        have htimes := find_times ho
        dsimp only at htimes
        generalize hmpe : parentTimeOf E st.sched (some es.2) P.parentTime v = mp at htimes
        have hpt : ∀ u ∈ v :: E.chain v, parentTimeOf E st.sched (some es.2) P.parentTime u ≤ M + L := fun u hu =>
          parentTimeOf_before (by omega) (by omega) (by rintro t ⟨⟩; exact hes2) hb.2 (hlag' u hu)
        have hmp : mp ≤ M + L := by rw [← hmpe]; exact hpt v (List.mem_cons_self ..)
        have hesmp : es.2 ≤ mp := by rw [← hmpe]; simp only [parentTimeOf, applySpec]; omega
        have hg : g.start ≤ mp := by
          simp only [find, hmpe] at ho
          split at ho
          · simp only [Option.some.injEq] at ho
            subst ho
            have h1 := hsite.material es.1 v mp
            have h2 := hsite.zone es.1 v mp (execTimes E st.sched c.1 (some es.2) P.parentTime mp (E.chain v) 0).2
            dsimp only
            omega
          · simp only [Option.map_eq_some_iff, findStart, Option.some.injEq] at ho
            obtain ⟨o, rfl, t, ht, rfl⟩ := ho
            simp only [Option.map_eq_some_iff] at ht
            obtain ⟨_, _, rfl⟩ := ht
            exact hesmp
        have hex := execTimes_le (E := E) (sw := st.sched) (team := c.1) (a := some es.2) (P := P.parentTime) (mp := mp) hD0
          (vs := E.chain v) (e := 0) (B := M + L)
          (fun u hu => ⟨hest c.1 c.2 hc u hu, hpt u (List.mem_cons_of_mem _ hu)⟩) (by omega)
        have hge := execTimes_ge (E := E) (sw := st.sched) (team := c.1) (assigned := some es.2) (P := P.parentTime) (mp := mp) hest0
          (E.chain v) 0
        have hkeys : (g.times.map (·.1)).Nodup := by rw [htimes, execTimes_keys]; exact hnd
        obtain ⟨s2, sw2, hpc⟩ := placeChain_end (c := c.2) (times := timesOf g.times) hsite (sw0 := st.sched) (team := c.1)
          (assigned := some es.2) (P := P.parentTime) (mp := mp) (E.chain v) 0
          (by intro x hx; exact timesOf_mem hkeys (by rw [htimes]; exact hx)) g.start es.1 st.sched
        rw [hr] at hpc
        simp only [Option.some.injEq] at hpc
        have hr1 : r.1 = g.start + ((execTimes E st.sched c.1 (some es.2) P.parentTime mp (E.chain v) 0).2 - 0) := by rw [hpc]
        have hrow := placeChain_row (E := E) (fun v => hest0 v c.1) (timesOf_nonneg (by
          rw [htimes]; exact execTimes_nonneg (fun v => hest0 v c.1) _ _)) hr
        have hfin : r.1 ≤ M + (E.chain v).length * (L + D) := by rw [Int.mul_add]; omega
        refine ⟨?_, fun e he => ?_⟩
        · unfold update at htl
          split at htl
          · cases htl
            intro a s hs e he
            have := hb.1 a s hs e he
            have := hrow.le
            have hL2 : 0 ≤ ((E.chain v).length : Int) * (L + D) := Int.mul_nonneg (by omega) (by omega)
            omega
          · obtain ⟨f', hf', rfl⟩ := Option.map_eq_some_iff.mp htl
            have := hrow.le
            refine updateTeam_before (by omega) hfin hf' fun a s hs e he => ?_
            have := hb.1 a s hs e he
            have hL2 : 0 ≤ ((E.chain v).length : Int) * (L + D) := Int.mul_nonneg (by omega) (by omega)
            omega
        · rcases hrow.finishes_le e he with h | h
          · have := hb.2 e h
            have hL2 : 0 ≤ ((E.chain v).length : Int) * (L + D) := Int.mul_nonneg (by omega) (by omega)
            omega
          · omega

end Sampo.Momentum
