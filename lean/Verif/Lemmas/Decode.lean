import Verif.Model.Decode
import Verif.Lemmas.SchedJIT
import Verif.Lemmas.SchedMomentumRun

namespace Sampo.Decode

variable {σ : Type} {D : Input σ} {E : Env σ}

theorem Run.snoc {R : Nat → Sched → Int → Prop} {chain : Nat → List Nat} {vs : List Nat} {sw sw1 sw2 : Sched}
    (h : Run R chain vs sw sw1) {v : Nat} {team : List Worker} {c : Nat} {cur cur' : Int}
    (hr : Row R team c (chain v) cur sw1 cur' sw2) : Run R chain (vs ++ [v]) sw sw2 := by
  induction h with
  | nil => exact .cons hr .nil
  | cons h1 _ ih => exact .cons h1 (ih hr)

/-! ### Teams -/

theorem mapM_option_forall {α β : Type} {f : α → Option β} {P : β → Prop} {l : List α} {r : List β}
    (h : l.mapM f = some r) (hf : ∀ a ∈ l, ∀ b, f a = some b → P b) : ∀ b ∈ r, P b := by
  induction l generalizing r with
  | nil => simp at h; subst h; simp
  | cons a l ih =>
    simp only [List.mapM_cons, Option.bind_eq_bind, Option.bind_eq_some_iff, Option.pure_def, Option.some.injEq] at h
    obtain ⟨b, hb, bs, hbs, rfl⟩ := h
    intro x hx
    rcases List.mem_cons.mp hx with rfl | hx
    · exact hf a (by simp) _ hb
    · exact ih hbs (fun a ha => hf a (by simp [ha])) x hx

theorem mapM_option_map {α β γ : Type} {f : α → Option β} {g : β → γ} {g' : α → γ} {l : List α} {r : List β}
    (h : l.mapM f = some r) (hf : ∀ a ∈ l, ∀ b, f a = some b → g b = g' a) : r.map g = l.map g' := by
  induction l generalizing r with
  | nil => simp at h; subst h; simp
  | cons a l ih =>
    simp only [List.mapM_cons, Option.bind_eq_bind, Option.bind_eq_some_iff, Option.pure_def, Option.some.injEq] at h
    obtain ⟨b, hb, bs, hbs, rfl⟩ := h
    simp only [List.map_cons, List.cons.injEq]
    exact ⟨hf a (by simp) _ hb, ih hbs fun a ha => hf a (by simp [ha])⟩

/-- The specification changes counts only. -/
theorem respec_agents {reqs : List WorkerReq} {assigned : List (Nat × Int)} {team team' : List Worker}
    (h : respec reqs assigned team = some team') : team'.map (·.agent) = team.map (·.agent) := by
  unfold respec at h
  split at h
  · refine mapM_option_map h fun w _ w' hw => ?_
    split at hw
    · simp only [Option.map_eq_some_iff] at hw
      obtain ⟨n, _, rfl⟩ := hw; rfl
    · cases hw; rfl
  · cases h
    rw [List.map_map]
    apply List.map_congr_left
    intro w _
    simp only [Function.comp]
    split <;> rfl

/-- Counts after the specification: those of the specification or those before. -/
theorem respec_counts {reqs : List WorkerReq} {assigned : List (Nat × Int)} {team team' : List Worker}
    (h : respec reqs assigned team = some team') :
    ∀ w ∈ team', w ∈ team ∨ assigned.lookup w.name = some w.count := by
  unfold respec at h
  split at h
  · refine mapM_option_forall h fun w hw w' hw' => ?_
    split at hw'
    · simp only [Option.map_eq_some_iff] at hw'
      obtain ⟨n, hn, rfl⟩ := hw'
      exact .inr hn
    · cases hw'; exact .inl hw
  · cases h
    intro w' hw'
    obtain ⟨w, hw, rfl⟩ := List.mem_map.mp hw'
    by_cases hc : w.name ∈ reqs.map (·.kind) ∧ (assigned.lookup w.name).getD 0 > 0
    · rw [if_pos hc]
      right
      cases hl : assigned.lookup w.name with
      | none => rw [hl] at hc; simp at hc
      | some n => simp
    · rw [if_neg hc]; exact .inl hw

/-- A team that already agrees with the specification is not changed. -/
theorem respec_agrees {reqs : List WorkerReq} {assigned : List (Nat × Int)} {team team' : List Worker}
    (ha : ∀ w ∈ team, ∀ n, assigned.lookup w.name = some n → w.count = n)
    (h : respec reqs assigned team = some team') : team' = team := by
  unfold respec at h
  split at h
  · have := mapM_option_map (g := id) (g' := id) h fun w hw w' hw' => by
      split at hw'
      · simp only [Option.map_eq_some_iff] at hw'
        obtain ⟨n, hn, rfl⟩ := hw'
        have := ha w hw n hn
        cases w; simp_all
      · cases hw'; rfl
    simpa using this
  · cases h
    conv_rhs => rw [← List.map_id team]
    apply List.map_congr_left
    intro w hw
    by_cases hc : w.name ∈ reqs.map (·.kind) ∧ (assigned.lookup w.name).getD 0 > 0
    · rw [if_pos hc]
      cases hl : assigned.lookup w.name with
      | none => rw [hl] at hc; simp at hc
      | some n =>
        have := ha w hw n hl
        cases w; simp_all
    · rw [if_neg hc]; rfl

theorem parallelTeam_spec {i : Nat} {team : List Worker} (h : parallelTeam D i = some team) :
    (team.map (·.agent)).Nodup ∧
    ∀ w ∈ team, w.contractor = D.chrom.contractor i ∧ w.name < D.kinds ∧ w.count = D.chrom.amount i w.name ∧ 0 < w.count ∧
      (D.pool w.name w.contractor).isSome := by
  constructor
  · have := mapM_option_map (g := (·.agent)) (g' := fun k => (D.chrom.contractor i, k)) h fun k _ w hw => by
      simp only [Option.map_eq_some_iff] at hw
      obtain ⟨_, _, rfl⟩ := hw; rfl
    rw [this]
    exact ((List.nodup_range).filter _).map fun a b hab => by simpa using hab
  · refine mapM_option_forall h fun k hk w hw => ?_
    simp only [Option.map_eq_some_iff] at hw
    obtain ⟨n, hn, rfl⟩ := hw
    simp only [List.mem_filter, List.mem_range, decide_eq_true_eq] at hk
    exact ⟨rfl, hk.1, rfl, hk.2, by simp [hn]⟩

theorem serialTeam_spec {i : Nat} {team : List Worker} (h : serialTeam D i = some team)
    (hnd : ((D.reqs (D.node i)).map (·.kind)).Nodup) :
    (team.map (·.agent)).Nodup ∧
    ∀ w ∈ team, ((∃ r ∈ D.reqs (D.node i), r.kind = w.name) ∧ w.count = D.chrom.amount i w.name) ∨
      (D.spec (D.node i)).assigned.lookup w.name = some w.count := by
  unfold serialTeam at h
  simp only [Option.bind_eq_some_iff] at h
  obtain ⟨t0, ht0, h⟩ := h
  constructor
  · rw [respec_agents h]
    have := mapM_option_map (g := (·.agent)) (g' := fun r : WorkerReq => (D.chrom.contractor i, r.kind)) ht0 fun k _ w hw => by
      simp only [Option.map_eq_some_iff] at hw
      obtain ⟨_, _, rfl⟩ := hw; rfl
    rw [this]
    have h2 := hnd.map (f := fun k => (D.chrom.contractor i, k)) fun a b hab => by simpa using hab
    rw [List.map_map] at h2
    exact h2
  · intro w hw
    rcases respec_counts h w hw with h1 | h1
    · left
      revert w
      exact fun w _ hw => mapM_option_forall (P := fun w => (∃ r ∈ D.reqs (D.node i), r.kind = w.name) ∧ w.count = D.chrom.amount i w.name) ht0
        (fun r hr w hw => by
          simp only [Option.map_eq_some_iff] at hw
          obtain ⟨_, _, rfl⟩ := hw
          exact ⟨⟨r, hr, rfl⟩, rfl⟩) w hw
    · exact .inr h1

/-! ### Serial scheme -/

section serial

variable {post : Momentum.State σ → Nat → Option σ} {inf : Int} {fuelIn fuel : Nat}

theorem serialFrom_cons {first : Bool} {i : Nat} {is : List Nat} {st st' : Momentum.State σ}
    (h : serialFrom D E post inf fuelIn fuel first (i :: is) st = some (some st')) :
    ∃ st1 env, Momentum.step E (serialPlan D E i) inf fuelIn fuel first false st (D.node i) = some (some st1) ∧
      serialFrom D E post inf fuelIn fuel false is { st1 with env := env } = some (some st') := by
  simp only [serialFrom] at h
  split at h
  · simp at h
  · simp at h
  · rename_i st1 h1
    split at h
    · simp at h
    · exact ⟨st1, _, h1, h⟩

theorem serialFrom_run {first : Bool} {is : List Nat} {st st' : Momentum.State σ}
    (hest : ∀ v team, 0 ≤ E.estimate v team)
    (hts : ∀ v t, D.assignedTime v = some t → NonNegTimes (chainTimes D (E.chain v) t))
    (hP : 0 ≤ D.parentTime) (hinf : D.parentTime ≤ inf)
    (h : serialFrom D E post inf fuelIn fuel first is st = some (some st')) :
    Run (fun _ _ _ => True) E.chain (is.map D.node) st.sched st'.sched := by
  induction is generalizing first st with
  | nil => simp only [serialFrom, Option.some.injEq] at h; subst h; exact .nil
  | cons i is ih =>
    obtain ⟨st1, env, h1, h2⟩ := serialFrom_cons h
    obtain ⟨team, c, start, fin, _, hrow, _⟩ := Momentum.step_row hest (fun v ts hv => by
      simp only [serialPlan, Option.map_eq_some_iff] at hv
      obtain ⟨t, ht, rfl⟩ := hv
      exact hts v t ht) hP hinf h1
    exact .cons hrow (ih (st := { st1 with env := env }) h2)

theorem serialFrom_after {first : Bool} {is : List Nat} {st st' : Momentum.State σ}
    (hest : ∀ v team, 0 ≤ E.estimate v team) (hts : ∀ v, D.assignedTime v = none)
    (hnd : ∀ i ∈ is, (E.chain (D.node i)).Nodup)
    (hlag : ∀ i ∈ is, ∀ u ∈ E.chain (D.node i), ∀ e ∈ E.edgesTo u, e.1 ∈ E.chain (D.node i) → e.2 ≤ 0)
    (hP : 0 ≤ D.parentTime) (hinf : D.parentTime ≤ inf)
    (hrange : TimesInRange E.edgesTo inf st'.sched) (hfirst : first = true → st.sched = [])
    (h : serialFrom D E post inf fuelIn fuel first is st = some (some st')) :
    Run (Momentum.After E D.parentTime) E.chain (is.map D.node) st.sched st'.sched := by
  induction is generalizing first st with
  | nil => simp only [serialFrom, Option.some.injEq] at h; subst h; exact .nil
  | cons i is ih =>
    have hrun := serialFrom_run hest (fun v t hv => by rw [hts v] at hv; cases hv) hP hinf h
    obtain ⟨st1, env, h1, h2⟩ := serialFrom_cons h
    obtain ⟨team, c, start, fin, _, hrow⟩ := Momentum.step_after hest (by simp [serialPlan, hts]) (hnd i (by simp))
      (hlag i (by simp)) hP hinf (fun x hx => hrange x (hrun.subset x hx)) hfirst h1
    exact .cons hrow (ih (st := { st1 with env := env }) (fun u hu => hnd u (by simp [hu])) (fun u hu => hlag u (by simp [hu])) (by simp) h2)

theorem serialFrom_covered {pool : AgentId → Option Int} {first : Bool} {is : List Nat} {st st' : Momentum.State σ}
    (hest : ∀ v team, 0 ≤ E.estimate v team)
    (hts : ∀ v t, D.assignedTime v = some t → NonNegTimes (chainTimes D (E.chain v) t))
    (hteam : ∀ i ∈ is, ∀ team, serialTeam D i = some team → WellFormedTeam team)
    (hP : 0 ≤ D.parentTime) (hinf : D.parentTime ≤ inf) (hst : Momentum.Covered pool st)
    (h : serialFrom D E post inf fuelIn fuel first is st = some (some st')) : Momentum.Covered pool st' := by
  induction is generalizing first st with
  | nil => simp only [serialFrom, Option.some.injEq] at h; subst h; exact hst
  | cons i is ih =>
    obtain ⟨st1, env, h1, h2⟩ := serialFrom_cons h
    refine ih (st := { st1 with env := env }) (fun j hj => hteam j (by simp [hj])) ?_ h2
    obtain ⟨team, c, start, fin, hch, hrow, hup, hge⟩ := Momentum.step_row hest (fun v ts hv => by
      simp only [serialPlan, Option.map_eq_some_iff] at hv
      obtain ⟨t, ht, rfl⟩ := hv
      exact hts v t ht) hP hinf h1
    simp only [serialPlan, Option.map_eq_some_iff] at hch
    obtain ⟨t', ht', heq⟩ := hch
    cases heq
    have hwf := hteam i (by simp) _ ht'
    obtain ⟨ps, hh, hb⟩ := hst
    have hP' : D.parentTime ≤ start := hge
    refine ⟨⟨team, start, fin, false⟩ :: ps, .place ⟨team, start, fin, false⟩ hh hwf (by simp; omega) hrow.le hup,
      fun a t => ?_⟩
    refine Int.le_trans (hrow.busy_le hwf.2 a t) ?_
    rw [JIT.busy_cons]
    have := hb a t
    simp only
    omega

end serial

/-! ### Parallel scheme -/

theorem place_spec {st : JIT.State σ} {it : Item} {t : Int} {r : JIT.State σ × Int}
    (hest : ∀ v team, 0 ≤ E.estimate v team) (hts : NonNegTimes (chainTimes D (E.chain it.node) it.exec))
    (h : place D E st it t = some r) :
    ∃ team fin, respec (D.reqs it.node) (D.spec it.node).assigned it.team = some team ∧
      Row (AfterPreds E.edgesTo) team it.contractor (E.chain it.node) r.2 st.sched fin r.1.sched ∧
      JIT.update st.tl fin (D.independent it.node) team = some r.1.tl ∧
      (it.idx ≠ 0 → t ≤ r.2) := by
  unfold place at h
  simp only [Option.bind_eq_some_iff, Option.map_eq_some_iff] at h
  obtain ⟨team, hteam, es, hes, st', hst', rfl⟩ := h
  simp only [JIT.scheduleAt, Option.bind_eq_some_iff, Option.map_eq_some_iff] at hst'
  obtain ⟨x, hx, tl', htl, env', _, rfl⟩ := hst'
  refine ⟨team, x.1, hteam, JIT.placeChain_row (fun v => hest v _) hts hx, htl, ?_⟩
  intro hidx
  unfold startOf at hes
  split at hes
  · simp only [Option.map_eq_some_iff] at hes
    obtain ⟨z, _, rfl⟩ := hes
    simp only; omega
  · cases hes; simp [hidx]

/-- Invariants of the passes: any property of (remaining works, state) kept by one placement. -/
theorem pass_inv {Inv : List Item → JIT.State σ → Prop} {t : Int}
    (hperm : ∀ l l' st, l.Perm l' → Inv l st → Inv l' st)
    (hstep : ∀ it l st r, canNow D E st it t = some true → place D E st it t = some r → Inv (it :: l) st → Inv l r.1)
    {its kept : List Item} {st : JIT.State σ} {ev : List Int} {r : List Item × JIT.State σ × List Int}
    (h : pass D E t its st ev = some r) (hi : Inv (its ++ kept) st) : Inv (r.1 ++ kept) r.2.1 := by
  induction its generalizing kept st ev r with
  | nil => simp only [pass, Option.some.injEq] at h; subst h; exact hi
  | cons it its ih =>
    simp only [pass, Option.bind_eq_some_iff] at h
    obtain ⟨ok, hok, h⟩ := h
    cases ok with
    | true =>
      simp only [if_true, Option.bind_eq_some_iff] at h
      obtain ⟨p, hp, h⟩ := h
      exact ih h (hstep it _ st p hok hp hi)
    | false =>
      simp only [Bool.false_eq_true, if_false, Option.map_eq_some_iff] at h
      obtain ⟨r', hr', rfl⟩ := h
      have := ih (kept := it :: kept) hr' (hperm _ _ _ (by
        simp [List.perm_middle.symm]) hi)
      exact hperm _ _ _ (by simpa using List.perm_middle) this

theorem advance_inv {Inv : List Item → JIT.State σ → Prop} {t prev : Int}
    (hperm : ∀ l l' st, l.Perm l' → Inv l st → Inv l' st)
    (hstep : ∀ it l st r, canNow D E st it t = some true → place D E st it t = some r → Inv (it :: l) st → Inv l r.1)
    {L L' : Loop σ} (h : advance D E t prev L = some L') (hi : Inv L.items L.st) : Inv L'.items L'.st := by
  simp only [advance, Option.map_eq_some_iff] at h
  obtain ⟨r, hr, rfl⟩ := h
  have := pass_inv (kept := []) hperm hstep hr (by simpa using hi)
  simpa using this

theorem loop_inv {Inv : List Item → JIT.State σ → Prop} {inf : Int} {fuel : Nat}
    (hperm : ∀ l l' st, l.Perm l' → Inv l st → Inv l' st)
    (hstep : ∀ t it l st r, canNow D E st it t = some true → place D E st it t = some r → Inv (it :: l) st → Inv l r.1)
    {L L' : Loop σ} (h : loop D E inf fuel L = some (some L')) (hi : Inv L.items L.st) : Inv L'.items L'.st := by
  induction fuel generalizing L with
  | zero => simp [loop] at h
  | succ n ih =>
    simp only [loop] at h
    split at h
    · simp only [Option.some.injEq] at h; subst h; exact hi
    · split at h
      · split at h
        · exact ih h hi
        · split at h
          · simp only [Option.some.injEq] at h; subst h; exact hi
          · split at h
            · simp at h
            · rename_i L1 h1
              exact ih h (advance_inv hperm (hstep _) h1 hi)
      · split at h
        · simp at h
        · rename_i L1 h1
          exact ih h (advance_inv hperm (hstep _) h1 hi)

/-- How an item came out of `decode`. -/
theorem decodeAll_mem {idx : Nat} {is : List Nat} {items : List Item} (h : decodeAll D E idx is = some items) :
    items.map (·.node) = is.map D.node ∧
    ∀ it ∈ items, ∃ j i, is[j]? = some i ∧ decode D E (idx + j) i = some it := by
  induction is generalizing idx items with
  | nil => simp only [decodeAll, Option.some.injEq] at h; subst h; simp
  | cons i is ih =>
    simp only [decodeAll, Option.bind_eq_some_iff, Option.map_eq_some_iff] at h
    obtain ⟨it, hit, its, hits, rfl⟩ := h
    obtain ⟨h1, h2⟩ := ih hits
    have hn : it.node = D.node i := by
      simp only [decode, Option.map_eq_some_iff] at hit
      obtain ⟨_, _, rfl⟩ := hit; rfl
    refine ⟨by simp [h1, hn], ?_⟩
    intro x hx
    rcases List.mem_cons.mp hx with rfl | hx
    · exact ⟨0, i, rfl, hit⟩
    · obtain ⟨j, k, h3, h4⟩ := h2 x hx
      exact ⟨j + 1, k, by simpa using h3, by rw [← h4]; congr 1; omega⟩

/-- Any result of the parallel scheme satisfies an invariant that holds for the decoded works and the empty schedule. -/
theorem parallel_inv {Inv : List Item → JIT.State σ → Prop} {inf : Int} {fuel : Nat} {env : σ}
    (hperm : ∀ l l' st, l.Perm l' → Inv l st → Inv l' st)
    (hstep : ∀ t it l st r, canNow D E st it t = some true → place D E st it t = some r → Inv (it :: l) st → Inv l r.1)
    (hinit : ∀ items, decodeAll D E 0 D.order = some items → Inv items ⟨JIT.init (borderPool D), env, []⟩)
    {L : Loop σ} (h : parallel D E inf env fuel = some (some L)) : Inv L.items L.st := by
  simp only [parallel] at h
  split at h
  · simp at h
  · rename_i L0 h0
    simp only [begin_, Option.map_eq_some_iff] at h0
    obtain ⟨items, hitems, rfl⟩ := h0
    exact loop_inv hperm hstep h (hinit items hitems)

/-- Times of the works are not negative. -/
def GoodTimes (D : Input σ) (E : Env σ) (it : Item) : Prop := NonNegTimes (chainTimes D (E.chain it.node) it.exec)

/-- Bookkeeping of placed and remaining works. -/
theorem parallel_run {inf : Int} {fuel : Nat} {env : σ} {L : Loop σ}
    (hest : ∀ v team, 0 ≤ E.estimate v team)
    (hts : ∀ idx, ∀ i ∈ D.order, ∀ it, decode D E idx i = some it → GoodTimes D E it)
    (h : parallel D E inf env fuel = some (some L)) :
    ∃ vs, Run (AfterPreds E.edgesTo) E.chain vs [] L.st.sched ∧ (vs ++ L.items.map (·.node)).Perm (D.order.map D.node) ∧
      ∀ it ∈ L.items, GoodTimes D E it := by
  apply parallel_inv (Inv := fun l st => ∃ vs, Run (AfterPreds E.edgesTo) E.chain vs [] st.sched ∧
    (vs ++ l.map (·.node)).Perm (D.order.map D.node) ∧ ∀ it ∈ l, GoodTimes D E it) ?_ ?_ ?_ h
  · rintro l l' st hp ⟨vs, h1, h2, h3⟩
    exact ⟨vs, h1, ((hp.map _).symm.append_left vs).trans h2, fun it hit => h3 it (hp.mem_iff.mpr hit)⟩
  · rintro t it l st r hok hp ⟨vs, h1, h2, h3⟩
    obtain ⟨team, fin, _, hrow, _⟩ := place_spec hest (h3 it (by simp)) hp
    refine ⟨vs ++ [it.node], Run.snoc h1 hrow, ?_, fun x hx => h3 x (by simp [hx])⟩
    simpa using h2
  · intro items hi
    obtain ⟨h1, h2⟩ := decodeAll_mem hi
    refine ⟨[], .nil, by simp [h1], ?_⟩
    intro it hit
    obtain ⟨j, i, h3, h4⟩ := h2 it hit
    exact hts _ i (List.mem_of_getElem? h3) it h4

/-- Predecessors inside a chain come before their successors. -/
def ChainOrdered (E : Env σ) : Prop :=
  ∀ v l₁ u l₂, E.chain v = l₁ ++ u :: l₂ → ∀ e ∈ E.edgesTo u, e.1 ∈ E.chain v → e.1 ∈ l₁

theorem canNow_parents {st : JIT.State σ} {it : Item} {t : Int} (h : canNow D E st it t = some true)
    (hind : D.independent it.node = false) :
    (∀ u ∈ E.chain it.node, ∀ p ∈ D.parents u, p ∈ E.chain it.node ∨ p ∈ st.sched.works) ∧
    minStart (E.edgesTo it.node) st.sched ≤ t ∧ (∃ m, JIT.findMinStart st.tl false it.team 0 = some m ∧ m ≤ t) ∧
    D.matOk st.env it.node t = true ∧ D.zoneOk st.env it.node t it.exec = true := by
  unfold canNow at h
  rw [hind] at h
  simp only [Bool.false_eq_true, if_false] at h
  split at h
  · simp at h
  · rename_i hany
    split at h
    · simp at h
    · rename_i hms
      simp only [Option.map_eq_some_iff] at h
      obtain ⟨m, hm, h⟩ := h
      by_cases hmt : m ≤ t
      · rw [if_pos hmt] at h
        simp only [Bool.and_eq_true] at h
        refine ⟨?_, by omega, ⟨m, hm, hmt⟩, h.1, h.2⟩
        intro u hu p hp
        by_cases hc : p ∈ E.chain it.node
        · exact .inl hc
        · right
          by_contra hn
          apply hany
          simp only [List.any_eq_true]
          refine ⟨u, hu, p, hp, ?_⟩
          have : Sched.get st.sched p = none := by
            cases hg : Sched.get st.sched p with
            | none => rfl
            | some x => exact absurd ((get_isSome_iff _ _).mp ⟨x, hg⟩) hn
          simp [hc, this]
      · rw [if_neg hmt] at h; cases h

theorem parallel_precedence {inf : Int} {fuel : Nat} {env : σ} {L : Loop σ}
    (hest : ∀ v team, 0 ≤ E.estimate v team)
    (hts : ∀ idx, ∀ i ∈ D.order, ∀ it, decode D E idx i = some it → GoodTimes D E it)
    (hchain : ChainOrdered E)
    (hpar : ∀ u, ∀ e ∈ E.edgesTo u, e.1 ∈ D.parents u)
    (hind : ∀ v, D.independent v = false)
    (hnd : ((D.order.map D.node).flatMap E.chain).Nodup)
    (h : parallel D E inf env fuel = some (some L)) : RespectsPrecedence E.edgesTo L.st.sched := by
  let Q : List Item → JIT.State σ → Prop := fun l st =>
    (∀ it ∈ l, GoodTimes D E it) ∧ RespectsPrecedence E.edgesTo st.sched ∧
    TopoList (fun v => (E.edgesTo v).map (·.1)) st.sched.works.reverse ∧
    (st.sched.works.reverse ++ (l.map (·.node)).flatMap E.chain).Nodup
  suffices hQ : Q L.items L.st from hQ.2.1
  apply parallel_inv (Inv := Q) ?_ ?_ ?_ h
  · rintro l l' st hp ⟨h1, h2, h3, h4⟩
    refine ⟨fun it hit => h1 it (hp.mem_iff.mpr hit), h2, h3, ?_⟩
    refine (List.Perm.nodup_iff ?_).mp h4
    exact ((hp.map _).flatMap_right _).append_left _
  · rintro t it l st r hok hp ⟨h1, h2, h3, h4⟩
    obtain ⟨team, fin, _, hrow, _⟩ := place_spec hest (h1 it (by simp)) hp
    simp only [List.map_cons, List.flatMap_cons, ← List.append_assoc] at h4
    have hnd' := (List.nodup_append.mp h4).1
    have hpar' := (canNow_parents hok (hind _)).1
    have htopo : TopoList (fun v => (E.edgesTo v).map (·.1)) (st.sched.works.reverse ++ E.chain it.node) := by
      intro l₁ v l₂ hl p hpv
      rcases List.append_eq_append_iff.mp hl with ⟨a, rfl, ha⟩ | ⟨a, ha, hb⟩
      · -- v in the chain
        simp only [List.mem_map] at hpv
        obtain ⟨e, he, rfl⟩ := hpv
        have hv : v ∈ E.chain it.node := by rw [ha]; simp
        rcases hpar' v hv e.1 (hpar v e he) with hin | hin
        · exact List.mem_append_right _ (hchain _ _ _ _ ha e he hin)
        · exact List.mem_append_left _ (by simpa using hin)
      · cases a with
        | nil =>
          simp only [List.append_nil] at ha
          simp only [List.nil_append] at hb
          simp only [List.mem_map] at hpv
          obtain ⟨e, he, rfl⟩ := hpv
          have hv : v ∈ E.chain it.node := by rw [← hb]; simp
          rcases hpar' v hv e.1 (hpar v e he) with hin | hin
          · have := hchain it.node [] v l₂ (by rw [← hb]; rfl) e he hin
            simp at this
          · rw [← ha]; simpa using hin
        | cons x a =>
          simp only [List.cons_append, List.cons.injEq] at hb
          obtain ⟨rfl, hb⟩ := hb
          exact h3 l₁ v a ha p hpv
    refine ⟨fun x hx => h1 x (by simp [hx]), hrow.precedence (fun _ _ _ h => h) h2 htopo hnd', ?_, ?_⟩
    · rw [hrow.works]; simpa using htopo
    · rw [hrow.works]; simpa using h4
  · intro items hi
    obtain ⟨h1, h2⟩ := decodeAll_mem hi
    refine ⟨?_, ?_, ?_, ?_⟩
    · intro it hit
      obtain ⟨j, i, h3, h4⟩ := h2 it hit
      exact hts _ i (List.mem_of_getElem? h3) it h4
    · intro v x hx; simp [get_nil] at hx
    · intro l₁ v l₂ hl; simp [Sched.works] at hl
    · simpa [Sched.works, h1] using hnd

theorem allReleased_report {tl : JIT.Timeline} {t : Int} {team : List Worker} (h : allReleased tl t team = some true) :
    JIT.findMinStart tl true team t = some t := by
  induction team with
  | nil => rfl
  | cons w ws ih =>
    simp only [allReleased, Option.bind_eq_some_iff] at h
    obtain ⟨q, hq, l, hl, h⟩ := h
    split at h
    · simp at h
    · rename_i hlt
      simp only [JIT.findMinStart, hq, JIT.ask, hl, if_true, Option.bind_eq_bind, Option.bind_some, Option.map_some,
        show max t l = t by omega]
      exact ih h

theorem canNow_report {st : JIT.State σ} {it : Item} {t : Int} (h : canNow D E st it t = some true) :
    ∃ from_ m, JIT.findMinStart st.tl (D.independent it.node) it.team from_ = some m ∧ m ≤ t := by
  cases hi : D.independent it.node with
  | true =>
    unfold canNow at h
    rw [hi] at h
    exact ⟨t, t, allReleased_report (by simpa using h), Int.le_refl _⟩
  | false =>
    obtain ⟨_, _, ⟨m, hm, hmt⟩, _⟩ := canNow_parents h hi
    exact ⟨0, m, hm, hmt⟩

/-- What the capacity theorem needs about an item. -/
def GoodTeam (D : Input σ) (it : Item) : Prop :=
  WellFormedTeam it.team ∧ WithinPool (borderPool D) it.team ∧ (it.idx = 0 → it.team = []) ∧
  ∀ team, respec (D.reqs it.node) (D.spec it.node).assigned it.team = some team → team = it.team

theorem parallel_covered {inf : Int} {fuel : Nat} {env : σ} {L : Loop σ}
    (hest : ∀ v team, 0 ≤ E.estimate v team)
    (hts : ∀ idx, ∀ i ∈ D.order, ∀ it, decode D E idx i = some it → GoodTimes D E it)
    (hteam : ∀ j i, D.order[j]? = some i → ∀ it, decode D E j i = some it → GoodTeam D it)
    (h : parallel D E inf env fuel = some (some L)) : JIT.Covered (borderPool D) L.st := by
  let Q : List Item → JIT.State σ → Prop := fun l st =>
    (∀ it ∈ l, GoodTimes D E it ∧ GoodTeam D it) ∧ JIT.Covered (borderPool D) st
  suffices hQ : Q L.items L.st from hQ.2
  apply parallel_inv (Inv := Q) ?_ ?_ ?_ h
  · rintro l l' st hp ⟨h1, h2⟩
    exact ⟨fun it hit => h1 it (hp.mem_iff.mpr hit), h2⟩
  · rintro t it l st r hok hp ⟨h1, ps, hh, hb⟩
    obtain ⟨hgt, hwf, hwp, h0, hag⟩ := h1 it (by simp)
    obtain ⟨team, fin, hre, hrow, hup, hge⟩ := place_spec hest hgt hp
    obtain rfl := hag team hre
    refine ⟨fun x hx => h1 x (by simp [hx]), ?_⟩
    obtain ⟨from_, m, hrep, hle⟩ : ∃ from_ m, JIT.findMinStart st.tl (D.independent it.node) it.team from_ = some m ∧
        m ≤ r.2 := by
      by_cases hidx : it.idx = 0
      · rw [h0 hidx]; exact ⟨r.2, r.2, rfl, Int.le_refl _⟩
      · obtain ⟨from_, m, h2, h3⟩ := canNow_report hok
        have := hge hidx
        exact ⟨from_, m, h2, by omega⟩
    refine ⟨⟨it.team, r.2, fin, D.independent it.node⟩ :: ps,
      .place ⟨it.team, r.2, fin, D.independent it.node⟩ from_ m hh hwf hwp hrep hle hrow.le hup, fun a t => ?_⟩
    refine Int.le_trans (hrow.busy_le hwf.2 a t) ?_
    rw [JIT.busy_cons]
    have := hb a t
    simp only
    omega
  · intro items hi
    obtain ⟨h1, h2⟩ := decodeAll_mem hi
    refine ⟨?_, [], .fresh, fun a t => by simp [Sched.placements]⟩
    intro it hit
    obtain ⟨j, i, h3, h4⟩ := h2 it hit
    exact ⟨hts _ i (List.mem_of_getElem? h3) it h4, hteam j i h3 it (by simpa using h4)⟩

end Sampo.Decode
