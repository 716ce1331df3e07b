import Verif.Model.MatSite
import Verif.Model.ZoneSite
import Verif.Lemmas.SchedJIT
import Verif.Lemmas.SchedMomentumRun

/-! Runs of the schedulers and the calls of `deliver_resources` they make. -/

namespace Sampo
namespace MatSite

variable {σ : Type} {E : Env σ} {land : Supply.Land} {needs : Nat → List Supply.Mat}

/-- The materials of an environment are those of the supply timeline; `view` shows its state and log. -/
structure Supplied (E : Env σ) (land : Supply.Land) (needs : Nat → List Supply.Mat)
    (view : σ → Supply.State × List Supply.Served) : Prop where
  deliver : ∀ {s v t s' t'}, E.deliver s v t = some (s', t') → ∃ out,
    Supply.deliver land (view s).1 (workOf E.service needs v) t = some out ∧
      view s' = (out.state, entry (workOf E.service needs v) t out :: (view s).2) ∧ t' = out.time
  occupy : ∀ {s v t d s'}, E.occupy s v t d = some s' → view s' = view s
  finish : ∀ {s r}, E.finishZones s = some r → view r.1 = view s

/-- One call per placed work, in the order of placing; the work starts when its materials are there. -/
def Kept (E : Env σ) (land : Supply.Land) (needs : Nat → List Supply.Mat) (view : Supply.State × List Supply.Served)
    (sched : Sched) : Prop :=
  Supply.History land view.1 view.2 ∧
    view.2.map (fun s => (s.work, s.time)) = sched.map fun e => (workOf E.service needs e.1, e.2.start)

variable {view : σ → Supply.State × List Supply.Served}

theorem kept_cons (hs : Supplied E land needs view) {s s' : σ} {sw : Sched} (hk : Kept E land needs (view s) sw) {v : Nat} {t t' : Int}
    (h0 : 0 ≤ t) (h : E.deliver s v t = some (s', t')) {x : SWork} (hx : x.start = t') :
    Kept E land needs (view s') ((v, x) :: sw) := by
  obtain ⟨out, h1, h2, rfl⟩ := hs.deliver h
  rw [h2]
  refine ⟨.serve hk.1 h0 h1, ?_⟩
  simp only [List.map_cons, hk.2, entry, hx]

theorem jit_placeChain_kept (hs : Supplied E land needs view) (hl : ∀ {s v t s' t'}, E.deliver s v t = some (s', t') → t ≤ t')
    {team : List Worker} {c : Nat} {times : ExecTimes} (hest : ∀ v, 0 ≤ E.estimate v team) (hts : NonNegTimes times) {vs : List Nat}
    {cur : Int} {s : σ} {sw : Sched} (h0 : 0 ≤ cur) (hk : Kept E land needs (view s) sw) {r : Int × σ × Sched}
    (h : JIT.placeChain E team c times vs cur s sw = some r) : Kept E land needs (view r.2.1) r.2.2 := by
  induction vs generalizing cur s sw with
  | nil => simp only [JIT.placeChain, Option.some.injEq] at h; subst h; exact hk
  | cons v vs ih =>
    simp only [JIT.placeChain] at h
    split at h
    · rw [Option.bind_eq_some_iff] at h
      obtain ⟨⟨s', t'⟩, hd, h⟩ := h
      have hlt : 0 ≤ ((times v).getD (0, E.estimate v team)).1 ∧ 0 ≤ ((times v).getD (0, E.estimate v team)).2 := by
        cases hv : times v with
        | none => exact ⟨Int.le_refl _, hest v⟩
        | some p => exact hts v p.1 p.2 hv
      have := hl hd
      dsimp only at h
      refine ih (by omega) (kept_cons hs hk (by omega) hd ?_) h
      dsimp only
      omega
    · simp at h

theorem momentum_placeChain_kept (hs : Supplied E land needs view) (hl : ∀ {s v t s' t'}, E.deliver s v t = some (s', t') → t ≤ t')
    {team : List Worker} {c : Nat} {times : ExecTimes} (hest : ∀ v, 0 ≤ E.estimate v team) (hts : NonNegTimes times) {vs : List Nat}
    {cur : Int} {s : σ} {sw : Sched} (h0 : 0 ≤ cur) (hk : Kept E land needs (view s) sw) {r : Int × σ × Sched}
    (h : Momentum.placeChain E team c times vs cur s sw = some r) : Kept E land needs (view r.2.1) r.2.2 := by
  induction vs generalizing cur s sw with
  | nil => simp only [Momentum.placeChain, Option.some.injEq] at h; subst h; exact hk
  | cons v vs ih =>
    simp only [Momentum.placeChain] at h
    rw [Option.bind_eq_some_iff] at h
    obtain ⟨⟨s', t'⟩, hd, h⟩ := h
    have hlt : 0 ≤ ((times v).getD (0, E.estimate v team)).1 ∧ 0 ≤ ((times v).getD (0, E.estimate v team)).2 := by
      cases hv : times v with
      | none => exact ⟨Int.le_refl _, hest v⟩
      | some p => exact hts v p.1 p.2 hv
    have := hl hd
    dsimp only at h
    refine ih (by omega) (kept_cons hs hk (by omega) hd ?_) h
    dsimp only
    omega

theorem jit_findLoop_nonneg {tl : JIT.Timeline} {env : σ} {node : Nat} {team : List Worker} {ind : Bool} {exec : Int}
    {fuel : Nat} {cur r : Int} (hcur : 0 ≤ cur) (h : JIT.findLoop E tl env node team ind exec fuel cur = some (some r)) : 0 ≤ r := by
  induction fuel generalizing cur with
  | zero => simp [JIT.findLoop] at h
  | succ n ih =>
    simp only [JIT.findLoop] at h
    split at h
    · simp at h
    · rename_i cur' hc
      have h1 := JIT.findMinStart_le hc
      split at h
      · exact ih (by omega) h
      · split at h
        · exact ih (by omega) h
        · simp only [Option.some.injEq] at h; omega

theorem jit_step_kept (hs : Supplied E land needs view) (hl : ∀ {s v t s' t'}, E.deliver s v t = some (s', t') → t ≤ t')
    {P : Plan (JIT.State σ)} {fuel : Nat} {first last : Bool} {st st' : JIT.State σ} {v : Nat} (hv : v ∈ E.chain v)
    (hest : ∀ v team, 0 ≤ E.estimate v team) (hts : ∀ v ts, P.assignedTimes v = some ts → NonNegTimes ts) (hP : 0 ≤ P.parentTime)
    (hst : first = true ∨ st.sched ≠ []) (hk : Kept E land needs (view st.env) st.sched)
    (h : JIT.step E P fuel first last st v = some (some st')) : Kept E land needs (view st'.env) st'.sched ∧ st'.sched ≠ [] := by
  simp only [JIT.step] at h
  split at h
  · simp at h
  · rename_i c hch
    split at h
    · simp at h
    · simp at h
    · rename_i f hf
      simp only [Option.some.injEq, Option.bind_eq_some_iff, JIT.scheduleAt, Option.map_eq_some_iff] at h
      obtain ⟨es, hes, r, hr, tl', htl, env', henv, rfl⟩ := h
      have hnn : NonNegTimes ((P.assignedTimes v).getD fun _ => none) := by
        cases hv : P.assignedTimes v with
        | none => intro v l d h; simp at h
        | some ts => exact hts v ts hv
      have h0 : 0 ≤ if first then P.parentTime else f.1 := by
        cases first with
        | true => exact hP
        | false =>
          have h2 : st.sched ≠ [] := by simpa using hst
          simp only [JIT.find, List.isEmpty_iff, h2, if_false, Option.map_eq_some_iff] at hf
          obtain ⟨o, ho, hf⟩ := hf
          obtain ⟨t, rfl, rfl⟩ := hf
          simpa using jit_findLoop_nonneg (Int.le_refl _) ho
      have hes' : view es.1 = view st.env ∧ 0 ≤ es.2 := by
        simp only [JIT.startFor] at hes
        split at hes
        · obtain ⟨z, hz, rfl⟩ := Option.map_eq_some_iff.1 hes
          exact ⟨(hs.finish hz :), by dsimp only; omega⟩
        · simp only [Option.some.injEq] at hes; subst hes; exact ⟨rfl, h0⟩
      have hrow := JIT.placeChain_row (E := E) (fun v => hest v _) hnn hr
      refine ⟨?_, ?_⟩
      · dsimp only
        rw [hs.occupy henv]
        exact jit_placeChain_kept hs hl (fun v => hest v _) hnn hes'.2 (by rw [hes'.1]; exact hk) hr
      · intro he
        dsimp only at he
        have hw := hrow.works
        rw [he] at hw
        have := congrArg List.length hw
        have := List.length_pos_of_mem hv
        simp [Sched.works] at *
        omega

theorem jit_buildFrom_kept (hs : Supplied E land needs view) (hl : ∀ {s v t s' t'}, E.deliver s v t = some (s', t') → t ≤ t')
    {P : Plan (JIT.State σ)} {fuel : Nat} {first : Bool} {order : List Nat} {st st' : JIT.State σ} (hv : ∀ v, v ∈ E.chain v)
    (hest : ∀ v team, 0 ≤ E.estimate v team) (hts : ∀ v ts, P.assignedTimes v = some ts → NonNegTimes ts) (hP : 0 ≤ P.parentTime)
    (hst : first = true ∨ st.sched ≠ []) (hk : Kept E land needs (view st.env) st.sched)
    (h : JIT.buildFrom E P fuel first order st = some (some st')) : Kept E land needs (view st'.env) st'.sched := by
  induction order generalizing first st with
  | nil => simp only [JIT.buildFrom, Option.some.injEq] at h; subst h; exact hk
  | cons v vs ih =>
    simp only [JIT.buildFrom] at h
    split at h
    · simp at h
    · simp at h
    · rename_i st1 h1
      obtain ⟨a, b⟩ := jit_step_kept hs hl (hv v) hest hts hP hst hk h1
      exact ih (.inr b) a h

theorem momentum_step_kept (hs : Supplied E land needs view) (hl : ∀ {s v t s' t'}, E.deliver s v t = some (s', t') → t ≤ t')
    {P : Plan (Momentum.State σ)} {inf : Int} {fuelIn fuel : Nat} {first last : Bool} {st st' : Momentum.State σ} {v : Nat}
    (hest : ∀ v team, 0 ≤ E.estimate v team) (hts : ∀ v ts, P.assignedTimes v = some ts → NonNegTimes ts) (hP : 0 ≤ P.parentTime)
    (hinf : P.parentTime ≤ inf) (hk : Kept E land needs (view st.env) st.sched)
    (h : Momentum.step E P inf fuelIn fuel first last st v = some (some st')) : Kept E land needs (view st'.env) st'.sched := by
  simp only [Momentum.step] at h
  split at h
  · simp at h
  · rename_i c hch
    split at h
    · simp at h
    · simp at h
    · rename_i f hf
      split at h
      · simp at h
      · rename_i es hes
        simp only [Momentum.schedule, Option.map_eq_some_iff] at h
        obtain ⟨o, ho, h⟩ := h
        simp only [Option.bind_eq_some_iff, Momentum.scheduleAt, Option.map_eq_some_iff] at h
        obtain ⟨g, rfl, r, hr, tl', htl, env', henv, rfl⟩ := h
        have hnn : NonNegTimes ((P.assignedTimes v).getD (Momentum.timesOf g.times)) := by
          cases hv : P.assignedTimes v with
          | none =>
            rw [Option.getD_none, Momentum.find_times ho]
            exact Momentum.timesOf_nonneg (Momentum.execTimes_nonneg (fun v => hest v _) _ _)
          | some ts => exact hts v ts hv
        have f0 : 0 ≤ f.start := by
          cases hc : c.1 with
          | nil =>
            rw [hc] at hf
            simp only [Momentum.find, Option.some.injEq] at hf
            subst hf
            simp only [Momentum.parentTimeOf]
            omega
          | cons w ws =>
            rw [hc] at hf
            simp only [Momentum.find, Momentum.findStart, Option.map_eq_some_iff] at hf
            obtain ⟨o, ho, hf⟩ := hf
            obtain ⟨t, rfl, rfl⟩ := hf
            split at ho
            · simp at ho
            · simp at ho
            · rename_i t' ht'
              simp only [Option.some.injEq, Option.map_eq_some_iff] at ho
              obtain ⟨_, -, rfl⟩ := ho
              have hpt : P.parentTime ≤ Momentum.parentTimeOf E st.sched none P.parentTime v := by
                unfold Momentum.parentTimeOf; omega
              have := Momentum.findLoop_ge hpt hinf ht'
              dsimp only
              omega
        have h0 : 0 ≤ if first then P.parentTime else f.start := by cases first <;> simp <;> assumption
        have hes' : view es.1 = view st.env ∧ 0 ≤ es.2 := by
          simp only [Momentum.startFor] at hes
          split at hes
          · obtain ⟨z, hz, rfl⟩ := Option.map_eq_some_iff.1 hes
            exact ⟨(hs.finish hz :), by dsimp only; omega⟩
          · simp only [Option.some.injEq] at hes; subst hes; exact ⟨rfl, h0⟩
        have g0 : 0 ≤ g.start := by
          cases hc : c.1 with
          | nil =>
            rw [hc] at ho
            simp only [Momentum.find, Option.some.injEq] at ho
            subst ho
            simp only [Momentum.parentTimeOf]
            omega
          | cons w ws =>
            rw [hc] at ho
            simp only [Momentum.find, Momentum.findStart, Option.map_eq_some_iff, Option.some.injEq] at ho
            obtain ⟨o, rfl, ho⟩ := ho
            obtain ⟨t, ht, rfl⟩ := ho
            rw [Option.map_eq_some_iff] at ht
            obtain ⟨_, -, rfl⟩ := ht
            exact hes'.2
        dsimp only
        rw [hs.occupy henv]
        exact momentum_placeChain_kept hs hl (fun v => hest v _) hnn g0 (by rw [hes'.1]; exact hk) hr

theorem momentum_buildFrom_kept (hs : Supplied E land needs view) (hl : ∀ {s v t s' t'}, E.deliver s v t = some (s', t') → t ≤ t')
    {P : Plan (Momentum.State σ)} {inf : Int} {fuelIn fuel : Nat} {first : Bool} {order : List Nat} {st st' : Momentum.State σ}
    (hest : ∀ v team, 0 ≤ E.estimate v team) (hts : ∀ v ts, P.assignedTimes v = some ts → NonNegTimes ts) (hP : 0 ≤ P.parentTime)
    (hinf : P.parentTime ≤ inf) (hk : Kept E land needs (view st.env) st.sched)
    (h : Momentum.buildFrom E P inf fuelIn fuel first order st = some (some st')) : Kept E land needs (view st'.env) st'.sched := by
  induction order generalizing first st with
  | nil => simp only [Momentum.buildFrom, Option.some.injEq] at h; subst h; exact hk
  | cons v vs ih =>
    simp only [Momentum.buildFrom] at h
    split at h
    · simp at h
    · simp at h
    · rename_i st1 h1
      exact ih (momentum_step_kept hs hl hest hts hP hinf hk h1) h

/-- A site with supplied materials and zones. -/
theorem supplied {τ : Type} (base : Env τ) (cfg : Zone.Config) (reqs : Nat → List Zone.Req) :
    Supplied (ZoneSite.site (site base land needs) cfg reqs) land needs fun s => (s.mat.supply, s.mat.log) where
  deliver h := by
    obtain ⟨d, hd, he⟩ := Option.map_eq_some_iff.1 h
    obtain ⟨out, ho, rfl⟩ := Option.map_eq_some_iff.1 hd
    simp only [Prod.mk.injEq] at he
    obtain ⟨rfl, rfl⟩ := he
    exact ⟨out, ho, rfl, rfl⟩
  occupy h := by
    obtain ⟨r, -, rfl⟩ := Option.map_eq_some_iff.1 h
    rfl
  finish h := by
    obtain ⟨r, -, rfl⟩ := Option.map_eq_some_iff.1 h
    rfl

end MatSite
end Sampo
