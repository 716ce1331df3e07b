import Verif.Lemmas.SchedHorizon
import Verif.Spec.Generic
import Verif.Props.C15_WorkerBorders
import Verif.Props.C16_Teams

/-! # The generic scheduler finds a team for every work -/

namespace Sampo

theorem meets_names {c : Contractor} {reqs : List WorkerReq} {team : List Worker} (h : C16.Meets c reqs team) :
    team.map (·.name) = reqs.map (·.kind) ∧ ∀ w ∈ team, w.contractor = c.id := by
  induction h with
  | nil => simp
  | cons hd _ ih => simp [hd.1, hd.2.1, ih.1]; exact ih.2

theorem meets_mem {c : Contractor} {reqs : List WorkerReq} {team : List Worker} (h : C16.Meets c reqs team) :
    ∀ w ∈ team, ∃ r ∈ reqs, w.name = r.kind ∧ r.minCount ≤ w.count ∧ ∃ n, c.workers.lookup r.kind = some n ∧ w.count ≤ n := by
  induction h with
  | nil => simp
  | cons hd _ ih =>
    intro w hw
    rcases List.mem_cons.mp hw with rfl | hw
    · exact ⟨_, List.mem_cons_self .., hd.1, hd.2.2.1, hd.2.2.2.2⟩
    · obtain ⟨r, hr, h⟩ := ih w hw
      exact ⟨r, List.mem_cons_of_mem _ hr, h⟩

theorem meets_ok {contractors : List Contractor} (hcs : C16.SoundContractors contractors) {c : Contractor}
    (hc : c ∈ contractors) {reqs : List WorkerReq} (hr : C16.SoundReqs reqs) (hnd : (reqs.map (·.kind)).Nodup)
    {team : List Worker} (h : C16.Meets c reqs team) :
    WellFormedTeam team ∧ WithinPool (LFT.agents contractors) team := by
  obtain ⟨h1, h2⟩ := meets_names h
  have h3 := meets_mem h
  refine ⟨⟨?_, fun w hw => ?_⟩, fun w hw => ?_⟩
  · have hn : (team.map (·.name)).Nodup := h1 ▸ hnd
    have : team.map (·.name) = (team.map (·.agent)).map (·.2) := by simp [Worker.agent]
    rw [this] at hn
    exact hn.of_map _
  · obtain ⟨r, hrm, _, hle, _⟩ := h3 w hw
    have := (hr r hrm).1
    omega
  · obtain ⟨r, hrm, hname, _, n, hn, hle⟩ := h3 w hw
    refine ⟨n, ?_, hle⟩
    unfold LFT.agents Worker.agent
    simp only
    rw [h2 w hw, getPool_of_mem hcs.1 hcs.2 hc, hname, hn]

namespace Generic
open C14 (Admissible)

/-- For each able contractor there is one team that the search tries; the others are not tried. -/
theorem tried_teams {contractors : List Contractor} (hcs : C16.SoundContractors contractors) {reqs : List WorkerReq}
    (hreqs : C16.SoundReqs reqs) {spec : WorkSpec} (hspec : spec.assigned = []) {opt : Contractor → Optimizer}
    (hopt : ∀ c, StaysWithin (opt c) ∧ Answers (opt c)) :
    ∃ T : Contractor → List Worker, (∀ c ∈ contractors, Able c reqs → C16.Meets c reqs (T c)) ∧
      ∀ c ∈ contractors, ∀ parent find,
        (Able c reqs → runWithContractor (getPool contractors) parent reqs spec (opt c) find c =
          (find c (T c)).bind fun t => some (t.1, t.2, T c)) ∧
        (¬ Able c reqs → runWithContractor (getPool contractors) parent reqs spec (opt c) find c = some (parent, timeInf, [])) := by
  refine ⟨fun c => (applyTeamSpec reqs (getWorkerBorders (getPool contractors) c.id reqs).2.2 spec.assigned
    fun arr counts => opt c arr (getWorkerBorders (getPool contractors) c.id reqs).1
      (getWorkerBorders (getPool contractors) c.id reqs).2.1 counts).getD [], ?_⟩
  have key : ∀ c ∈ contractors, Able c reqs → ∃ team, applyTeamSpec reqs (getWorkerBorders (getPool contractors) c.id reqs).2.2
      spec.assigned (fun arr counts => opt c arr (getWorkerBorders (getPool contractors) c.id reqs).1
        (getWorkerBorders (getPool contractors) c.id reqs).2.1 counts) = some team ∧ C16.Meets c reqs team := by
    intro c hc hable
    have hcan : ∀ r ∈ reqs, ∃ n, getPool contractors r.kind c.id = some n ∧ r.minCount ≤ n := by
      intro r hr
      rw [getPool_of_mem hcs.1 hcs.2 hc]
      exact hable r hr
    have hb : getWorkerBorders (getPool contractors) c.id reqs = (reqs.map (·.minCount),
        reqs.map (fun r => min r.maxCount ((getPool contractors r.kind c.id).getD 0)),
        reqs.map (fun r => ⟨c.id, r.kind, (getPool contractors r.kind c.id).getD 0⟩)) := by
      unfold getWorkerBorders
      rw [borders_go, if_pos hcan]
      simp
    rw [hb, hspec]
    unfold applyTeamSpec
    by_cases hl : ([] : List (Nat × Int)).length = reqs.length
    · have : reqs = [] := List.length_eq_zero_iff.mp hl.symm
      subst this
      exact ⟨[], by simp, .nil⟩
    · rw [if_neg hl]
      have hd : ∀ d ∈ reqs.map (·.minCount), 0 ≤ d := by
        intro d hd
        obtain ⟨r, hr, rfl⟩ := List.mem_map.mp hd
        exact (hreqs r hr).1
      have ho := borders_ordered hcan fun r hr => (hreqs r hr).2
      simp only [List.isEmpty_nil, if_true]
      obtain ⟨counts, hcnt⟩ := (hopt c).2 _ _ ((reqs.map fun r =>
        (⟨c.id, r.kind, (getPool contractors r.kind c.id).getD 0⟩ : Worker)).map (·.count)) hd ho (by simp)
      rw [hcnt]
      refine ⟨_, rfl, ?_⟩
      have hw := (hopt c).1 none _ _ _ _ hd ho (by simp) (by simp) hcnt
      refine (team_of_counts hcan hw).imp fun r w h => ?_
      rw [getPool_of_mem hcs.1 hcs.2 hc] at h
      exact h
  refine ⟨fun c hc hable => ?_, fun c hc parent find => ⟨fun hable => ?_, fun hn => ?_⟩⟩
  · obtain ⟨team, h1, h2⟩ := key c hc hable
    dsimp only
    rw [h1]
    exact h2
  · obtain ⟨team, h1, h2⟩ := key c hc hable
    unfold runWithContractor
    dsimp only
    rw [if_neg (by
      rw [ne_eq, not_not, C15.length_test_exact]
      intro r hr
      rw [getPool_of_mem hcs.1 hcs.2 hc]
      exact hable r hr), h1]
    rfl
  · unfold runWithContractor
    dsimp only
    rw [if_pos (by
      rw [ne_eq, C15.length_test_exact]
      intro hcan
      exact hn fun r hr => by
        obtain ⟨n, h1, h2⟩ := hcan r hr
        rw [getPool_of_mem hcs.1 hcs.2 hc] at h1
        exact ⟨n, h1, h2⟩)]

theorem searchLoop_congr {τ : Type} {f g : Contractor → Option (Int × Int × τ)} : ∀ {cs : List Contractor} {best : Best},
    (∀ c ∈ cs, f c = g c) → searchLoop f cs best = searchLoop g cs best := by
  intro cs
  induction cs with
  | nil => intros; rfl
  | cons c cs ih =>
    intro best h
    simp only [searchLoop, h c (by simp)]
    congr 1
    funext r
    exact ih fun x hx => h x (by simp [hx])

theorem searchLoop_mem {τ : Type} {f : Contractor → Option (Int × Int × τ)} : ∀ {cs : List Contractor} {best : Best} {x},
    searchLoop f cs best = some (some x) → best = some x ∨ x.2.1 ∈ cs := by
  intro cs
  induction cs with
  | nil => intro best x h; simp only [searchLoop, Option.some.injEq] at h; exact .inl h
  | cons c cs ih =>
    intro best x h
    simp only [searchLoop, Option.bind_eq_some_iff] at h
    obtain ⟨r, _, h⟩ := h
    rcases ih h with h | h
    · have hs : searchStep best c r.2.1 = some (r.2.1, c, c.size) ∨ searchStep best c r.2.1 = best := by
        simp only [searchStep]
        generalize (!tIsInf r.2.1 && _) = b
        cases b <;> simp
      rcases hs with hs | hs
      · rw [hs, Option.some.injEq] at h
        subst h
        exact .inr (by simp)
      · exact .inl (hs ▸ h)
    · exact .inr (by simp [h])

/-- The search asks the runner only for the contractors of the list. -/
theorem search_congr {τ : Type} {f g : Contractor → Option (Int × Int × τ)} {contractors : List Contractor} {spec : WorkSpec}
    (h : ∀ c ∈ contractors, f c = g c) : runContractorSearch contractors spec f = runContractorSearch contractors spec g := by
  have hf : ∀ c ∈ spec.filter contractors, f c = g c := fun c hc => h c (List.mem_filter.mp hc).1
  unfold runContractorSearch
  rw [searchLoop_congr hf]
  cases hs : searchLoop g (spec.filter contractors) none with
  | none => rfl
  | some best =>
    cases best with
    | none => rfl
    | some x =>
      rcases searchLoop_mem hs with h1 | h1
      · simp at h1
      · simp only [Option.bind_some, hf _ h1]

theorem tIsInf_lt {f : Int} (h1 : -TIME_INF < f) (h2 : f < TIME_INF) : tIsInf (mkTime f) = false := by
  have : TIME_INF = 2000000000 := rfl
  unfold mkTime tIsInf
  rw [if_neg (by omega), if_neg (by omega)]
  simp only [beq_eq_false_iff_ne, ne_eq, this]
  omega

theorem isTime_mkTime (f : Int) : IsTime (mkTime f) := by
  have : TIME_INF = 2000000000 := rfl
  unfold IsTime mkTime
  split_ifs <;> omega

/-- The choice depends on the search of the timeline only at the tried teams, and if it gives a finite finish for each of
them, a team is chosen. -/
theorem chooseTeam_tried {contractors : List Contractor} (hcs : C16.SoundContractors contractors) {reqs : List WorkerReq}
    (hreqs : C16.SoundReqs reqs) {spec : WorkSpec} (hspec : spec.assigned = []) {opt : Contractor → Optimizer}
    (hopt : ∀ c, StaysWithin (opt c) ∧ Answers (opt c)) (parent : Int)
    (hable : ∃ c ∈ contractors, Admissible spec c ∧ Able c reqs) :
    ∃ T : Contractor → List Worker, (∀ c ∈ contractors, Able c reqs → C16.Meets c reqs (T c)) ∧
      (∀ find find', (∀ c ∈ contractors, Able c reqs → find c (T c) = find' c (T c)) →
        chooseTeam contractors parent reqs spec opt find = chooseTeam contractors parent reqs spec opt find') ∧
      ∀ find : Contractor → List Worker → Option (Int × Int), (∀ c t s f, find c t = some (s, f) → IsTime f) →
        (∀ c ∈ contractors, Able c reqs → ∃ s f, find c (T c) = some (s, f) ∧ tIsInf f = false) →
        ∃ s f c team, chooseTeam contractors parent reqs spec opt find = some (some (s, f, c, team)) := by
  obtain ⟨T, hT1, hT2⟩ := tried_teams hcs hreqs hspec hopt
  refine ⟨T, hT1, fun find find' h => search_congr fun c hc => ?_, fun find htime hfind => ?_⟩
  · by_cases ha : Able c reqs
    · rw [(hT2 c hc parent find).1 ha, (hT2 c hc parent find').1 ha, h c hc ha]
    · rw [(hT2 c hc parent find).2 ha, (hT2 c hc parent find').2 ha]
  have hrun : ∀ c ∈ contractors, ∃ r, runWithContractor (getPool contractors) parent reqs spec (opt c) find c = some r := by
    intro c hc
    obtain ⟨h1, h2⟩ := hT2 c hc parent find
    by_cases ha : Able c reqs
    · obtain ⟨s, f, hf, _⟩ := hfind c hc ha
      rw [h1 ha, hf]
      exact ⟨_, rfl⟩
    · exact ⟨_, h2 ha⟩
  have ht : ∀ c r, runWithContractor (getPool contractors) parent reqs spec (opt c) find c = some r → IsTime r.2.1 := by
    intro c r hr
    unfold runWithContractor at hr
    dsimp only at hr
    split at hr
    · simp only [Option.some.injEq] at hr
      subst hr
      show IsTime timeInf
      decide
    · simp only [Option.bind_eq_some_iff, Option.some.injEq] at hr
      obtain ⟨t, _, p, h2, rfl⟩ := hr
      exact htime _ _ _ _ h2
  obtain ⟨res, hres⟩ := C14.search_raises_only_with_runner _ contractors spec (fun c hc _ => hrun c hc) ht
  cases res with
  | some x => exact ⟨x.1, x.2.1, x.2.2.1, x.2.2.2, hres⟩
  | none =>
    exfalso
    obtain ⟨c, hc, hadm, ha⟩ := hable
    obtain ⟨s, f, hf, hfin⟩ := hfind c hc ha
    have := (C14.search_fails_iff _ ht contractors spec hrun).mp hres c hc hadm s f (T c)
      (by rw [(hT2 c hc parent find).1 ha, hf]; rfl)
    rw [hfin] at this
    simp at this

theorem list_bound {α : Type} {p : α → Nat → Prop} : ∀ {l : List α}, (∀ a ∈ l, ∃ N, ∀ n, N ≤ n → p a n) →
    ∃ N, ∀ a ∈ l, ∀ n, N ≤ n → p a n := by
  intro l
  induction l with
  | nil => intro _; exact ⟨0, by simp⟩
  | cons a l ih =>
    intro h
    obtain ⟨N1, h1⟩ := h a (by simp)
    obtain ⟨N2, h2⟩ := ih fun x hx => h x (by simp [hx])
    refine ⟨max N1 N2, fun x hx n hn => ?_⟩
    rcases List.mem_cons.mp hx with rfl | hx
    · exact h1 n (by omega)
    · exact h2 x hx n (by omega)

/-- What a choice comes from. -/
theorem choose_search {S : Type} {G : Setup S} {find : S → Nat → List Worker → Option (Int × Int)} {st : S} {v : Nat}
    {team : List Worker} {c : Nat} (h : choose G find st v = some (team, c)) : ∃ s f k,
    chooseTeam G.contractors G.parentTime (G.reqs v) (G.spec v) (G.opt st v) (fun _ team => find st v team) =
      some (some (s, f, k, team)) ∧ c = k.id := by
  unfold choose at h
  split at h
  · rename_i r hr
    simp only [Option.some.injEq, Prod.mk.injEq] at h
    obtain ⟨rfl, rfl⟩ := h
    exact ⟨r.1, r.2.1, r.2.2.1, hr, rfl⟩
  · simp at h

theorem choose_meets {S : Type} {G : Setup S} (hcs : C16.SoundContractors G.contractors) {st : S} {v : Nat}
    (hreqs : C16.SoundReqs (G.reqs v)) (hfree : (G.spec v).assigned = []) (hopt : ∀ c, StaysWithin (G.opt st v c))
    {find : S → Nat → List Worker → Option (Int × Int)}
    (htime : ∀ st v t s f, find st v t = some (s, f) → IsTime f) {team : List Worker} {c : Nat}
    (h : choose G find st v = some (team, c)) : ∃ k ∈ G.contractors, C16.Meets k (G.reqs v) team ∧ c = k.id := by
  obtain ⟨s, f, k, hr, rfl⟩ := choose_search h
  obtain ⟨h1, _, h2⟩ := C16.chosen_team_meets_requirements G.contractors hcs _ _ hreqs _ hfree _
    hopt _ (fun c t s f hf => htime _ _ _ _ _ hf) s f k team hr
  exact ⟨_, h1, h2, rfl⟩

theorem choose_ok {S : Type} {G : Setup S} (hG : Sound G) {find : S → Nat → List Worker → Option (Int × Int)}
    (htime : ∀ st v t s f, find st v t = some (s, f) → IsTime f) {st : S} {v : Nat} {team : List Worker} {c : Nat}
    (h : choose G find st v = some (team, c)) : ∃ k ∈ G.contractors, C16.Meets k (G.reqs v) team ∧ c = k.id :=
  choose_meets hG.contractors (hG.reqs v) (hG.free v) (fun c => (hG.opt st v c).1) htime h

/-! ### Runs -/

section Runs
variable {σ : Type} {E : Env σ}

theorem jit_time {G : Setup (JIT.State σ)} {fuel : Nat} (st : JIT.State σ) (v : Nat) (t : List Worker) (s f : Int)
    (h : askJIT E G fuel st v t = some (s, f)) : IsTime f := by
  unfold askJIT at h
  split at h
  · simp only [Option.some.injEq, Prod.mk.injEq] at h
    rw [← h.2]
    exact isTime_mkTime _
  · simp at h

theorem jit_find_nonneg (hsite0 : ∀ s v t d, 0 ≤ t → 0 ≤ E.matTime s v t ∧ 0 ≤ E.zoneTime s v t d) (hsite : NoSiteLimits E)
    (hest0 : ∀ v team, 0 ≤ E.estimate v team) {st : JIT.State σ} {v : Nat} {team : List Worker} {ind : Bool} {P : Int} (hP : 0 ≤ P)
    {fuel : Nat} {f : Int × Int} (h : JIT.find E st v team ind P fuel = some (some f)) : 0 ≤ f.2 := by
  unfold JIT.find at h
  split at h
  · simp only [Option.some.injEq] at h
    subst h
    exact (hsite0 st.env v _ 0 (hsite0 st.env v P 0 hP).1).2
  · have hcd : ∀ (vs : List Nat) (a : Int), 0 ≤ a → 0 ≤ JIT.chainDuration E team st.sched vs a := by
      intro vs
      induction vs with
      | nil => intro a ha; exact ha
      | cons x xs ih =>
        intro a ha
        have := hest0 x team
        exact ih _ (by omega)
    simp only [Option.map_eq_some_iff] at h
    obtain ⟨o, ho, t, rfl, rfl⟩ := h
    have := hcd (E.chain v) 0 (Int.le_refl _)
    cases fuel with
    | zero => simp [JIT.findLoop] at ho
    | succ n =>
      simp only [JIT.findLoop] at ho
      split at ho
      · simp at ho
      · rename_i cur' hc'
        have h1 := hsite.material st.env v cur'
        have h2 := hsite.zone st.env v cur' (JIT.chainDuration E team st.sched (E.chain v) 0)
        have h3 := JIT.findMinStart_le hc'
        rw [if_neg (by omega), if_neg (by omega)] at ho
        simp only [Option.some.injEq] at ho
        subst ho
        dsimp only
        omega

theorem jit_step {G : Setup (JIT.State σ)} (hG : Sound G) (hsite : NoSiteLimits E)
    (hsite0 : ∀ s v t d, 0 ≤ t → 0 ≤ E.matTime s v t ∧ 0 ≤ E.zoneTime s v t d) (hce : ChainEdges E) {L D : Int}
    {order : List Nat} (hbd : Bounded E G order L D) {first last : Bool} {st : JIT.State σ} {v : Nat} (hv : v ∈ order) {M : Int} (hb : JIT.Before st M)
    (hM : G.parentTime ≤ M) (hhor : 2 * (M + (E.chain v).length * (L + D)) < TIME_INF) (hchain : v ∈ E.chain v)
    (htl : ∃ ps, JIT.History (LFT.agents G.contractors) st.tl ps)
    (htopo : TopoFrom (fun v => (E.edgesTo v).map (·.1)) st.sched.works (E.chain v)) :
    ∃ st', (∀ fuel, JIT.step E (planJIT E G (fuel + 1)) (fuel + 1) first last st v = some (some st')) ∧
      JIT.Before st' (M + (E.chain v).length * (L + D)) := by
  obtain ⟨ps, hh⟩ := htl
  have h0 := hG.start
  have hlen1 : 1 ≤ ((E.chain v).length : Int) := by
    have := List.length_pos_of_mem hchain
    omega
  have hfix : ∀ c ∈ G.contractors, ∀ team, C16.Meets c (G.reqs v) team → ∃ f, (∀ fuel,
      JIT.find E st v team (G.independent v) G.parentTime (fuel + 1) = some (some f)) ∧ tIsInf (mkTime f.2) = false := by
    intro c hc team hm
    obtain ⟨hwf, hwp⟩ := meets_ok hG.contractors hc (hG.reqs v) (hG.kinds v) hm
    obtain ⟨f, hf⟩ := JIT.find_some hsite hh (v := v) hwf hwp (G.independent v) G.parentTime
    refine ⟨f, hf, ?_⟩
    have h1 := (JIT.find_le hsite hb (by omega) hbd.lag0 hbd.dur0 hM (hbd.est v hv c hc team hm) (hbd.lag v hv) (hf 0)).2
    have h2 := jit_find_nonneg hsite0 hsite hbd.est0 h0 (hf 0)
    have h3 := hbd.lag0
    have h4 := hbd.dur0
    apply tIsInf_lt
    · have : TIME_INF = 2000000000 := rfl
      omega
    · rw [Int.mul_add, Int.mul_add, Int.mul_add] at hhor
      have h5 : 0 ≤ ((E.chain v).length : Int) * D := Int.mul_nonneg (by omega) h4
      have h6 : L ≤ ((E.chain v).length : Int) * L := by nlinarith
      omega
  obtain ⟨T, hT1, hT2, hT3⟩ := chooseTeam_tried hG.contractors (hG.reqs v) (hG.free v) (hG.opt st v) G.parentTime (hG.able v)
  have hsame : ∀ fuel, (planJIT E G (fuel + 1)).choose st v = (planJIT E G 1).choose st v := by
    intro fuel
    simp only [planJIT, choose]
    rw [hT2 _ (fun _ team => askJIT E G 1 st v team) ?_]
    intro c hc ha
    obtain ⟨f, hf, _⟩ := hfix c hc _ (hT1 c hc ha)
    simp only [askJIT, hf fuel, hf 0]
  obtain ⟨team, c, hch⟩ : ∃ team c, (planJIT E G 1).choose st v = some (team, c) := by
    obtain ⟨s, f, c, team, h⟩ := hT3 (fun _ team => askJIT E G 1 st v team) (fun c t s f h => jit_time st v t s f h) (by
        intro c hc ha
        obtain ⟨f, hf, hfin⟩ := hfix c hc _ (hT1 c hc ha)
        exact ⟨f.1, mkTime f.2, by simp only [askJIT, hf 0], hfin⟩)
    exact ⟨team, c.id, by simp only [planJIT, choose, h]⟩
  have hmeets : ∀ team c, (planJIT E G 1).choose st v = some (team, c) → ∃ k ∈ G.contractors, C16.Meets k (G.reqs v) team ∧ c = k.id :=
    fun team c h => choose_ok hG jit_time h
  obtain ⟨k, hk, hm, _⟩ := hmeets team c hch
  obtain ⟨st', hst'⟩ := JIT.step_some (P := planJIT E G 1) (first := first) (last := last) hsite hce
    ⟨team, c, hch, meets_ok hG.contractors hk (hG.reqs v) (hG.kinds v) hm⟩ ⟨ps, hh⟩ htopo
  refine ⟨st', fun fuel => ?_, JIT.step_before hsite hb (by omega) hbd.lag0 hbd.dur0 hM rfl
    (fun team c h => by obtain ⟨k, hk, hm, _⟩ := hmeets team c h; exact hbd.est v hv k hk team hm) (hbd.lag v hv) (hst' 0)⟩
  rw [← hst' fuel]
  unfold JIT.step
  rw [hsame fuel]
  rfl

theorem jit_run {G : Setup (JIT.State σ)} (hG : Sound G) (hsite : NoSiteLimits E)
    (hsite0 : ∀ s v t d, 0 ≤ t → 0 ≤ E.matTime s v t ∧ 0 ≤ E.zoneTime s v t d) (hce : ChainEdges E) {L D : Int}
    {order₀ : List Nat} (hbd : Bounded E G order₀ L D) (hchain : ∀ v, v ∈ E.chain v) {order : List Nat} :
    ∀ {first : Bool} {st : JIT.State σ} {M : Int}, (∀ v ∈ order, v ∈ order₀) → JIT.Before st M → G.parentTime ≤ M → 2 * (M + (order.flatMap E.chain).length * (L + D)) < TIME_INF →
    ((first = true ∧ st.tl = JIT.init (LFT.agents G.contractors) ∧ st.sched = []) ∨
      (first = false ∧ st.sched ≠ [] ∧ JIT.Covered (LFT.agents G.contractors) st)) →
    TopoFrom (fun v => (E.edgesTo v).map (·.1)) st.sched.works (order.flatMap E.chain) →
    ∃ st', JIT.Before st' (M + (order.flatMap E.chain).length * (L + D)) ∧
      ∀ fuel, JIT.buildFrom E (planJIT E G (fuel + 1)) (fuel + 1) first order st = some (some st') := by
  have hpos : 0 ≤ L + D := by have := hbd.lag0; have := hbd.dur0; omega
  induction order with
  | nil => intro first st M _ hb _ _ _ _; exact ⟨st, by simpa using hb, fun _ => rfl⟩
  | cons v vs ih =>
    intro first st M hsub hb hM hhor hst htopo
    rw [List.flatMap_cons] at htopo
    rw [List.flatMap_cons, List.length_append] at hhor
    push_cast at hhor
    rw [Int.add_mul, ← Int.add_assoc] at hhor
    have hrest : 0 ≤ (((vs.flatMap E.chain).length : Nat) : Int) * (L + D) := Int.mul_nonneg (by omega) hpos
    have hthis : 0 ≤ ((E.chain v).length : Int) * (L + D) := Int.mul_nonneg (by omega) hpos
    obtain ⟨t1, t2⟩ := JIT.topoFrom_append htopo
    have hh : ∃ ps, JIT.History (LFT.agents G.contractors) st.tl ps := by
      rcases hst with ⟨_, h, _⟩ | ⟨_, _, ps, h, _⟩
      · exact ⟨[], h ▸ .fresh⟩
      · exact ⟨ps, h⟩
    obtain ⟨st1, h1, hb1⟩ := jit_step (first := first) (last := vs.isEmpty) hG hsite hsite0 hce hbd
      (hsub v (by simp)) hb hM (by omega) (hchain v) hh t1
    have hts : ∀ v ts, (planJIT E G 1).assignedTimes v = some ts → NonNegTimes ts := by
      intro v ts h
      simp [planJIT] at h
    obtain ⟨team, c, start, fin, _, hrow, _⟩ := JIT.step_spec hbd.est0 hts (h1 0)
    have hw := hrow.works
    have hcov := JIT.step_covered hbd.est0 hts (fun st v team c h => by
      obtain ⟨k, hk, hm, _⟩ := choose_ok hG jit_time h
      exact meets_ok hG.contractors hk (hG.reqs v) (hG.kinds v) hm) hG.start hst (h1 0)
    obtain ⟨st2, hb2, h2⟩ := ih (first := false) (st := st1) (fun u hu => hsub u (by simp [hu])) hb1 (by omega) (by omega)
      (.inr ⟨rfl, by
        intro he
        rw [he] at hw
        have hv := hchain v
        have h2 : E.chain v = [] := by
          have := congrArg List.length hw
          simp [Sched.works] at this
          exact List.length_eq_zero_iff.mp (by omega)
        rw [h2] at hv; simp at hv, hcov⟩)
      (by rw [hw]; exact t2)
    refine ⟨st2, ?_, fun fuel => by simp only [JIT.buildFrom, h1 fuel, h2 fuel]⟩
    rw [List.flatMap_cons, List.length_append]
    push_cast
    rw [Int.add_mul, ← Int.add_assoc]
    exact hb2

/-! On a momentum timeline. -/

theorem fits_of_meets {S : Type} {G : Setup S} (hG : Sound G) {order : List Nat} (ht : Typed E G order) {v : Nat} (hv : v ∈ order)
    {c : Contractor} (hc : c ∈ G.contractors) {team : List Worker} (hm : C16.Meets c (G.reqs v) team) :
    Momentum.Fits E (LFT.agents G.contractors) v team := by
  obtain ⟨h1, h2⟩ := meets_ok hG.contractors hc (hG.reqs v) (hG.kinds v) hm
  obtain ⟨h3, h4⟩ := meets_names hm
  refine ⟨h1, h2, fun w hw w' hw' => by rw [h4 w hw, h4 w' hw'], fun hne => ?_⟩
  have hk : E.kinds v = team.map (·.name) := by rw [ht.kinds, h3]
  refine ⟨ht.chain v hv, hk, ht.service v fun he => hne ?_, fun u hu => hk ▸ ht.same v hv u hu⟩
  have := congrArg List.length h3
  rw [he] at this
  simpa using this

theorem momentum_time {G : Setup (Momentum.State σ)} {inf : Int} {fuelIn fuel : Nat} (st : Momentum.State σ) (v : Nat)
    (t : List Worker) (s f : Int)
    (h : askMomentum E G inf fuelIn fuel st v t = some (s, f)) : IsTime f := by
  unfold askMomentum at h
  split at h
  · simp only [Option.some.injEq, Prod.mk.injEq] at h
    rw [← h.2]
    exact isTime_mkTime _
  · simp at h

theorem momentum_step {G : Setup (Momentum.State σ)} (hG : Sound G) (hsite : NoSiteLimits E) {L D : Int}
    {order : List Nat} (hbd : Bounded E G order L D) (hty : Typed E G order) {inf : Int} {first last : Bool} {st : Momentum.State σ}
    {v : Nat} (hv : v ∈ order) {M : Int} (hb : Momentum.Before st M)
    (hM : G.parentTime ≤ M) (hhor : 2 * (M + (E.chain v).length * (L + D)) < TIME_INF)
    (hst : (first = true ∧ Momentum.History (LFT.agents G.contractors) st.tl []) ∨
      (first = false ∧ ∃ ps, Momentum.History (LFT.agents G.contractors) st.tl ps)) :
    ∃ N st', (∀ fuelIn fuel, N ≤ fuelIn →
        Momentum.step E (planMomentum E G inf fuelIn (fuel + 1)) inf fuelIn (fuel + 1) first last st v = some (some st')) ∧
      (∃ ps, Momentum.History (LFT.agents G.contractors) st'.tl ps) ∧
      Momentum.Before st' (M + (E.chain v).length * (L + D)) := by
  have hh : ∃ ps, Momentum.History (LFT.agents G.contractors) st.tl ps := by
    rcases hst with ⟨_, h⟩ | ⟨_, h⟩
    · exact ⟨[], h⟩
    · exact h
  obtain ⟨ps, hh⟩ := hh
  have h0 := hG.start
  have hchain : v ∈ E.chain v := by
    obtain ⟨l, hl⟩ := hty.chain v hv
    rw [hl]; simp
  have hlen1 : 1 ≤ ((E.chain v).length : Int) := by
    have := List.length_pos_of_mem hchain
    omega
  have hfix : ∀ c ∈ G.contractors, ∀ team, C16.Meets c (G.reqs v) team → ∃ N f, (∀ fuelIn fuel, N ≤ fuelIn →
      Momentum.find E st v team (G.independent v) none G.parentTime inf fuelIn (fuel + 1) = some (some f)) ∧
      tIsInf (mkTime f.finish) = false := by
    intro c hc team hm
    have hfit := fits_of_meets hG hty hv hc hm
    obtain ⟨N, f, hf, h1, h2, _⟩ := Momentum.find_fits (inf := inf) hsite hbd.est0 hh hfit (G.independent v) h0
    refine ⟨N, f, hf, ?_⟩
    have h3 := (Momentum.find_before hsite hh hb (by omega) hbd.lag0 hbd.dur0 hfit h0 hM (hbd.est v hv c hc team hm)
      (by
        intro u hu
        rcases List.mem_cons.mp hu with rfl | hu
        · exact hbd.lag _ hv _ hchain
        · exact hbd.lag v hv u hu) (hf N 0 (Nat.le_refl _))).2
    have h4 : G.parentTime ≤ Momentum.parentTimeOf E st.sched none G.parentTime v := by unfold Momentum.parentTimeOf; omega
    have h5 := hbd.lag0
    have h6 := hbd.dur0
    apply tIsInf_lt
    · have : TIME_INF = 2000000000 := rfl
      omega
    · rw [Int.mul_add, Int.mul_add, Int.mul_add] at hhor
      have h7 : 0 ≤ ((E.chain v).length : Int) * D := Int.mul_nonneg (by omega) h6
      have h8 : L ≤ ((E.chain v).length : Int) * L := by nlinarith
      omega
  obtain ⟨T, hT1, hT2, hT3⟩ := chooseTeam_tried hG.contractors (hG.reqs v) (hG.free v) (hG.opt st v) G.parentTime (hG.able v)
  -- from some number of rounds on, the answers for the tried teams no longer change
  obtain ⟨N, hN⟩ := list_bound (l := G.contractors) (p := fun c n => Able c (G.reqs v) → ∃ f, tIsInf (mkTime f.finish) = false ∧
      ∀ m, n ≤ m → ∀ fuel, Momentum.find E st v (T c) (G.independent v) none G.parentTime inf m (fuel + 1) = some (some f)) (by
    intro c hc
    by_cases ha : Able c (G.reqs v)
    · obtain ⟨N, f, hf, hfin⟩ := hfix c hc _ (hT1 c hc ha)
      exact ⟨N, fun n hn _ => ⟨f, hfin, fun m hm fuel => hf m fuel (by omega)⟩⟩
    · exact ⟨0, fun n _ h => absurd h ha⟩)
  have hsame : ∀ fuelIn fuel, N ≤ fuelIn →
      (planMomentum E G inf fuelIn (fuel + 1)).choose st v = (planMomentum E G inf N 1).choose st v := by
    intro fuelIn fuel hle
    simp only [planMomentum, choose]
    rw [hT2 _ (fun _ team => askMomentum E G inf N 1 st v team) ?_]
    intro c hc ha
    obtain ⟨f, _, hf⟩ := hN c hc N (Nat.le_refl _) ha
    simp only [askMomentum, hf fuelIn hle fuel, hf N (Nat.le_refl _) 0]
  have hmeets : ∀ team c, (planMomentum E G inf N 1).choose st v = some (team, c) →
      ∃ k ∈ G.contractors, C16.Meets k (G.reqs v) team ∧ c = k.id :=
    fun team c h => choose_ok hG momentum_time h
  obtain ⟨team, c, hch⟩ : ∃ team c, (planMomentum E G inf N 1).choose st v = some (team, c) := by
    obtain ⟨s, f, c, team, h⟩ := hT3 (fun _ team => askMomentum E G inf N 1 st v team) (fun c t s f h => momentum_time st v t s f h) (by
        intro c hc ha
        obtain ⟨f, hfin, hf⟩ := hN c hc N (Nat.le_refl _) ha
        exact ⟨f.start, mkTime f.finish, by simp only [askMomentum, hf N (Nat.le_refl _) 0], hfin⟩)
    exact ⟨team, c.id, by simp only [planMomentum, choose, h]⟩
  obtain ⟨k, hk, hm, _⟩ := hmeets team c hch
  obtain ⟨N', st', h1, h2⟩ := Momentum.step_some (P := planMomentum E G inf N 1) (inf := inf) (first := first) (last := last)
    hsite hbd.est0 h0 rfl (hty.nodup v hv) ⟨team, c, hch, fits_of_meets hG hty hv hk hm⟩ hst
  refine ⟨max N N', st', fun fuelIn fuel hle => ?_, h2, ?_⟩
  · rw [← h1 fuelIn fuel (by omega)]
    unfold Momentum.step
    rw [hsame fuelIn fuel (by omega)]
    rfl
  · exact Momentum.step_before hsite hbd.est0 hh hb (by omega) hbd.lag0 hbd.dur0 h0 hM rfl (hty.nodup v hv) hchain
      (fun team c h => by obtain ⟨k, hk, hm, _⟩ := hmeets team c h; exact fits_of_meets hG hty hv hk hm)
      (fun team c h => by obtain ⟨k, hk, hm, _⟩ := hmeets team c h; exact hbd.est v hv k hk team hm) (hbd.lag v hv)
      (h1 N' 0 (Nat.le_refl _))

theorem momentum_run {G : Setup (Momentum.State σ)} (hG : Sound G) (hsite : NoSiteLimits E) {L D : Int} {order₀ : List Nat}
    (hbd : Bounded E G order₀ L D) (hty : Typed E G order₀) {inf : Int} {order : List Nat} :
    ∀ {first : Bool} {st : Momentum.State σ} {M : Int}, (∀ v ∈ order, v ∈ order₀) →
    Momentum.Before st M → G.parentTime ≤ M → 2 * (M + (order.flatMap E.chain).length * (L + D)) < TIME_INF →
    ((first = true ∧ Momentum.History (LFT.agents G.contractors) st.tl []) ∨
      (first = false ∧ ∃ ps, Momentum.History (LFT.agents G.contractors) st.tl ps)) →
    ∃ N st', Momentum.Before st' (M + (order.flatMap E.chain).length * (L + D)) ∧ ∀ fuelIn fuel, N ≤ fuelIn →
      Momentum.buildFrom E (planMomentum E G inf fuelIn (fuel + 1)) inf fuelIn (fuel + 1) first order st = some (some st') := by
  have hpos : 0 ≤ L + D := by have := hbd.lag0; have := hbd.dur0; omega
  induction order with
  | nil => intro first st M _ hb _ _ _; exact ⟨0, st, by simpa using hb, fun _ _ _ => rfl⟩
  | cons v vs ih =>
    intro first st M hsub hb hM hhor hst
    rw [List.flatMap_cons, List.length_append] at hhor
    push_cast at hhor
    rw [Int.add_mul, ← Int.add_assoc] at hhor
    have hrest : 0 ≤ (((vs.flatMap E.chain).length : Nat) : Int) * (L + D) := Int.mul_nonneg (by omega) hpos
    have hthis : 0 ≤ ((E.chain v).length : Int) * (L + D) := Int.mul_nonneg (by omega) hpos
    obtain ⟨N1, st1, h1, hh1, hb1⟩ := momentum_step (inf := inf) (first := first) (last := vs.isEmpty) hG hsite hbd hty
      (hsub v (by simp)) hb hM (by omega) hst
    obtain ⟨N2, st2, hb2, h2⟩ := ih (first := false) (st := st1) (fun u hu => hsub u (by simp [hu])) hb1 (by omega) (by omega) (.inr ⟨rfl, hh1⟩)
    refine ⟨max N1 N2, st2, ?_, fun fuelIn fuel hle => by
      simp only [Momentum.buildFrom, h1 fuelIn fuel (by omega), h2 fuelIn fuel (by omega)]⟩
    rw [List.flatMap_cons, List.length_append]
    push_cast
    rw [Int.add_mul, ← Int.add_assoc]
    exact hb2

end Runs
end Generic
end Sampo
