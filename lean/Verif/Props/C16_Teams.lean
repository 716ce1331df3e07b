import Verif.Lemmas.Contractor
import Verif.Props.C14_ContractorSearch
import Verif.Props.C29_Optimizers

/-! # C16: teams in schedules satisfy requirements, pool and specification -/

namespace Sampo.C16
open Sampo.C14 (Admissible)

/-- A sound contractor list: different ids, each worker type once per contractor. -/
def SoundContractors (cs : List Contractor) : Prop :=
  (cs.map (·.id)).Nodup ∧ ∀ c ∈ cs, (c.workers.map (·.1)).Nodup

/-- A sound requirement list. -/
def SoundReqs (reqs : List WorkerReq) : Prop := ∀ r ∈ reqs, 0 ≤ r.minCount ∧ r.minCount ≤ r.maxCount

/-- One worker entry per requirement, of the required type and of contractor `c`, with a count between `min_count` and
`max_count` and not above what the contractor owns. -/
def Meets (c : Contractor) (reqs : List WorkerReq) (team : List Worker) : Prop :=
  List.Forall₂ (fun (r : WorkerReq) (w : Worker) => w.name = r.kind ∧ w.contractor = c.id ∧
    r.minCount ≤ w.count ∧ w.count ≤ r.maxCount ∧ ∃ n, c.workers.lookup r.kind = some n ∧ w.count ≤ n) reqs team

/-- Counts fixed in the specification are used exactly. -/
def UsesFixed (spec : WorkSpec) (team : List Worker) : Prop :=
  ∀ w ∈ team, ∀ n, spec.assigned.lookup w.name = some n → w.count = n

private theorem pool_forall {cs : List Contractor} (hcs : SoundContractors cs) {c : Contractor} (hc : c ∈ cs)
    {P : WorkerReq → Worker → Option Int → Prop} {reqs team}
    (h : List.Forall₂ (fun r w => P r w (getPool cs r.kind c.id)) reqs team) :
    List.Forall₂ (fun r w => P r w (c.workers.lookup r.kind)) reqs team := by
  refine h.imp fun r w hp => ?_
  rwa [getPool_of_mem hcs.1 hcs.2 hc] at hp

/-- The optimizers of the schedulers stay within borders: coordinate descent, full scan and average requirement. -/
theorem optimizers_stay_within (fitness : List Int → Int) :
    StaysWithin (Optimize.descentOptimize Optimize.dichotomyInt fitness) ∧ StaysWithin (Optimize.fullScan fitness) ∧
    ∀ kn kd : Int, 0 < kd → kd ≤ kn → StaysWithin (Optimize.averageReq kn kd) :=
  ⟨fun arr down up counts r _ ho hl ha h => (C29.coordinate_descent_within_borders fitness down up counts ho hl).2 arr ha r h,
   fun arr down up counts r _ ho hl ha h => (C29.full_scan_within_borders fitness down up counts ho hl).2 arr ha r h,
   fun kn kd h1 h2 arr down up counts r hd ho hl ha h =>
     (C29.average_within_borders kn kd h1 h2 down up counts hd ho hl).2 arr ha r h⟩

/-- The contractor of the chosen team is in the list and enabled by the specification. -/
theorem chosen_contractor_enabled (contractors : List Contractor) (parent : Int) (reqs : List WorkerReq) (spec : WorkSpec)
    (opt : Contractor → Optimizer) (find : Contractor → List Worker → Option (Int × Int))
    (hfind : ∀ c t s f, find c t = some (s, f) → IsTime f) (s f : Int) (c : Contractor) (team : List Worker)
    (h : chooseTeam contractors parent reqs spec opt find = some (some (s, f, c, team))) :
    c ∈ contractors ∧ Admissible spec c ∧ runWithContractor (getPool contractors) parent reqs spec (opt c) find c = some (s, f, team) ∧
    tIsInf f = false := by
  have ht : ∀ c r, runWithContractor (getPool contractors) parent reqs spec (opt c) find c = some r → IsTime r.2.1 := by
    intro c r hr
    by_cases hi : tIsInf r.2.1 = false
    · have := (runWithContractor_spec (s := r.1) (f := r.2.1) (team := r.2.2) hr hi).2.1
      exact hfind _ _ _ _ this
    · unfold runWithContractor at hr
      simp only at hr
      split at hr
      · simp only [Option.some.injEq] at hr
        subst hr
        show IsTime timeInf
        decide
      · simp only [Option.bind_eq_some_iff, Option.some.injEq] at hr
        obtain ⟨t, _, p, h2, rfl⟩ := hr
        exact hfind _ _ _ _ h2
  obtain ⟨h1, h2, _, _, _, _, h3, h4, _⟩ := C14.search_returns_best _ ht contractors spec s f c team h
  exact ⟨h3, h4, h1, h2⟩

/-- List schedulers without fixed counts: whatever the timeline answers and whatever the finish time function is, the
chosen team meets the requirements and the pool. -/
theorem chosen_team_meets_requirements (contractors : List Contractor) (hcs : SoundContractors contractors) (parent : Int)
    (reqs : List WorkerReq) (hreqs : SoundReqs reqs) (spec : WorkSpec) (hspec : spec.assigned = [])
    (opt : Contractor → Optimizer) (hopt : ∀ c, StaysWithin (opt c)) (find : Contractor → List Worker → Option (Int × Int))
    (hfind : ∀ c t s f, find c t = some (s, f) → IsTime f) (s f : Int) (c : Contractor) (team : List Worker)
    (h : chooseTeam contractors parent reqs spec opt find = some (some (s, f, c, team))) :
    c ∈ contractors ∧ Admissible spec c ∧ Meets c reqs team := by
  obtain ⟨hc, ha, hr, hf⟩ := chosen_contractor_enabled contractors parent reqs spec opt find hfind s f c team h
  refine ⟨hc, ha, ?_⟩
  obtain ⟨hcan, _, happ⟩ := runWithContractor_spec hr hf
  apply pool_forall hcs hc (P := fun r w o => w.name = r.kind ∧ w.contractor = c.id ∧ r.minCount ≤ w.count ∧
    w.count ≤ r.maxCount ∧ ∃ n, o = some n ∧ w.count ≤ n)
  unfold applyTeamSpec at happ
  rw [hspec] at happ
  split at happ
  · rename_i hl
    have : reqs = [] := List.length_eq_zero_iff.mp hl.symm
    subst this
    simp at happ
    subst happ
    exact .nil
  · simp only [List.isEmpty_nil, if_true, Option.map_eq_some_iff] at happ
    obtain ⟨counts, ho, rfl⟩ := happ
    refine team_of_counts hcan (hopt _ _ _ _ _ _ ?_ (borders_ordered hcan fun r hr => (hreqs r hr).2) ?_ ?_ ho)
    · intro d hd
      obtain ⟨r, hr, rfl⟩ := List.mem_map.mp hd
      exact (hreqs r hr).1
    · simp
    · intro l hl; simp at hl

/-- List schedulers with all counts fixed: exactly the fixed counts are used, for one entry per requirement.  Missing
compared to the full property: nothing bounds these counts by the requirement or by the pool
(`fixed_counts_ignore_limits`), and for specifications that fix only some counts see
`partly_fixed_team_partial` (`partly_fixed_fails`,
`fixed_count_overwritten`). -/
theorem fully_fixed_team_partial (contractors : List Contractor) (parent : Int)
    (reqs : List WorkerReq) (spec : WorkSpec) (hspec : spec.assigned.length = reqs.length)
    (opt : Contractor → Optimizer) (find : Contractor → List Worker → Option (Int × Int))
    (hfind : ∀ c t s f, find c t = some (s, f) → IsTime f) (s f : Int) (c : Contractor) (team : List Worker)
    (h : chooseTeam contractors parent reqs spec opt find = some (some (s, f, c, team))) :
    c ∈ contractors ∧ Admissible spec c ∧ UsesFixed spec team ∧
    List.Forall₂ (fun (r : WorkerReq) (w : Worker) => w.name = r.kind ∧ w.contractor = c.id ∧
      spec.assigned.lookup r.kind = some w.count) reqs team := by
  obtain ⟨hc, ha, hr, hf⟩ := chosen_contractor_enabled contractors parent reqs spec opt find hfind s f c team h
  have happ := (runWithContractor_spec hr hf).2.2
  unfold applyTeamSpec at happ
  rw [if_pos hspec] at happ
  have h2 := mapM_count happ
  have hall : List.Forall₂ (fun (r : WorkerReq) (w : Worker) => w.name = r.kind ∧ w.contractor = c.id ∧
      spec.assigned.lookup r.kind = some w.count) reqs team := by
    rw [List.forall₂_map_left_iff] at h2
    exact h2
  refine ⟨hc, ha, ?_, hall⟩
  intro w hw n hn
  clear h2 happ hspec h hr
  clear hfind
  induction hall with
  | nil => simp at hw
  | cons hx _ ih =>
    rcases List.mem_cons.mp hw with rfl | hw
    · rw [hx.1, hx.2.2] at hn
      exact Option.some.inj hn
    · exact ih hw

/-- If moreover the timeline reports an infinite finish for teams above the pool (as the momentum timeline does, C49) and
the fixed counts are within the requirements, the team meets requirements and pool. -/
theorem fully_fixed_team_meets_requirements (contractors : List Contractor)
    (parent : Int) (reqs : List WorkerReq) (spec : WorkSpec) (hspec : spec.assigned.length = reqs.length)
    (hin : ∀ r ∈ reqs, ∀ n, spec.assigned.lookup r.kind = some n → r.minCount ≤ n ∧ n ≤ r.maxCount)
    (opt : Contractor → Optimizer) (find : Contractor → List Worker → Option (Int × Int))
    (hfind : ∀ c t s f, find c t = some (s, f) → IsTime f)
    (hover : ∀ c t s f, find c t = some (s, f) → tIsInf f = false →
      ∀ w ∈ t, ∃ n, c.workers.lookup w.name = some n ∧ w.count ≤ n)
    (s f : Int) (c : Contractor) (team : List Worker)
    (h : chooseTeam contractors parent reqs spec opt find = some (some (s, f, c, team))) :
    Admissible spec c ∧ Meets c reqs team ∧ UsesFixed spec team := by
  obtain ⟨hc, ha, hu, hall⟩ := fully_fixed_team_partial contractors parent reqs spec hspec opt find hfind s f c team h
  obtain ⟨_, _, hr, hf⟩ := chosen_contractor_enabled contractors parent reqs spec opt find hfind s f c team h
  have hfd := (runWithContractor_spec hr hf).2.1
  refine ⟨ha, ?_, hu⟩
  have hpool := hover _ _ _ _ hfd hf
  clear hu hfd hr h hspec
  unfold Meets
  induction hall with
  | nil => exact .nil
  | @cons r w reqs team hx _ ih =>
    have hb := hin r (by simp) _ hx.2.2
    obtain ⟨n, hn, hle⟩ := hpool w (by simp)
    refine .cons ⟨hx.1, hx.2.1, hb.1, hb.2, n, by rw [← hx.1]; exact hn, hle⟩ ?_
    exact ih (fun r hr => hin r (by simp [hr])) (fun w hw => hpool w (by simp [hw]))

/-- An optimizer that does what it is asked for with an `optimize_array`: the counts where the array is not set stay, the others
get between the borders. -/
def ObeysArray (o : Optimizer) : Prop :=
  ∀ (arr : List Bool) (down up counts r : List Int), arr.length = counts.length → down.length = counts.length →
    up.length = counts.length → Ordered down up → o (some arr) down up counts = some r →
    r.length = counts.length ∧ ∀ (i : Nat) (x : Int), r[i]? = some x →
      (arr[i]? = some false → counts[i]? = some x) ∧
      (arr[i]? = some true → ∀ d u, down[i]? = some d → up[i]? = some u → d ≤ x ∧ x ≤ u)

/-- List schedulers with some counts fixed: for an optimizer that obeys its array, the fixed counts are used exactly, and the
others meet requirement and pool.  Missing compared to the full property: the optimizers of the package do not obey the array
(`partly_fixed_fails`, `fixed_count_overwritten`). -/
theorem partly_fixed_team_partial (contractors : List Contractor) (hcs : SoundContractors contractors) (parent : Int)
    (reqs : List WorkerReq) (hreqs : SoundReqs reqs) (spec : WorkSpec) (hsome : spec.assigned ≠ [])
    (hspec : spec.assigned.length ≠ reqs.length) (opt : Contractor → Optimizer) (hopt : ∀ c, ObeysArray (opt c))
    (find : Contractor → List Worker → Option (Int × Int))
    (hfind : ∀ c t s f, find c t = some (s, f) → IsTime f) (s f : Int) (c : Contractor) (team : List Worker)
    (h : chooseTeam contractors parent reqs spec opt find = some (some (s, f, c, team))) :
    c ∈ contractors ∧ Admissible spec c ∧ team.length = reqs.length ∧
    ∀ (i : Nat) (r : WorkerReq) (w : Worker), reqs[i]? = some r → team[i]? = some w → w.name = r.kind ∧ w.contractor = c.id ∧
      (∀ n, spec.assigned.lookup r.kind = some n → 0 < n → w.count = n) ∧
      (spec.assigned.lookup r.kind = none → r.minCount ≤ w.count ∧ w.count ≤ r.maxCount ∧
        ∃ n, c.workers.lookup r.kind = some n ∧ w.count ≤ n) := by
  obtain ⟨hc, ha, hr, hf⟩ := chosen_contractor_enabled contractors parent reqs spec opt find hfind s f c team h
  obtain ⟨hcan, -, happ⟩ := runWithContractor_spec hr hf
  unfold applyTeamSpec at happ
  have hie : spec.assigned.isEmpty = false := by
    cases hh : spec.assigned with
    | nil => exact absurd hh hsome
    | cons _ _ => rfl
  simp only [if_neg hspec, hie, Bool.false_eq_true, if_false, Option.map_eq_some_iff, List.map_map, List.zip_map'] at happ
  obtain ⟨counts, ho, rfl⟩ := happ
  obtain ⟨hl, hx⟩ := hopt c _ _ _ _ _ (by simp) (by simp) (by simp)
    (borders_ordered hcan fun r hr => (hreqs r hr).2) ho
  simp only [List.length_map] at hl
  refine ⟨hc, ha, by simp [hl], ?_⟩
  intro i r w hri hw
  simp only [List.getElem?_map, List.getElem?_zip_eq_some, Option.map_eq_some_iff, Prod.exists, hri, Option.map_some] at hw hx
  obtain ⟨w0, x, ⟨h1, h2⟩, rfl⟩ := hw
  obtain rfl := Option.some.inj h1
  obtain ⟨hx1, hx2⟩ := hx i x h2
  simp only [hri, Option.some.injEq, Function.comp_apply, exists_eq_left'] at hx1 hx2
  have hp := getPool_of_mem hcs.1 hcs.2 hc r.kind
  obtain ⟨n0, hn0, hle0⟩ := hcan r (List.mem_of_getElem? hri)
  refine ⟨?_, ?_, fun n hn hpos => ?_, fun hno => ?_⟩
  · simp only [Function.comp_apply]; split <;> rfl
  · simp only [Function.comp_apply]; split <;> rfl
  · have h3 := hx1 (by simp [hn, hpos])
    simp only [hn, Option.getD_some, gt_iff_lt, if_pos hpos] at h3
    exact h3.symm
  · have h3 := hx2 (by simp [hno]) _ _ rfl rfl
    rw [hp] at hn0
    rw [hp, hn0, Option.getD_some] at h3
    refine ⟨h3.1, by dsimp only; omega, n0, hn0, by dsimp only; omega⟩

/-- Not to do anything is one way to keep fixed counts, though not to meet requirements: the identity optimizer. -/
theorem identity_keeps_fixed (contractors : List Contractor) (parent : Int)
    (reqs : List WorkerReq) (spec : WorkSpec) (hsome : spec.assigned ≠ []) (hspec : spec.assigned.length ≠ reqs.length)
    (find : Contractor → List Worker → Option (Int × Int))
    (hfind : ∀ c t s f, find c t = some (s, f) → IsTime f) (s f : Int) (c : Contractor) (team : List Worker)
    (h : chooseTeam contractors parent reqs spec (fun _ => Optimize.identity) find = some (some (s, f, c, team))) :
    ∀ w ∈ team, ∀ n, spec.assigned.lookup w.name = some n → 0 < n → w.count = n := by
  obtain ⟨hc, ha, hr, hf⟩ := chosen_contractor_enabled contractors parent reqs spec _ find hfind s f c team h
  obtain ⟨hcan, -, happ⟩ := runWithContractor_spec hr hf
  unfold applyTeamSpec at happ
  have hie : spec.assigned.isEmpty = false := by
    cases hh : spec.assigned with
    | nil => exact absurd hh hsome
    | cons _ _ => rfl
  simp only [if_neg hspec, hie, Bool.false_eq_true, if_false, Option.map_eq_some_iff, List.map_map, List.zip_map',
    Optimize.identity, Option.some.injEq] at happ
  obtain ⟨counts, rfl, rfl⟩ := happ
  intro w hw n hn hpos
  rw [List.zip_map', List.map_map, List.mem_map] at hw
  obtain ⟨r, hr, rfl⟩ := hw
  simp only [Function.comp_apply] at hn ⊢
  have : spec.assigned.lookup r.kind = some n := by
    revert hn
    split <;> exact id
  simp only [this, Option.getD_some, gt_iff_lt, if_pos hpos]


/-- LFT and randomized LFT: every assigned team meets the requirements and the pool and uses the fixed counts exactly
(-1, the marker of an absent count, cannot be fixed), and the contractor is enabled, whichever accepted contractor is
chosen. -/
theorem lft_team_meets_requirements (contractors : List Contractor) (hcs : SoundContractors contractors)
    (spec : WorkSpec) (hneg : ∀ k n, spec.assigned.lookup k = some n → n ≠ -1) (reqs : List WorkerReq)
    (hreqs : SoundReqs reqs) (index : Nat → Nat) (c : Contractor) (team : List Worker)
    (h : LFT.assign contractors spec reqs index = .ok (some (c, team))) :
    c ∈ contractors ∧ Admissible spec c ∧ Meets c reqs team ∧ UsesFixed spec team := by
  unfold LFT.assign at h
  split at h
  · simp at h
  · rename_i l hl
    simp only [Except.ok.injEq, Option.map_eq_some_iff, Prod.mk.injEq] at h
    obtain ⟨⟨c', am⟩, hget, rfl, rfl⟩ := h
    unfold LFT.contractorsAndAmounts at hl
    split at hl
    · simp at hl
    · rename_i hmin
      split at hl
      · simp at hl
      · rename_i hmax
        split at hl
        · simp at hl
        · rename_i hany
          clear hany
          simp only [Except.ok.injEq] at hl
          subst hl
          have hmem := List.mem_of_getElem? hget
          simp only [List.mem_map, List.mem_filter, Prod.mk.injEq] at hmem
          obtain ⟨c0, ⟨hc, hacc⟩, rfl, rfl⟩ := hmem
          simp only [LFT.accepted, Bool.and_eq_true, List.all_eq_true, decide_eq_true_eq, List.mem_filter,
            and_imp] at hacc
          obtain ⟨⟨hamin, haspec⟩, hen⟩ := hacc
          have hadm : Admissible spec c0 := by simpa [WorkSpec.enabled, Admissible] using hen
          -- the amount given to one requirement
          have hamt : ∀ r ∈ reqs, ∀ x : Int, (x = if LFT.inSpec spec r then LFT.specAmount spec r
              else min (LFT.amount (getPool contractors) c0 r) r.maxCount) →
              r.minCount ≤ x ∧ x ≤ r.maxCount ∧ (∃ n, c0.workers.lookup r.kind = some n ∧ x ≤ n) ∧
              ∀ n, spec.assigned.lookup r.kind = some n → x = n := by
            intro r hr x hx
            have hp := getPool_of_mem hcs.1 hcs.2 hc r.kind
            have h0 := hreqs r hr
            have h1 := hamin r hr
            unfold LFT.amount at h1 hx haspec
            simp only [hp] at h1 hx
            obtain ⟨n, hn⟩ : ∃ n, c0.workers.lookup r.kind = some n := by
              cases hlk : c0.workers.lookup r.kind with
              | none => rw [hlk] at h1; simp at h1; omega
              | some n => exact ⟨n, rfl⟩
            simp only [hn, Option.getD_some] at h1 hx
            by_cases hin : LFT.inSpec spec r = true
            · rw [if_pos hin] at hx
              have h2 := haspec r hr hin
              rw [hp, hn, Option.getD_some] at h2
              have h3 : ¬ LFT.specAmount spec r < r.minCount := by
                intro hc; exact hmin (List.any_eq_true.mpr ⟨r, List.mem_filter.mpr ⟨hr, hin⟩, by simpa using hc⟩)
              have h4 : ¬ LFT.specAmount spec r > r.maxCount := by
                intro hc; exact hmax (List.any_eq_true.mpr ⟨r, List.mem_filter.mpr ⟨hr, hin⟩, by simpa using hc⟩)
              refine ⟨by omega, by omega, ⟨n, hn, by omega⟩, ?_⟩
              intro m hm
              rw [hx, LFT.specAmount, hm, Option.getD_some]
            · rw [if_neg hin] at hx
              refine ⟨by omega, by omega, ⟨n, hn, by omega⟩, ?_⟩
              intro m hm
              exfalso
              apply hin
              simp only [LFT.inSpec, LFT.specAmount, hm, Option.getD_some, bne_iff_ne]
              exact hneg _ _ hm
          have ham : LFT.amounts (getPool contractors) spec reqs c0 = reqs.map fun r => if LFT.inSpec spec r then
              LFT.specAmount spec r else min (LFT.amount (getPool contractors) c0 r) r.maxCount := by
            unfold LFT.amounts
            split
            · rename_i hall
              apply List.map_congr_left
              intro r hr
              rw [if_pos (List.all_eq_true.mp hall r hr)]
            · rfl
          simp only
          rw [ham]
          clear ham hmin hmax hget haspec hamin
          refine ⟨hc, hadm, ?_, ?_⟩
          · unfold Meets
            induction reqs with
            | nil => exact .nil
            | cons r reqs ih =>
              obtain ⟨a1, a2, a3, _⟩ := hamt r (by simp) _ rfl
              simp only [List.map_cons, List.zip_cons_cons]
              exact .cons ⟨rfl, rfl, a1, a2, a3⟩
                (ih (fun r hr => hreqs r (by simp [hr])) (fun r hr => hamt r (by simp [hr])))
          · intro w hw n hn
            rw [List.zip_map_right, List.map_map, List.mem_map] at hw
            obtain ⟨x, hx, rfl⟩ := hw
            have : x.1 = x.2 := by
              clear hamt hreqs hn
              induction reqs with
              | nil => simp at hx
              | cons r reqs ih =>
                simp only [List.zip_cons_cons, List.mem_cons] at hx
                rcases hx with rfl | hx
                · rfl
                · exact ih hx
            obtain ⟨r1, r2⟩ := x
            simp only at this
            subst this
            have hr : r1 ∈ reqs := (List.of_mem_zip hx).1
            exact (hamt r1 hr _ rfl).2.2.2 n hn

/-- LFT raises no error exactly when every fixed count is within its requirement and some enabled contractor owns enough
workers of every required type. -/
theorem lft_accepts_iff (contractors : List Contractor) (hcs : SoundContractors contractors) (spec : WorkSpec)
    (hneg : ∀ k n, spec.assigned.lookup k = some n → n ≠ -1) (reqs : List WorkerReq) (hreqs : SoundReqs reqs) :
    (∃ l, LFT.contractorsAndAmounts (getPool contractors) contractors spec reqs = .ok l) ↔
      (∀ r ∈ reqs, ∀ n, spec.assigned.lookup r.kind = some n → r.minCount ≤ n ∧ n ≤ r.maxCount) ∧
      ∃ c ∈ contractors, Admissible spec c ∧ ∀ r ∈ reqs, ∃ have_, c.workers.lookup r.kind = some have_ ∧
        r.minCount ≤ have_ ∧ ∀ n, spec.assigned.lookup r.kind = some n → n ≤ have_ := by
  have hsp : ∀ r n, spec.assigned.lookup (r : WorkerReq).kind = some n →
      LFT.inSpec spec r = true ∧ LFT.specAmount spec r = n := by
    intro r n hn
    simp only [LFT.inSpec, LFT.specAmount, hn, Option.getD_some, bne_iff_ne]
    exact ⟨hneg _ _ hn, trivial⟩
  have hsp' : ∀ r, LFT.inSpec spec r = true → spec.assigned.lookup r.kind = some (LFT.specAmount spec r) := by
    intro r hr
    unfold LFT.inSpec at hr
    cases hl : spec.assigned.lookup r.kind with
    | none => simp [LFT.specAmount, hl] at hr
    | some n => simp [LFT.specAmount, hl]
  have hacc : ∀ c ∈ contractors, LFT.accepted (getPool contractors) spec reqs c = true ↔
      (Admissible spec c ∧ ∀ r ∈ reqs, ∃ have_, c.workers.lookup r.kind = some have_ ∧
        r.minCount ≤ have_ ∧ ∀ n, spec.assigned.lookup r.kind = some n → n ≤ have_) := by
    intro c hc
    have hp : ∀ r, LFT.amount (getPool contractors) c r = (c.workers.lookup r.kind).getD (-1) := by
      intro r; unfold LFT.amount; rw [getPool_of_mem hcs.1 hcs.2 hc]
    have hen : spec.enabled c.id = true ↔ Admissible spec c := by simp [WorkSpec.enabled, Admissible]
    simp only [LFT.accepted, Bool.and_eq_true, List.all_eq_true, decide_eq_true_eq, List.mem_filter, and_imp, hen, hp]
    constructor
    · rintro ⟨⟨h1, h2⟩, h3⟩
      refine ⟨h3, fun r hr => ?_⟩
      have := h1 r hr
      cases hl : c.workers.lookup r.kind with
      | none =>
        rw [hl] at this
        have := (hreqs r hr).1
        simp at *
        omega
      | some n =>
        rw [hl, Option.getD_some] at this
        refine ⟨n, rfl, this, fun m hm => ?_⟩
        have := h2 r hr (hsp r m hm).1
        rw [hl, Option.getD_some, (hsp r m hm).2] at this
        exact this
    · rintro ⟨h3, h1⟩
      refine ⟨⟨fun r hr => ?_, fun r hr hin => ?_⟩, h3⟩
      · obtain ⟨n, hn, hle, _⟩ := h1 r hr
        rw [hn]; exact hle
      · obtain ⟨n, hn, _, hle⟩ := h1 r hr
        rw [hn]; exact hle _ (hsp' r hin)
  unfold LFT.contractorsAndAmounts
  constructor
  · rintro ⟨l, hl⟩
    split at hl
    · simp at hl
    · rename_i hmin
      split at hl
      · simp at hl
      · rename_i hmax
        split at hl
        · simp at hl
        · rename_i hany
          refine ⟨fun r hr n hn => ?_, ?_⟩
          · have hs := hsp r n hn
            constructor
            · by_contra hc
              exact hmin (List.any_eq_true.mpr ⟨r, List.mem_filter.mpr ⟨hr, hs.1⟩, by simp [hs.2]; omega⟩)
            · by_contra hc
              exact hmax (List.any_eq_true.mpr ⟨r, List.mem_filter.mpr ⟨hr, hs.1⟩, by simp [hs.2]; omega⟩)
          · simp only [Bool.not_eq_eq_eq_not, Bool.not_true, Bool.not_eq_false] at hany
            obtain ⟨c, hc, ha⟩ := List.any_eq_true.mp hany
            exact ⟨c, hc, (hacc c hc).mp ha⟩
  · rintro ⟨hb, c, hc, ha⟩
    rw [if_neg, if_neg, if_neg]
    · exact ⟨_, rfl⟩
    · have : contractors.any (LFT.accepted (getPool contractors) spec reqs) = true :=
        List.any_eq_true.mpr ⟨c, hc, (hacc c hc).mpr ha⟩
      simp [this]
    · intro h
      obtain ⟨r, hr, hlt⟩ := List.any_eq_true.mp h
      have hr := List.mem_filter.mp hr
      have := hb r hr.1 _ (hsp' r hr.2)
      simp at hlt
      omega
    · intro h
      obtain ⟨r, hr, hlt⟩ := List.any_eq_true.mp h
      have hr := List.mem_filter.mp hr
      have := hb r hr.1 _ (hsp' r hr.2)
      simp at hlt
      omega

/-- Not proved because false: a fixed count of 9 is accepted although the requirement allows at most 4 workers and the
contractor owns 5 (the timeline here reports a finite finish for it, as the just-in-time timeline does, C49). -/
theorem fixed_counts_ignore_limits :
    chooseTeam [⟨0, [(0, 5)]⟩] 0 [⟨0, 1, 4⟩] ⟨[], [(0, 9)]⟩ (fun _ => Optimize.identity) (fun _ _ => some (0, 10)) =
      some (some (0, 10, ⟨0, [(0, 5)]⟩, [⟨0, 0, 9⟩])) := by decide

/-- Not proved because false: with two requirements of which one has a fixed count, the list schedulers raise. -/
theorem partly_fixed_fails :
    chooseTeam [⟨0, [(0, 5), (1, 5)]⟩] 0 [⟨0, 1, 4⟩, ⟨1, 1, 4⟩] ⟨[], [(0, 2)]⟩
      (fun _ => Optimize.fullScan fun _ => 0) (fun _ _ => some (0, 10)) = none := by decide

/-- Not proved because false: with one requirement and a specification that names a further type, the fixed count 2 is
overwritten by the optimizer's 4. -/
theorem fixed_count_overwritten :
    chooseTeam [⟨0, [(0, 5)]⟩] 0 [⟨0, 1, 4⟩] ⟨[], [(0, 2), (7, 1)]⟩ (fun _ => Optimize.averageReq 1 1) (fun _ _ => some (0, 10)) =
      some (some (0, 10, ⟨0, [(0, 5)]⟩, [⟨0, 0, 4⟩])) := by decide

-- concrete cases
private def cs : List Contractor := [⟨0, [(0, 5), (1, 2)]⟩, ⟨1, [(0, 9), (1, 4)]⟩]
private def reqs : List WorkerReq := [⟨0, 1, 6⟩, ⟨1, 1, 3⟩]
private def find (c : Contractor) (t : List Worker) : Option (Int × Int) :=
  if t.all (fun w => decide (w.count ≤ (c.workers.lookup w.name).getD 0)) then some (0, mkTime (30 - (t.map (·.count)).sum))
  else some (0, timeInf)
example : SoundContractors cs ∧ SoundReqs reqs := by
  refine ⟨⟨by decide, ?_⟩, ?_⟩
  · intro c hc
    simp [cs] at hc
    rcases hc with rfl | rfl <;> decide
  · intro r hr
    simp [reqs] at hr
    rcases hr with rfl | rfl <;> decide
example : chooseTeam cs 0 reqs ⟨[], []⟩ (fun _ => Optimize.averageReq 2 1) find =
    some (some (0, 25, ⟨1, [(0, 9), (1, 4)]⟩, [⟨1, 0, 3⟩, ⟨1, 1, 2⟩])) := by decide
example : chooseTeam cs 0 reqs ⟨[0], [(1, 2), (0, 4)]⟩ (fun _ => Optimize.averageReq 2 1) find =
    some (some (0, 24, ⟨0, [(0, 5), (1, 2)]⟩, [⟨0, 0, 4⟩, ⟨0, 1, 2⟩])) := by decide
/-- An optimizer that obeys its array: the least counts where it is set. -/
private def least : Optimizer := fun arr down _ counts =>
  some ((counts.zip (down.zip (arr.getD []))).map fun x => if x.2.2 then x.2.1 else x.1)
private theorem ordered_get : ∀ {down up : List Int}, Ordered down up → ∀ (i : Nat) (d u : Int), down[i]? = some d →
    up[i]? = some u → d ≤ u
  | [], _, _, i, d, u, h, _ => by simp at h
  | _ :: _, [], _, i, d, u, _, h => by simp at h
  | d' :: down, u' :: up, h, i, d, u, h1, h2 => by
    cases i with
    | zero => simp at h1 h2; subst h1 h2; exact h.2.1
    | succ i => exact ordered_get (down := down) (up := up) h.2.2 i d u (by simpa using h1) (by simpa using h2)
example : ObeysArray least := by
  intro arr down up counts r h1 h2 h3 ho h
  unfold least at h
  simp only [Option.getD_some, Option.some.injEq] at h
  subst h
  refine ⟨by simp [h1, h2], ?_⟩
  intro i x hx
  simp only [List.getElem?_map, Option.map_eq_some_iff, List.getElem?_zip_eq_some, Prod.exists] at hx
  obtain ⟨a, d, b, ⟨h4, h5, h6⟩, rfl⟩ := hx
  refine ⟨fun hf => ?_, fun ht d' u hd hu => ?_⟩
  · rw [h6, Option.some.injEq] at hf
    subst hf
    exact h4
  · rw [h6, Option.some.injEq] at ht
    subst ht
    rw [h5, Option.some.injEq] at hd
    subst hd
    exact ⟨le_refl _, ordered_get ho i _ _ h5 hu⟩
example : chooseTeam cs 0 reqs ⟨[], [(1, 2)]⟩ (fun _ => least) find =
    some (some (0, 27, ⟨0, [(0, 5), (1, 2)]⟩, [⟨0, 0, 1⟩, ⟨0, 1, 2⟩])) := by decide
example : LFT.assign cs ⟨[0, 1], [(1, 3)]⟩ reqs (fun _ => 0) =
    .ok (some (⟨1, [(0, 9), (1, 4)]⟩, [⟨1, 0, 6⟩, ⟨1, 1, 3⟩])) := by rfl

end Sampo.C16
