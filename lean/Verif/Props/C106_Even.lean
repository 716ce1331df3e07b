import Verif.Lemmas.Even
import Verif.Props.C89_Schedulers

/-!
# C106: LFT spreads the works evenly over the contractors

The LFT scheduler "assigns contractors evenly": before anything is placed, each chain gets a contractor and a team, by the duration
and by the number of chains given to each contractor so far.
-/

namespace Sampo.C106
open LFT Scheduler OnGraph
open C22 (WorkGraph)
open C89 (OnlyDependencies PrioritiesAgree Staffs)

variable {σ : Type} {contractors : List Contractor} {spec : Nat → WorkSpec} {reqs : Nat → List WorkerReq}
  {chainDur : Nat → List Int → Int} {pick : Nat → List ℚ → Nat}

private theorem accepts_ok (hcs : C16.SoundContractors contractors) (hneg : ∀ v k n, (spec v).assigned.lookup k = some n → n ≠ -1)
    {v : Nat} (hv : C54.Staffable contractors (spec v) (reqs v)) :
    ∃ l, contractorsAndAmounts (getPool contractors) contractors (spec v) (reqs v) = .ok l :=
  (C16.lft_accepts_iff contractors hcs (spec v) (hneg v) (reqs v) hv.1).mpr ⟨hv.2.2.1, hv.2.2.2⟩

private theorem run (hcs : C16.SoundContractors contractors) (hneg : ∀ v k n, (spec v).assigned.lookup k = some n → n ≠ -1)
    (hreqs : ∀ v, C16.SoundReqs (reqs v)) (hpick : ∀ v sc, sc ≠ [] → pick v sc < sc.length) (heads : List Nat)
    (hstaff : ∀ v ∈ heads, C54.Staffable contractors (spec v) (reqs v)) (A : Assignment)
    (hlen : A.counts.length = contractors.length) :
    ∃ A', heads.foldlM (assignWork contractors spec reqs chainDur pick) A = some A' ∧ A'.counts.length = contractors.length ∧
      ∃ ts ds, A'.teams = A.teams ++ ts ∧ A'.durations = A.durations ++ ds ∧ ts.map (·.1) = heads ∧ ds.map (·.1) = heads ∧
        (∀ x ∈ ts, C89.Staffs contractors spec reqs x.1 x.2.2 x.2.1) ∧ ∀ x ∈ ds, ∃ a, x.2 = chainDur x.1 a := by
  induction heads generalizing A with
  | nil => exact ⟨A, rfl, hlen, [], [], by simp⟩
  | cons v vs ih =>
    obtain ⟨A₁, h₁⟩ := assignWork_answers (chainDur := chainDur) hpick (accepts_ok hcs hneg (hstaff v List.mem_cons_self)) hlen
    obtain ⟨l, i, ca, hl, hca, -, hA⟩ := assignWork_some h₁
    obtain ⟨A₂, h₂, h3, ts, ds, h4, h5, h6, h7, h8, h9⟩ := ih (fun u hu => hstaff u (List.mem_cons_of_mem _ hu)) A₁
      (by rw [hA]; simpa using hlen)
    refine ⟨A₂, ?_, h3, (v, ca.1.id, ((reqs v).zip ca.2).map fun x => ⟨ca.1.id, x.1.kind, x.2⟩) :: ts, (v, chainDur v ca.2) :: ds,
      by rw [h4, hA]; simp, by rw [h5, hA]; simp, by simp [h6], by simp [h7], ?_, ?_⟩
    · rw [List.foldlM_cons, h₁]
      exact h₂
    · intro x hx
      rcases List.mem_cons.mp hx with rfl | hx
      · refine lft_staffs contractors hcs spec hneg reqs hreqs (fun _ _ => i) ?_
        unfold LFT.choose LFT.assign
        rw [hl]
        simp only [hca, Option.map_some]
      · exact h8 x hx
    · intro x hx
      rcases List.mem_cons.mp hx with rfl | hx
      · exact ⟨_, rfl⟩
      · exact h9 x hx

/-- If every work can be staffed, every chain gets one contractor that may do it, with a team that meets its requirements; for any way
to pick one of the accepted contractors, so for LFT and for randomized LFT. -/
theorem assigns (hcs : C16.SoundContractors contractors) (hneg : ∀ v k n, (spec v).assigned.lookup k = some n → n ≠ -1)
    (hreqs : ∀ v, C16.SoundReqs (reqs v)) (hpick : ∀ v sc, sc ≠ [] → pick v sc < sc.length) (heads : List Nat)
    (hstaff : ∀ v ∈ heads, C54.Staffable contractors (spec v) (reqs v)) :
    ∃ A, assignAll contractors spec reqs chainDur pick heads = some A ∧ A.teams.map (·.1) = heads ∧ A.durations.map (·.1) = heads ∧
      ∀ x ∈ A.teams, C89.Staffs contractors spec reqs x.1 x.2.2 x.2.1 := by
  obtain ⟨A, h, -, ts, ds, h1, h2, h3, h4, h5, -⟩ := run (chainDur := chainDur) hcs hneg hreqs hpick heads hstaff
    ⟨List.replicate contractors.length 1, [], []⟩ (by simp)
  rw [List.nil_append] at h1 h2
  exact ⟨A, h, by rw [h1, h3], by rw [h2, h4], by rw [h1]; exact h5⟩

/-- `argmax` picks one of them. -/
private theorem argmax_lt (sc : List ℚ) (h : sc ≠ []) : argmax sc < sc.length := by
  obtain ⟨y, hy, -⟩ := argmax_spec h
  exact (List.getElem?_eq_some_iff.mp hy).1

private theorem full_ok (hcs : C16.SoundContractors contractors) (hne : contractors ≠ [])
    (hneg : ∀ v k n, (spec v).assigned.lookup k = some n → n ≠ -1) {v : Nat} (hreqs : C16.SoundReqs (reqs v))
    (hfix : ∀ r ∈ reqs v, ∀ n, (spec v).assigned.lookup r.kind = some n → r.minCount ≤ n ∧ n ≤ r.maxCount)
    (hfull : FullyEquipped contractors (spec v) (reqs v)) :
    (∃ l, contractorsAndAmounts (getPool contractors) contractors (spec v) (reqs v) = .ok l) ∧
    (∀ c ∈ contractors, accepted (getPool contractors) (spec v) (reqs v) c = true) ∧
    ∀ c ∈ contractors, ∀ c' ∈ contractors, amounts (getPool contractors) (spec v) (reqs v) c =
      amounts (getPool contractors) (spec v) (reqs v) c' := by
  have hacc : ∀ c ∈ contractors, accepted (getPool contractors) (spec v) (reqs v) c = true := by
    intro c hc
    obtain ⟨h1, h2⟩ := hfull c hc
    unfold accepted
    simp only [Bool.and_eq_true, List.all_eq_true, decide_eq_true_eq, List.mem_filter]
    refine ⟨⟨fun r hr => ?_, fun r hr => ?_⟩, ?_⟩
    · obtain ⟨n, hn, hm⟩ := h2 r hr
      unfold amount
      rw [getPool_of_mem hcs.1 hcs.2 hc, hn, Option.getD_some]
      have := (hreqs r hr).2
      omega
    · obtain ⟨n, hn, hm⟩ := h2 r hr.1
      unfold amount
      rw [getPool_of_mem hcs.1 hcs.2 hc, hn, Option.getD_some]
      have hin := hr.2
      unfold inSpec specAmount at hin
      unfold specAmount
      cases hl : (spec v).assigned.lookup r.kind with
      | none => rw [hl] at hin; simp at hin
      | some m =>
        have := (hfix r hr.1 m hl).2
        simp only [Option.getD_some]
        omega
    · unfold WorkSpec.enabled
      simp only [Bool.or_eq_true, List.isEmpty_iff, List.contains_iff_mem]
      exact h1
  refine ⟨?_, hacc, ?_⟩
  · obtain ⟨c, hc⟩ := List.exists_mem_of_ne_nil _ hne
    refine (C16.lft_accepts_iff contractors hcs (spec v) (hneg v) (reqs v) hreqs).mpr ⟨hfix, c, hc, (hfull c hc).1, fun r hr => ?_⟩
    obtain ⟨n, hn, hm⟩ := (hfull c hc).2 r hr
    refine ⟨n, hn, ?_, fun m hm' => ?_⟩
    · have := (hreqs r hr).2
      omega
    · have := (hfix r hr m hm').2
      omega
  · intro c hc c' hc'
    unfold amounts
    split
    · rfl
    · refine List.map_congr_left fun r hr => ?_
      split
      · rfl
      · obtain ⟨n, hn, hm⟩ := (hfull c hc).2 r hr
        obtain ⟨n', hn', hm'⟩ := (hfull c' hc').2 r hr
        unfold amount
        rw [getPool_of_mem hcs.1 hcs.2 hc, getPool_of_mem hcs.1 hcs.2 hc', hn, hn', Option.getD_some, Option.getD_some]
        omega

private theorem even_run (hcs : C16.SoundContractors contractors) (hne : contractors ≠ [])
    (hneg : ∀ v k n, (spec v).assigned.lookup k = some n → n ≠ -1) (hreqs : ∀ v, C16.SoundReqs (reqs v))
    (hdur : ∀ v a, 0 < chainDur v a) (heads : List Nat)
    (hfix : ∀ v ∈ heads, ∀ r ∈ reqs v, ∀ n, (spec v).assigned.lookup r.kind = some n → r.minCount ≤ n ∧ n ≤ r.maxCount)
    (hfull : ∀ v ∈ heads, FullyEquipped contractors (spec v) (reqs v)) (A : Assignment) (hc : Counted contractors A)
    (heven : ∀ c ∈ contractors, ∀ c' ∈ contractors, A.works c.id ≤ A.works c'.id + 1) :
    ∃ A', heads.foldlM (assignWork contractors spec reqs chainDur fun _ => argmax) A = some A' ∧ Counted contractors A' ∧
      ∀ c ∈ contractors, ∀ c' ∈ contractors, A'.works c.id ≤ A'.works c'.id + 1 := by
  induction heads generalizing A with
  | nil => exact ⟨A, rfl, hc, heven⟩
  | cons v vs ih =>
    obtain ⟨h1, h2, h3⟩ := full_ok hcs hne hneg (hreqs v) (hfix v List.mem_cons_self) (hfull v List.mem_cons_self)
    obtain ⟨i, c, n, hi, hn, hstep, hbest⟩ := assignWork_all (chainDur := chainDur) (A := A) hne h1 h2 (fun c _ => hdur v _) hc.length hc.pos
    have hcm : c ∈ contractors := List.mem_of_getElem? hi
    have hval : ∀ (j : Nat) c', contractors[j]? = some c' → A.counts[j]? = some (1 + (A.works c'.id : Int)) := by
      intro j c' hj
      rw [hc, List.getElem?_map, hj]
      rfl
    have hmin : ∀ c' ∈ contractors, A.works c.id ≤ A.works c'.id := by
      intro c' hc'
      obtain ⟨j, hj⟩ := List.mem_iff_getElem?.mp hc'
      have := (hbest j c' _ hj (hval j c' hj)).1
      rw [hval i c hi, Option.some.injEq] at hn
      simp only [not_and, not_lt] at this
      have := this (by rw [h3 c hcm c' hc'])
      omega
    obtain ⟨A', h4, h5, h6⟩ := ih (fun u hu => hfix u (List.mem_cons_of_mem _ hu)) (fun u hu => hfull u (List.mem_cons_of_mem _ hu)) _
      (hc.next hcs.1 hi v _ _) (fun a ha b hb => by
        rw [works_append, works_append]
        have e1 := heven a ha b hb
        have e2 := hmin b hb
        by_cases hca : c.id = a.id
        · have := congrArg A.works hca
          rw [if_pos hca]
          omega
        · rw [if_neg hca]
          omega)
    refine ⟨A', ?_, h5, h6⟩
    rw [List.foldlM_cons, hstep]
    exact h4

/-- If every contractor may do every work and owns as many workers as the works can use, the numbers of chains given to any two
contractors differ by at most one, however many chains there are. -/
theorem even (hcs : C16.SoundContractors contractors) (hne : contractors ≠ [])
    (hneg : ∀ v k n, (spec v).assigned.lookup k = some n → n ≠ -1) (hreqs : ∀ v, C16.SoundReqs (reqs v))
    (hdur : ∀ v a, 0 < chainDur v a) (heads : List Nat)
    (hfix : ∀ v ∈ heads, ∀ r ∈ reqs v, ∀ n, (spec v).assigned.lookup r.kind = some n → r.minCount ≤ n ∧ n ≤ r.maxCount)
    (hfull : ∀ v ∈ heads, FullyEquipped contractors (spec v) (reqs v)) :
    ∃ A, assignAll contractors spec reqs chainDur (fun _ => argmax) heads = some A ∧
      ∀ c ∈ contractors, ∀ c' ∈ contractors, A.works c.id ≤ A.works c'.id + 1 := by
  obtain ⟨A, h, -, h2⟩ := even_run hcs hne hneg hreqs hdur heads hfix hfull ⟨List.replicate contractors.length 1, [], []⟩
    (by
      unfold Counted Assignment.works
      simp [List.map_const'])
    (by simp [Assignment.works])
  exact ⟨A, h, h2⟩

/-- The choice for a chain, if every contractor can staff it and all chains before: the chosen contractor is neither busier than a
contractor that is as fast, nor slower than one that is no busier; between equal contractors, the first is chosen.  The duration is the
one of the largest team which the contractor can give to the chain. -/
theorem choice (hcs : C16.SoundContractors contractors) (hneg : ∀ v k n, (spec v).assigned.lookup k = some n → n ≠ -1)
    (hdur : ∀ v a, 0 < chainDur v a) (before : List Nat) (v : Nat)
    (hall : ∀ u ∈ before ++ [v], ∀ c ∈ contractors, C54.Staffable [c] (spec u) (reqs u)) (hfree : (spec v).assigned = [])
    (hne : contractors ≠ []) :
    ∃ A, assignAll contractors spec reqs chainDur (fun _ => argmax) before = some A ∧
      ∃ (i : Nat) (c : Contractor) (team : List Worker) (counts : List Int) (d : Int), contractors[i]? = some c ∧
        assignAll contractors spec reqs chainDur (fun _ => argmax) (before ++ [v]) =
          some ⟨counts, A.teams ++ [(v, c.id, team)], A.durations ++ [(v, d)]⟩ ∧
        ∀ (j : Nat) c', contractors[j]? = some c' →
          let time := fun k : Contractor => chainDur v ((reqs v).map fun r => min ((k.workers.lookup r.kind).getD 0) r.maxCount)
          d = time c ∧ (time c' ≤ time c → A.works c.id ≤ A.works c'.id) ∧ (A.works c'.id ≤ A.works c.id → time c ≤ time c') ∧
            (time c' = time c → A.works c'.id = A.works c.id → i ≤ j) := by
  have hok : ∀ u ∈ before ++ [v], (∃ l, contractorsAndAmounts (getPool contractors) contractors (spec u) (reqs u) = .ok l) ∧
      ∀ c ∈ contractors, accepted (getPool contractors) (spec u) (reqs u) c = true := by
    intro u hu
    obtain ⟨c₀, hc₀⟩ := List.exists_mem_of_ne_nil _ hne
    obtain ⟨s1, s2, s3, k, hk, s4⟩ := hall u hu c₀ hc₀
    rw [List.mem_singleton] at hk
    subst hk
    refine ⟨(C16.lft_accepts_iff contractors hcs (spec u) (hneg u) (reqs u) s1).mpr ⟨s3, k, hc₀, s4⟩, fun c hc => ?_⟩
    obtain ⟨-, -, -, k, hk, t1, t2⟩ := hall u hu c hc
    rw [List.mem_singleton] at hk
    subst hk
    unfold accepted
    simp only [Bool.and_eq_true, List.all_eq_true, decide_eq_true_eq, List.mem_filter]
    refine ⟨⟨fun r hr => ?_, fun r hr => ?_⟩, ?_⟩
    · obtain ⟨n, hn, hm, -⟩ := t2 r hr
      unfold amount
      rw [getPool_of_mem hcs.1 hcs.2 hc, hn, Option.getD_some]
      exact hm
    · obtain ⟨n, hn, -, hm⟩ := t2 r hr.1
      unfold amount
      rw [getPool_of_mem hcs.1 hcs.2 hc, hn, Option.getD_some]
      have hin := hr.2
      unfold inSpec specAmount at hin
      unfold specAmount
      cases hl : (spec u).assigned.lookup r.kind with
      | none => rw [hl] at hin; simp at hin
      | some m => exact hm m hl
    · unfold WorkSpec.enabled
      simp only [Bool.or_eq_true, List.isEmpty_iff, List.contains_iff_mem]
      exact t1
  have gen : ∀ (l : List Nat), (∀ u ∈ l, u ∈ before ++ [v]) → ∀ A, Counted contractors A →
      ∃ A', l.foldlM (assignWork contractors spec reqs chainDur fun _ => argmax) A = some A' ∧ Counted contractors A' := by
    intro l
    induction l with
    | nil => intro _ A hA; exact ⟨A, rfl, hA⟩
    | cons u us ih =>
      intro hl A hA
      obtain ⟨h1, h2⟩ := hok u (hl u List.mem_cons_self)
      obtain ⟨i, c, n, hi, -, hstep, -⟩ := assignWork_all (chainDur := chainDur) (A := A) hne h1 h2 (fun c _ => hdur u _) hA.length hA.pos
      obtain ⟨A', h3, h4⟩ := ih (fun w hw => hl w (List.mem_cons_of_mem _ hw)) _ (hA.next hcs.1 hi u _ _)
      exact ⟨A', by rw [List.foldlM_cons, hstep]; exact h3, h4⟩
  obtain ⟨A, hA, hcount⟩ := gen before (fun u hu => List.mem_append_left _ hu) ⟨List.replicate contractors.length 1, [], []⟩
    (by
      unfold Counted Assignment.works
      simp [List.map_const'])
  refine ⟨A, hA, ?_⟩
  obtain ⟨h1, h2⟩ := hok v (by simp)
  obtain ⟨i, c, n, hi, hn, hstep, hbest⟩ := assignWork_all (chainDur := chainDur) (A := A) hne h1 h2 (fun c _ => hdur v _) hcount.length
    hcount.pos
  have hval : ∀ (j : Nat) c', contractors[j]? = some c' → A.counts[j]? = some (1 + (A.works c'.id : Int)) := by
    intro j c' hj
    rw [hcount, List.getElem?_map, hj]
    rfl
  have ham : ∀ c ∈ contractors, amounts (getPool contractors) (spec v) (reqs v) c =
      (reqs v).map fun r => min ((c.workers.lookup r.kind).getD 0) r.maxCount := by
    intro c hc
    obtain ⟨-, -, -, k, hk, -, t2⟩ := hall v (by simp) c hc
    rw [List.mem_singleton] at hk
    subst hk
    have hno : ∀ r : WorkerReq, inSpec (spec v) r = false := by
      intro r
      unfold inSpec specAmount
      rw [hfree]
      rfl
    unfold amounts
    split
    · rename_i hall'
      cases hr : reqs v with
      | nil => rfl
      | cons r rs =>
        rw [hr] at hall'
        simp [hno r] at hall'
    · refine List.map_congr_left fun r hr => ?_
      rw [if_neg (by rw [hno r]; decide)]
      obtain ⟨n, hn, -⟩ := t2 r hr
      unfold amount
      rw [getPool_of_mem hcs.1 hcs.2 hc, hn, Option.getD_some, Option.getD_some]
  have hcm : c ∈ contractors := List.mem_of_getElem? hi
  refine ⟨i, c, ((reqs v).zip (amounts (getPool contractors) (spec v) (reqs v) c)).map fun x => ⟨c.id, x.1.kind, x.2⟩,
    A.counts.modify i (· + 1), chainDur v (amounts (getPool contractors) (spec v) (reqs v) c), hi, ?_, fun j c' hj => ?_⟩
  · unfold assignAll
    rw [List.foldlM_append, hA]
    simp only [Option.bind_eq_bind, Option.bind_some, List.foldlM_cons, List.foldlM_nil]
    rw [hstep]
    rfl
  · have hcm' : c' ∈ contractors := List.mem_of_getElem? hj
    obtain ⟨b1, b2, b3⟩ := hbest j c' _ hj (hval j c' hj)
    rw [hval i c hi, Option.some.injEq] at hn
    rw [ham c hcm, ham c' hcm'] at b1 b2 b3
    dsimp only
    refine ⟨by rw [ham c hcm], fun h => ?_, fun h => ?_, fun h h' => ?_⟩
    · by_contra hlt
      exact b1 ⟨h, by omega⟩
    · by_contra hlt
      exact b2 ⟨by omega, by omega⟩
    · by_contra hlt
      exact b3 (by omega) (by omega) (by omega)

private theorem lt_sum_of_two {xs : List Int} (h0 : ∀ x ∈ xs, 0 < x) (h2 : 1 < xs.length) : ∀ x ∈ xs, x < xs.sum := by
  have hle : ∀ (xs : List Int), (∀ x ∈ xs, 0 < x) → ∀ x ∈ xs, x ≤ xs.sum := fun xs hx x hm =>
    List.single_le_sum (fun y hy => (hx y hy).le) x hm
  match xs, h2 with
  | a :: b :: r, _ =>
    intro x hx
    have hb := hle (b :: r) (fun y hy => h0 y (List.mem_cons_of_mem _ hy))
    rw [List.sum_cons]
    rcases List.mem_cons.mp hx with rfl | hx
    · have := hb b List.mem_cons_self
      have := h0 b (by simp)
      omega
    · have := hb x hx
      have := h0 a (by simp)
      omega

private theorem counts_pos (heads : List Nat) (A A' : Assignment) (hA : ∀ n ∈ A.counts, 0 < n)
    (h : heads.foldlM (assignWork contractors spec reqs chainDur pick) A = some A') : ∀ n ∈ A'.counts, 0 < n := by
  induction heads generalizing A with
  | nil =>
    simp only [List.foldlM_nil, Option.pure_def, Option.some.injEq] at h
    rw [← h]
    exact hA
  | cons v vs ih =>
    rw [List.foldlM_cons, Option.bind_eq_bind, Option.bind_eq_some_iff] at h
    obtain ⟨A₁, h₁, h⟩ := h
    obtain ⟨l, i, ca, -, -, -, hA₁⟩ := assignWork_some h₁
    refine ih A₁ ?_ h
    intro n hn
    rw [hA₁] at hn
    obtain ⟨j, hj⟩ := List.mem_iff_getElem?.mp hn
    rw [List.getElem?_modify, Option.map_eq_map, Option.map_eq_some_iff] at hj
    obtain ⟨m, hm, rfl⟩ := hj
    have := hA m (List.mem_of_getElem? hm)
    split <;> omega

/-- Randomized LFT draws with the scores as weights; whenever more than one contractor is accepted, every weight is positive, as
`random.choices` needs it, whatever was drawn before. -/
theorem random_weights_positive (hdur : ∀ v a, 0 < chainDur v a) (before : List Nat) (A : Assignment)
    (hA : assignAll contractors spec reqs chainDur pick before = some A) (v : Nat) :
    ∀ l, contractorsAndAmounts (getPool contractors) contractors (spec v) (reqs v) = .ok l → 1 < l.length →
    ∀ s ∈ scores (l.map fun ca => chainDur v ca.2)
      (((A.counts.zip (contractors.map (accepted (getPool contractors) (spec v) (reqs v)))).filter (·.2)).map (·.1)) A.counts.sum,
      0 < s := by
  intro l _ h2
  have hpos : ∀ n ∈ A.counts, 0 < n := counts_pos before _ A (by simp) hA
  intro s hs
  unfold scores at hs
  obtain ⟨j, hj⟩ := List.mem_iff_getElem?.mp hs
  rw [List.getElem?_zipWith] at hj
  split at hj
  · rename_i d n hd hn
    simp only [Option.some.injEq] at hj
    have hnm := List.mem_of_getElem? hn
    simp only [List.mem_map, List.mem_filter] at hnm
    obtain ⟨⟨n', b⟩, ⟨hz, -⟩, rfl⟩ := hnm
    have hn' : n' ∈ A.counts := (List.of_mem_zip hz).1
    have hle : ∀ (xs : List Int), (∀ x ∈ xs, 0 < x) → ∀ x ∈ xs, x ≤ xs.sum := by
      intro xs hx x hm
      exact List.single_le_sum (fun y hy => (hx y hy).le) x hm
    have c1 : n' ≤ A.counts.sum := hle _ hpos n' hn'
    have c0 : 0 < n' := hpos n' hn'
    have hd0 : ∀ x ∈ l.map (fun ca => chainDur v ca.2), 0 < x := by
      simp only [List.mem_map]
      rintro _ ⟨ca, -, rfl⟩
      exact hdur _ _
    have d1 : d < (l.map fun ca => chainDur v ca.2).sum :=
      lt_sum_of_two hd0 (by rw [List.length_map]; exact h2) d (List.mem_of_getElem? hd)
    have d0 : 0 < d := hd0 d (List.mem_of_getElem? hd)
    generalize (l.map fun ca => chainDur v ca.2).sum = S at hj d1
    generalize A.counts.sum = T at hj c1
    have e1 : (d : ℚ) / (S : ℤ) < 1 := by
      rw [div_lt_one (by exact_mod_cast (by omega : (0 : Int) < S))]
      exact_mod_cast d1
    have e2 : (n' : ℚ) / (T : ℤ) ≤ 1 := by
      rw [div_le_one (by exact_mod_cast (by omega : (0 : Int) < T))]
      exact_mod_cast c1
    rw [← hj]
    linarith
  · cases hj

/-! ### Complete schedules -/

private theorem mem_of_lookup {β : Type} {l : List (Nat × β)} {k : Nat} {b : β} (h : l.lookup k = some b) : (k, b) ∈ l := by
  induction l with
  | nil => cases h
  | cons x xs ih =>
    obtain ⟨a, c⟩ := x
    rw [List.lookup_cons] at h
    cases hk : k == a with
    | true =>
      rw [hk] at h
      simp only [Option.some.injEq] at h
      rw [beq_iff_eq] at hk
      subst hk h
      exact List.mem_cons_self
    | false =>
      rw [hk] at h
      exact List.mem_cons_of_mem _ (ih h)

private theorem lookup_of_mem {β : Type} {l : List (Nat × β)} (hn : (l.map (·.1)).Nodup) {x : Nat × β} (h : x ∈ l) :
    l.lookup x.1 = some x.2 := by
  induction l with
  | nil => cases h
  | cons y ys ih =>
    rw [List.map_cons, List.nodup_cons] at hn
    rcases List.mem_cons.mp h with rfl | h'
    · obtain ⟨a, b⟩ := x
      simp
    · have : x.1 ≠ y.1 := fun he => hn.1 (by rw [← he]; exact List.mem_map_of_mem h')
      obtain ⟨a, b⟩ := y
      rw [List.lookup_cons, beq_false_of_ne this]
      exact ih hn.2 h'

private theorem works_eq {A : Assignment} (hn : (A.teams.map (·.1)).Nodup) (c : Nat) :
    ((A.teams.map (·.1)).filter fun v => (A.teams.lookup v).map (·.1) = some c).length = A.works c := by
  unfold Assignment.works
  rw [List.filter_map, List.length_map]
  congr 1
  refine List.filter_congr fun x hx => ?_
  show decide ((A.teams.lookup x.1).map (·.1) = some c) = decide (x.2.1 = c)
  rw [lookup_of_mem hn hx]
  simp

variable {g : Graph} {nodes : List Nat}

private theorem prepared (hw : WorkGraph g nodes) (hac : Acyclic (g.HeadDependsOn nodes)) (site : Env σ)
    (hest : ∀ v team, 0 ≤ site.estimate v team) (nobody : Nat) (hcs : C16.SoundContractors contractors)
    (hneg : ∀ v k n, (spec v).assigned.lookup k = some n → n ≠ -1) (prio : Nat → Int) (hprio : PrioritiesAgree prio g nodes)
    (hstaff : ∀ v, C54.Staffable contractors (spec v) (reqs v)) :
    ∃ heads par chi A order, Heads.collapse g nodes = some (heads, par, chi) ∧ heads.Nodup ∧ (∀ v, v ∈ heads ↔ g.IsHead nodes v) ∧
      assignAll contractors spec reqs (chainDuration (onGraph site g nodes) nobody reqs) (fun _ => argmax) heads = some A ∧
      A.teams.map (·.1) = heads ∧
      prioritize (fun v => (A.durations.lookup v).getD 0) prio (fun v => (chi.lookup v).getD []) heads = order ∧
      orderWorks (lftRule (fun v => (A.durations.lookup v).getD 0) prio) g nodes = some order ∧
      C89.GivesGoodOrders (lftRule (fun v => (A.durations.lookup v).getD 0) prio) g nodes ∧
      (∀ v team k, A.teams.lookup v = some (k, team) → Staffs contractors spec reqs v team k) ∧
      ∀ v ∈ order, ∃ team k, A.teams.lookup v = some (k, team) := by
  cases hc : Heads.collapse g nodes with
  | none => exact absurd hac ((C22.error_iff_chain_cycle hw).1 hc)
  | some c =>
    obtain ⟨heads, par, chi⟩ := c
    obtain ⟨c1, c2, -⟩ := C22.collapse_preserves_dependencies hw hc
    obtain ⟨A, hA, -, ts, ds, h1, h2, h3, h4, h5, h6⟩ := run (chainDur := chainDuration (onGraph site g nodes) nobody reqs) hcs hneg
      (fun v => (hstaff v).1) (pick := fun _ => argmax) (fun _ => argmax_lt) heads (fun v _ => hstaff v)
      ⟨List.replicate contractors.length 1, [], []⟩ (by simp)
    rw [List.nil_append] at h1 h2
    have hd : ∀ v, 0 ≤ (A.durations.lookup v).getD 0 := by
      intro v
      cases hl : A.durations.lookup v with
      | none => exact Int.le_refl _
      | some d =>
        have hm := mem_of_lookup hl
        rw [h2] at hm
        obtain ⟨a, ha⟩ := h6 _ hm
        simp only [Option.getD_some]
        rw [show d = (v, d).2 from rfl, ha]
        exact (chainDuration_pos (E := onGraph site g nodes) hest nobody reqs v a).le
    have horder : orderWorks (lftRule (fun v => (A.durations.lookup v).getD 0) prio) g nodes =
        some (prioritize (fun v => (A.durations.lookup v).getD 0) prio (fun v => (chi.lookup v).getD []) heads) := by
      simp only [orderWorks, hc, lftRule, Option.bind_some]
    have hrule := C89.lft_order hw (fun v => (A.durations.lookup v).getD 0) hd prio hprio
    refine ⟨heads, par, chi, A, _, rfl, c1, c2, hA, by rw [h1, h3], rfl, horder, hrule, fun v team k h => ?_, fun v hv => ?_⟩
    · exact h5 _ (by rw [← h1]; exact mem_of_lookup h)
    · have hvh : v ∈ A.teams.map (·.1) := by
        rw [h1, h3, c2]
        exact ((hrule _ horder).2.1 v).1 hv
      rw [List.mem_map] at hvh
      obtain ⟨x, hx, rfl⟩ := hvh
      exact ⟨x.2.2, x.2.1, lookup_of_mem (by rw [h1, h3]; exact c1) hx⟩

private theorem plan_choose {A : Assignment} {S : Type} {independent : Nat → Bool} {parentTime : Int} {st : S} {v k : Nat}
    {team : List Worker} : (A.plan S independent parentTime).choose st v = some (team, k) ↔ A.teams.lookup v = some (k, team) := by
  change (A.teams.lookup v).map (fun x => (x.2, x.1)) = _ ↔ _
  rw [Option.map_eq_some_iff]
  constructor
  · rintro ⟨⟨a, b⟩, h, he⟩
    simp only [Prod.mk.injEq] at he
    rw [h, he.1, he.2]
  · intro h
    exact ⟨_, h, rfl⟩

private theorem whole (hw : WorkGraph g nodes) (hdep : OnlyDependencies g)
    (hpos : ∀ v, ∀ e ∈ g.edgesTo v, e.type = .inseparable → 0 ≤ e.lag) (hac : Acyclic (g.HeadDependsOn nodes)) (site : Env σ)
    (hsite : NoSiteLimits site) (hest : ∀ v team, 0 ≤ site.estimate v team) (nobody : Nat) (hcs : C16.SoundContractors contractors)
    (hneg : ∀ v k n, (spec v).assigned.lookup k = some n → n ≠ -1) (prio : Nat → Int) (hprio : PrioritiesAgree prio g nodes)
    (independent : Nat → Bool) (parentTime : Int) (hP : 0 ≤ parentTime) (env : σ)
    (hstaff : ∀ v, C54.Staffable contractors (spec v) (reqs v)) :
    ∃ heads A st, heads.Nodup ∧ (∀ v, v ∈ heads ↔ g.IsHead nodes v) ∧
      assignAll contractors spec reqs (chainDuration (onGraph site g nodes) nobody reqs) (fun _ => argmax) heads = some A ∧
      A.teams.map (·.1) = heads ∧
      (∀ fuel, 1 ≤ fuel →
        LFT.schedule site nobody g nodes contractors spec reqs prio independent parentTime env fuel = some (some st)) ∧
      Feasible g nodes (agents contractors) (Staffs contractors spec reqs) st.sched ∧
      Feasible g nodes (agents contractors) (fun v team c => A.teams.lookup v = some (c, team)) st.sched := by
  obtain ⟨heads, par, chi, A, order, hc, c1, c2, hA, hk, hor, horder, hrule, hst, hteams⟩ := prepared hw hac site hest nobody hcs hneg prio hprio
    hstaff
  obtain ⟨e1, e2, e3⟩ := expand hw hdep site (hrule _ horder)
  have hok := staffs_ok (spec := spec) hcs (fun v => (hstaff v).1) fun v => (hstaff v).2.1
  obtain ⟨st, hb, -⟩ := C54.jit_delivers (onGraph site g nodes) (noSite hsite) (chainEdges site hpos)
    (A.plan (JIT.State σ) independent parentTime) (agents contractors) env order hest (fun v ts h => by simp [Assignment.plan] at h)
    (fun v => Expand.head_mem_chain v) hP (fun st v hv => by
      obtain ⟨team, k, h⟩ := hteams v hv
      exact ⟨team, k, plan_choose.2 h⟩)
    (fun st v team k h => hok v team k (hst v team k (plan_choose.1 h))) e2
  have hs : ∀ fuel, 1 ≤ fuel → scheduleJIT site (lftRule (fun v => (A.durations.lookup v).getD 0) prio) g nodes
      (A.plan _ independent parentTime) (agents contractors) env fuel = some (some st) := by
    intro fuel hf
    simp only [scheduleJIT, horder]
    exact hb fuel hf
  refine ⟨heads, A, st, c1, c2, hA, hk, fun fuel hf => ?_, ?_, ?_⟩
  · unfold LFT.schedule
    dsimp only
    rw [hc]
    dsimp only
    rw [hA]
    dsimp only
    rw [hor]
    exact hb fuel hf
  · exact C89.jit_feasible hw hdep site hest _ hrule _ (fun v ts hv => by simp [Assignment.plan] at hv) hP _ _
      hok (fun s v team k h => hst v team k (plan_choose.1 h)) env 1 st (hs 1 (Nat.le_refl _))
  · exact C89.jit_feasible hw hdep site hest _ hrule _ (fun v ts hv => by simp [Assignment.plan] at hv) hP _ _
      (fun v team k h => hok v team k (hst v team k h)) (fun s v team k h => plan_choose.1 h) env 1 st (hs 1 (Nat.le_refl _))

private theorem whole_momentum (hw : WorkGraph g nodes) (hdep : OnlyDependencies g)
    (hchlag : ∀ k v, ∀ e ∈ g.edgesTo v, g.InChain k v → g.InChain k e.start → e.lag ≤ 0) (hac : Acyclic (g.HeadDependsOn nodes))
    (site : Env σ) (hsite : NoSiteLimits site) (L D : Int) (hL : 0 ≤ L) (hD : 0 ≤ D)
    (hest : ∀ v team, 0 ≤ site.estimate v team ∧ site.estimate v team ≤ D) (hlag : ∀ v, ∀ e ∈ g.edgesTo v, e.lag ≤ L) (nobody : Nat)
    (hcs : C16.SoundContractors contractors) (hneg : ∀ v k n, (spec v).assigned.lookup k = some n → n ≠ -1) (prio : Nat → Int)
    (hprio : PrioritiesAgree prio g nodes) (independent : Nat → Bool) (parentTime inf : Int) (hP : 0 ≤ parentTime)
    (hhor : parentTime + nodes.length * (L + D) + L ≤ inf) (env : σ)
    (hkinds : ∀ v, site.kinds v = (reqs v).map (·.kind)) (hserv : ∀ v, reqs v ≠ [] → site.service v = false)
    (hsame : ∀ k v, g.InChain k v → site.kinds v = site.kinds k ∨ site.kinds v = [])
    (hstaff : ∀ v, C54.Staffable contractors (spec v) (reqs v)) :
    ∃ heads A N st, heads.Nodup ∧ (∀ v, v ∈ heads ↔ g.IsHead nodes v) ∧
      assignAll contractors spec reqs (chainDuration (onGraph site g nodes) nobody reqs) (fun _ => argmax) heads = some A ∧
      A.teams.map (·.1) = heads ∧
      (∀ fuelIn fuel, N ≤ fuelIn → 1 ≤ fuel → LFT.scheduleMomentum site nobody g nodes contractors spec reqs prio independent parentTime env
        inf fuelIn fuel = some (some st)) ∧
      (Feasible g nodes (agents contractors) (Staffs contractors spec reqs) st.sched ∧
        ∀ v x, st.sched.get v = some x → parentTime ≤ x.start) ∧
      Feasible g nodes (agents contractors) (fun v team c => A.teams.lookup v = some (c, team)) st.sched := by
  obtain ⟨heads, par, chi, A, order, hc, c1, c2, hA, hk, hor, horder, hrule, hst, hteams⟩ := prepared hw hac site (fun v t => (hest v t).1) nobody
    hcs hneg prio hprio hstaff
  have ho := hrule _ horder
  obtain ⟨e1, e2, e3⟩ := expand hw hdep site ho
  have hok := staffs_ok (spec := spec) hcs (fun v => (hstaff v).1) fun v => (hstaff v).2.1
  have hlen : (order.flatMap (onGraph site g nodes).chain).length = nodes.length := List.Perm.length_eq e1
  have hpos : 0 ≤ (nodes.length : Int) * (L + D) := Int.mul_nonneg (by omega) (by omega)
  have hfits : ∀ (st : Momentum.State σ), ∀ v ∈ order, ∃ team c,
      (A.plan (Momentum.State σ) independent parentTime).choose st v = some (team, c) ∧
        Momentum.Fits (onGraph site g nodes) (agents contractors) v team := by
    intro st v hv
    obtain ⟨team, k, h⟩ := hteams v hv
    obtain ⟨c, hcm, -, -, hm⟩ := hst v team k h
    obtain ⟨h1, h2⟩ := hok v team k (hst v team k h)
    obtain ⟨h3, h4⟩ := meets_names hm
    have hhead := (ho.2.1 v).1 hv
    refine ⟨team, k, plan_choose.2 h, h1, h2, fun w hw w' hw' => by rw [h4 w hw, h4 w' hw'], fun hne => ?_⟩
    have hk : site.kinds v = team.map (·.name) := by rw [hkinds, h3]
    refine ⟨Expand.chain_head hhead, hk, hserv v fun he => hne ?_, fun u hu => ?_⟩
    · have := congrArg List.length h3
      rw [he] at this
      simpa using this
    · have hin := (Heads.mem_chain hw.ok hhead).1 hu
      rw [← hk]
      exact hsame v u hin
  obtain ⟨N, st, hb, h⟩ := Momentum.buildFrom_some_before (E := onGraph site g nodes) (inf := inf) (first := true)
    (st := ⟨Momentum.init (agents contractors), env, []⟩) (M := parentTime) (noSite hsite) (fun v team => (hest v team).1)
    hP hL hD (fun v team => (hest v team).2)
    (fun v e he => by
      simp only [onGraph, List.mem_map] at he
      obtain ⟨e, he, rfl⟩ := he
      exact hlag v e he)
    (fun v _ => rfl)
    (fun v hv => by rw [List.nodup_flatMap] at e3; exact e3.1 v hv) (fun v => Expand.head_mem_chain v) hfits
    ⟨by
      intro a q hq r hr
      simp only [Momentum.init, Option.map_eq_some_iff] at hq
      obtain ⟨c, _, rfl⟩ := hq
      simp at hr
      subst hr
      exact hP, by simp⟩ (Int.le_refl _) (.inl ⟨rfl, .fresh⟩)
  have hs : ∀ fuelIn fuel, N ≤ fuelIn → 1 ≤ fuel → Scheduler.scheduleMomentum site (lftRule (fun v => (A.durations.lookup v).getD 0) prio) g
      nodes (A.plan _ independent parentTime) (agents contractors) env inf fuelIn fuel = some (some st) := by
    intro fuelIn fuel hN hf
    obtain ⟨n, rfl⟩ : ∃ n, fuel = n + 1 := ⟨fuel - 1, by omega⟩
    simp only [Scheduler.scheduleMomentum, horder]
    exact h fuelIn n hN
  rw [hlen] at hb
  have hrange : ∀ x ∈ st.sched, ∀ v, ∀ e ∈ g.edgesTo v, e.start = x.1 → x.2.finish + e.lag ≤ inf := by
    intro x hx v e he _
    have := hb.2 x hx
    have := hlag v e he
    omega
  refine ⟨heads, A, N, st, c1, c2, hA, hk, fun fuelIn fuel hN hf => ?_, ?_, ?_⟩
  · obtain ⟨n, rfl⟩ : ∃ n, fuel = n + 1 := ⟨fuel - 1, by omega⟩
    unfold LFT.scheduleMomentum
    dsimp only
    rw [hc]
    dsimp only
    rw [hA]
    dsimp only
    rw [hor]
    exact h fuelIn n hN
  · exact C89.momentum_feasible_partial hw hdep site (fun v team => (hest v team).1) _ hrule hchlag _ (fun v => rfl) inf hP
      (show parentTime ≤ inf by omega) _ _ (fun v team k h => (hok v team k h).1) (fun s v team k h => hst v team k (plan_choose.1 h)) env N 1 st
      (hs N 1 (Nat.le_refl _) (Nat.le_refl _)) hrange
  · exact (C89.momentum_feasible_partial hw hdep site (fun v team => (hest v team).1) _ hrule hchlag _ (fun v => rfl) inf hP
      (show parentTime ≤ inf by omega) _ _ (fun v team k h => (hok v team k (hst v team k h)).1) (fun s v team k h => plan_choose.1 h) env N 1 st
      (hs N 1 (Nat.le_refl _) (Nat.le_refl _)) hrange).1

/-- The LFT scheduler as a whole, with its own choice of contractors: every work graph without cycles through chains, whose works can
be staffed, gets a valid schedule. -/
theorem schedules (hw : WorkGraph g nodes) (hdep : OnlyDependencies g)
    (hpos : ∀ v, ∀ e ∈ g.edgesTo v, e.type = .inseparable → 0 ≤ e.lag) (hac : Acyclic (g.HeadDependsOn nodes)) (site : Env σ)
    (hsite : NoSiteLimits site) (hest : ∀ v team, 0 ≤ site.estimate v team) (nobody : Nat) (hcs : C16.SoundContractors contractors)
    (hneg : ∀ v k n, (spec v).assigned.lookup k = some n → n ≠ -1) (prio : Nat → Int) (hprio : PrioritiesAgree prio g nodes)
    (independent : Nat → Bool) (parentTime : Int) (hP : 0 ≤ parentTime) (env : σ)
    (hstaff : ∀ v, C54.Staffable contractors (spec v) (reqs v)) :
    ∃ st, (∀ fuel, 1 ≤ fuel →
        LFT.schedule site nobody g nodes contractors spec reqs prio independent parentTime env fuel = some (some st)) ∧
      Feasible g nodes (agents contractors) (Staffs contractors spec reqs) st.sched := by
  obtain ⟨-, -, st, -, -, -, -, h1, h2, -⟩ := whole hw hdep hpos hac site hsite hest nobody hcs hneg prio hprio independent parentTime hP
    env hstaff
  exact ⟨st, h1, h2⟩

/-- The LFT scheduler raises an exception, on both timelines, if there is a cycle through chains or the first work of some chain cannot be
staffed; it does not return a schedule with wrong teams. -/
theorem refuses (hw : WorkGraph g nodes) (site : Env σ) (nobody : Nat) (hcs : C16.SoundContractors contractors)
    (hneg : ∀ v k n, (spec v).assigned.lookup k = some n → n ≠ -1) (hreqs : ∀ v, C16.SoundReqs (reqs v) ∧ ((reqs v).map (·.kind)).Nodup)
    (prio : Nat → Int) (independent : Nat → Bool) (parentTime : Int) (env : σ)
    (h : ¬ Acyclic (g.HeadDependsOn nodes) ∨ ∃ v, g.IsHead nodes v ∧ ¬ C54.Staffable contractors (spec v) (reqs v)) :
    (∀ fuel, LFT.schedule site nobody g nodes contractors spec reqs prio independent parentTime env fuel = some none) ∧
    ∀ inf fuelIn fuel, LFT.scheduleMomentum site nobody g nodes contractors spec reqs prio independent parentTime env inf fuelIn fuel =
      some none := by
  cases hc : Heads.collapse g nodes with
  | none => exact ⟨fun _ => by simp [LFT.schedule, hc], fun _ _ _ => by simp [LFT.scheduleMomentum, hc]⟩
  | some c =>
    obtain ⟨heads, par, chi⟩ := c
    have hac : Acyclic (g.HeadDependsOn nodes) := by
      by_contra hn
      rw [(C22.error_iff_chain_cycle hw).2 hn] at hc
      cases hc
    obtain ⟨v, hv, hs⟩ := h.resolve_left (not_not_intro hac)
    have hvm : v ∈ heads := ((C22.collapse_preserves_dependencies hw hc).2.1 v).2 hv
    have herr : ∀ A, assignWork contractors spec reqs (chainDuration (onGraph site g nodes) nobody reqs) (fun _ => argmax) A v = none := by
      intro A
      unfold assignWork
      cases hl : contractorsAndAmounts (getPool contractors) contractors (spec v) (reqs v) with
      | error e => rfl
      | ok l =>
        obtain ⟨h3, h4⟩ := (C16.lft_accepts_iff contractors hcs (spec v) (hneg v) (reqs v) (hreqs v).1).1 ⟨l, hl⟩
        exact absurd ⟨(hreqs v).1, (hreqs v).2, h3, h4⟩ hs
    have hA : assignAll contractors spec reqs (chainDuration (onGraph site g nodes) nobody reqs) (fun _ => argmax) heads = none := by
      obtain ⟨a, b, rfl⟩ := List.append_of_mem hvm
      unfold assignAll
      rw [List.foldlM_append]
      cases List.foldlM (assignWork contractors spec reqs (chainDuration (onGraph site g nodes) nobody reqs) fun _ => argmax)
          (⟨List.replicate contractors.length 1, [], []⟩ : Assignment) a with
      | none => rfl
      | some A =>
        show List.foldlM _ A (v :: b) = none
        rw [List.foldlM_cons, herr]
        rfl
    exact ⟨fun _ => by simp [LFT.schedule, hc, hA], fun _ _ _ => by simp [LFT.scheduleMomentum, hc, hA]⟩

/-- The same on the momentum timeline, the default of LFT: if moreover the works of a chain ask for the same worker types as its head
(or for none), lags inside chains are not positive and the project surely ends before infinity. -/
theorem schedules_momentum (hw : WorkGraph g nodes) (hdep : OnlyDependencies g)
    (hchlag : ∀ k v, ∀ e ∈ g.edgesTo v, g.InChain k v → g.InChain k e.start → e.lag ≤ 0) (hac : Acyclic (g.HeadDependsOn nodes))
    (site : Env σ) (hsite : NoSiteLimits site) (L D : Int) (hL : 0 ≤ L) (hD : 0 ≤ D)
    (hest : ∀ v team, 0 ≤ site.estimate v team ∧ site.estimate v team ≤ D) (hlag : ∀ v, ∀ e ∈ g.edgesTo v, e.lag ≤ L) (nobody : Nat)
    (hcs : C16.SoundContractors contractors) (hneg : ∀ v k n, (spec v).assigned.lookup k = some n → n ≠ -1) (prio : Nat → Int)
    (hprio : PrioritiesAgree prio g nodes) (independent : Nat → Bool) (parentTime inf : Int) (hP : 0 ≤ parentTime)
    (hhor : parentTime + nodes.length * (L + D) + L ≤ inf) (env : σ)
    (hkinds : ∀ v, site.kinds v = (reqs v).map (·.kind)) (hserv : ∀ v, reqs v ≠ [] → site.service v = false)
    (hsame : ∀ k v, g.InChain k v → site.kinds v = site.kinds k ∨ site.kinds v = [])
    (hstaff : ∀ v, C54.Staffable contractors (spec v) (reqs v)) :
    ∃ N st, (∀ fuelIn fuel, N ≤ fuelIn → 1 ≤ fuel → LFT.scheduleMomentum site nobody g nodes contractors spec reqs prio independent
        parentTime env inf fuelIn fuel = some (some st)) ∧
      Feasible g nodes (agents contractors) (Staffs contractors spec reqs) st.sched ∧
      ∀ v x, st.sched.get v = some x → parentTime ≤ x.start := by
  obtain ⟨-, -, N, st, -, -, -, -, h1, h2, -⟩ := whole_momentum hw hdep hchlag hac site hsite L D hL hD hest hlag nobody hcs hneg prio hprio
    independent parentTime inf hP hhor env hkinds hserv hsame hstaff
  exact ⟨N, st, h1, h2⟩

private theorem even_of (hw : WorkGraph g nodes) (site : Env σ) (hest : ∀ v team, 0 ≤ site.estimate v team) (nobody : Nat)
    (hcs : C16.SoundContractors contractors) (hneg : ∀ v k n, (spec v).assigned.lookup k = some n → n ≠ -1)
    (hstaff : ∀ v, C54.Staffable contractors (spec v) (reqs v)) (hfull : ∀ v, FullyEquipped contractors (spec v) (reqs v))
    (heads : List Nat) (hnd : heads.Nodup) (hheads : ∀ v, v ∈ heads ↔ g.IsHead nodes v) {heads' : List Nat} {A : Assignment} {sw : Sched}
    (n1 : heads'.Nodup) (n2 : ∀ v, v ∈ heads' ↔ g.IsHead nodes v)
    (hA : assignAll contractors spec reqs (chainDuration (onGraph site g nodes) nobody reqs) (fun _ => argmax) heads' = some A)
    (hk : A.teams.map (·.1) = heads')
    (h2 : Feasible g nodes (agents contractors) (fun v team c => A.teams.lookup v = some (c, team)) sw) :
    ∀ c ∈ contractors, ∀ c' ∈ contractors, doneBy sw heads c.id ≤ doneBy sw heads c'.id + 1 := by
  intro c hc c' hc'
  obtain ⟨A', hA', he⟩ := even (chainDur := chainDuration (onGraph site g nodes) nobody reqs) hcs (List.ne_nil_of_mem hc) hneg
    (fun v => (hstaff v).1) (chainDuration_pos (E := onGraph site g nodes) hest nobody reqs) heads' (fun v _ => (hstaff v).2.2.1) (fun v _ => hfull v)
  rw [hA, Option.some.injEq] at hA'
  subst hA'
  have hperm : heads.Perm heads' := (List.perm_ext_iff_of_nodup hnd n1).mpr fun v => by rw [hheads, n2]
  have key : ∀ k, doneBy sw heads k = A.works k := by
    intro k
    rw [← works_eq (by rw [hk]; exact n1), hk]
    unfold doneBy
    rw [(hperm.filter _).length_eq]
    congr 1
    refine List.filter_congr fun v hv => ?_
    have hin : g.InChain v v := by
      have := (Heads.mem_chain hw.ok ((n2 v).1 hv)).1 (Expand.head_mem_chain v)
      exact this
    obtain ⟨x, hx, hl⟩ := h2.staffed v v ((n2 v).1 hv) hin
    rw [hx, hl]
    simp
  rw [key, key]
  exact he c hc c' hc'

/-- In the schedule of LFT, any two contractors that can do everything as well as the others do the same number of chains, up to one. -/
theorem schedule_even (hw : WorkGraph g nodes) (hdep : OnlyDependencies g)
    (hpos : ∀ v, ∀ e ∈ g.edgesTo v, e.type = .inseparable → 0 ≤ e.lag) (hac : Acyclic (g.HeadDependsOn nodes)) (site : Env σ)
    (hsite : NoSiteLimits site) (hest : ∀ v team, 0 ≤ site.estimate v team) (nobody : Nat) (hcs : C16.SoundContractors contractors)
    (hneg : ∀ v k n, (spec v).assigned.lookup k = some n → n ≠ -1) (prio : Nat → Int) (hprio : PrioritiesAgree prio g nodes)
    (independent : Nat → Bool) (parentTime : Int) (hP : 0 ≤ parentTime) (env : σ)
    (hstaff : ∀ v, C54.Staffable contractors (spec v) (reqs v)) (hfull : ∀ v, FullyEquipped contractors (spec v) (reqs v))
    (heads : List Nat) (hnd : heads.Nodup) (hheads : ∀ v, v ∈ heads ↔ g.IsHead nodes v) :
    ∃ st, (∀ fuel, 1 ≤ fuel →
        LFT.schedule site nobody g nodes contractors spec reqs prio independent parentTime env fuel = some (some st)) ∧
      ∀ c ∈ contractors, ∀ c' ∈ contractors, doneBy st.sched heads c.id ≤ doneBy st.sched heads c'.id + 1 := by
  obtain ⟨heads', A, st, n1, n2, hA, hk, h1, -, h2⟩ := whole hw hdep hpos hac site hsite hest nobody hcs hneg prio hprio independent
    parentTime hP env hstaff
  exact ⟨st, h1, even_of hw site hest nobody hcs hneg hstaff hfull heads hnd hheads n1 n2 hA hk h2⟩

/-- The same on the momentum timeline. -/
theorem schedule_even_momentum (hw : WorkGraph g nodes) (hdep : OnlyDependencies g)
    (hchlag : ∀ k v, ∀ e ∈ g.edgesTo v, g.InChain k v → g.InChain k e.start → e.lag ≤ 0) (hac : Acyclic (g.HeadDependsOn nodes))
    (site : Env σ) (hsite : NoSiteLimits site) (L D : Int) (hL : 0 ≤ L) (hD : 0 ≤ D)
    (hest : ∀ v team, 0 ≤ site.estimate v team ∧ site.estimate v team ≤ D) (hlag : ∀ v, ∀ e ∈ g.edgesTo v, e.lag ≤ L) (nobody : Nat)
    (hcs : C16.SoundContractors contractors) (hneg : ∀ v k n, (spec v).assigned.lookup k = some n → n ≠ -1) (prio : Nat → Int)
    (hprio : PrioritiesAgree prio g nodes) (independent : Nat → Bool) (parentTime inf : Int) (hP : 0 ≤ parentTime)
    (hhor : parentTime + nodes.length * (L + D) + L ≤ inf) (env : σ)
    (hkinds : ∀ v, site.kinds v = (reqs v).map (·.kind)) (hserv : ∀ v, reqs v ≠ [] → site.service v = false)
    (hsame : ∀ k v, g.InChain k v → site.kinds v = site.kinds k ∨ site.kinds v = [])
    (hstaff : ∀ v, C54.Staffable contractors (spec v) (reqs v)) (hfull : ∀ v, FullyEquipped contractors (spec v) (reqs v))
    (heads : List Nat) (hnd : heads.Nodup) (hheads : ∀ v, v ∈ heads ↔ g.IsHead nodes v) :
    ∃ N st, (∀ fuelIn fuel, N ≤ fuelIn → 1 ≤ fuel → LFT.scheduleMomentum site nobody g nodes contractors spec reqs prio independent
        parentTime env inf fuelIn fuel = some (some st)) ∧
      ∀ c ∈ contractors, ∀ c' ∈ contractors, doneBy st.sched heads c.id ≤ doneBy st.sched heads c'.id + 1 := by
  obtain ⟨heads', A, N, st, n1, n2, hA, hk, h1, -, h2⟩ := whole_momentum hw hdep hchlag hac site hsite L D hL hD hest hlag nobody hcs hneg prio
    hprio independent parentTime inf hP hhor env hkinds hserv hsame hstaff
  exact ⟨N, st, h1, even_of hw site (fun v t => (hest v t).1) nobody hcs hneg hstaff hfull heads hnd hheads n1 n2 hA hk h2⟩

/-! ### Contractors that are not accepted for all works -/

private def twoContractors : List Contractor := [⟨1, [(0, 5)]⟩, ⟨2, [(0, 5), (1, 5)]⟩]

/-- The first `n` works need workers of type 1, which only contractor 2 has; the others need type 0. -/
private def splitReqs (n : Nat) (v : Nat) : List WorkerReq := if v < n then [⟨1, 1, 5⟩] else [⟨0, 1, 5⟩]

private theorem split_run (n k : Nat) (hk : k ≤ 2 * n) :
    ∃ A, assignAll twoContractors (fun _ => {}) (splitReqs n) (fun _ _ => 1) (fun _ => argmax) (List.range k) = some A ∧
      A.counts = [((1 + min k n : Nat) : Int), ((1 + (k - n) : Nat) : Int)] ∧ A.works 1 = 0 ∧ A.works 2 = k := by
  induction k with
  | zero => exact ⟨_, rfl, by simp [twoContractors], rfl, rfl⟩
  | succ k ih =>
    obtain ⟨A, h1, h2, h3, h4⟩ := ih (by omega)
    have hnext : ∀ A', assignWork twoContractors (fun _ => {}) (splitReqs n) (fun _ _ => 1) (fun _ => argmax) A k = some A' →
        assignAll twoContractors (fun _ => {}) (splitReqs n) (fun _ _ => 1) (fun _ => argmax) (List.range (k + 1)) = some A' := by
      intro A' h
      unfold assignAll at h1 ⊢
      rw [List.range_succ, List.foldlM_append, h1]
      simp only [Option.bind_eq_bind, Option.bind_some, List.foldlM_cons, List.foldlM_nil]
      rw [h]
      rfl
    by_cases hkn : k < n
    · have hr : splitReqs n k = [⟨1, 1, 5⟩] := by unfold splitReqs; rw [if_pos hkn]
      have hl : contractorsAndAmounts (getPool twoContractors) twoContractors {} [⟨1, 1, 5⟩] = .ok [(⟨2, [(0, 5), (1, 5)]⟩, [5])] := rfl
      have hmask : twoContractors.map (accepted (getPool twoContractors) {} [⟨1, 1, 5⟩]) = [false, true] := rfl
      have hw : assignWork twoContractors (fun _ => {}) (splitReqs n) (fun _ _ => 1) (fun _ => argmax) A k =
          some ⟨A.counts.modify 0 (· + 1), A.teams ++ [(k, 2, [⟨2, 1, 5⟩])], A.durations ++ [(k, 1)]⟩ := by
        unfold assignWork
        rw [hr]
        simp only [hl, hmask, h2]
        have harg : ∀ x : ℚ, argmax [x] = 0 := fun x => by simp [argmax]
        simp [scores, harg, WorkSpec.enabled]
      refine ⟨_, hnext _ hw, ?_, ?_, ?_⟩
      · rw [h2]
        simp only [List.modify_zero_cons, List.cons.injEq, and_true]
        constructor <;> omega
      · rw [works_append, h3]
        rfl
      · rw [works_append, h4]
        rfl
    · have hr : splitReqs n k = [⟨0, 1, 5⟩] := by unfold splitReqs; rw [if_neg hkn]
      obtain ⟨i, c, m, hi, hm, hstep, hbest⟩ := assignWork_all (contractors := twoContractors) (spec := fun _ => {}) (reqs := splitReqs n)
        (chainDur := fun _ _ => 1) (A := A) (v := k) (by decide) (by rw [hr]; exact ⟨_, rfl⟩) (by rw [hr]; decide) (fun _ _ => by decide)
        (by rw [h2]; rfl)
        (by
          rw [h2]
          simp only [List.mem_cons, List.not_mem_nil, or_false]
          rintro x (rfl | rfl) <;> omega)
      have hi1 : i = 1 := by
        match i, hi, hm with
        | 0, hi, hm =>
          exfalso
          have := (hbest 1 ⟨2, [(0, 5), (1, 5)]⟩ ((1 + (k - n) : Nat) : Int) rfl (by rw [h2]; rfl)).1
          rw [h2] at hm
          simp only [List.getElem?_cons_zero, Option.some.injEq] at hm
          exact this ⟨Int.le_refl _, by omega⟩
        | 1, _, _ => rfl
        | i + 2, hi, _ => simp [twoContractors] at hi
      subst hi1
      have hc : c = ⟨2, [(0, 5), (1, 5)]⟩ := by
        have : twoContractors[1]? = some ⟨2, [(0, 5), (1, 5)]⟩ := rfl
        rw [this] at hi
        exact (Option.some.inj hi).symm
      subst hc
      refine ⟨_, hnext _ hstep, ?_, ?_, ?_⟩
      · rw [h2]
        simp only [List.modify_succ_cons, List.modify_zero_cons, List.cons.injEq, and_true]
        constructor <;> omega
      · rw [works_append, h3]
        rfl
      · rw [works_append, h4]
        rfl

/-- Not proved because false: "the numbers of works are even whenever the contractors are able to do the works that make it so".
Works that only contractor 2 can do are counted for contractor 1, since the counter is increased at the index among the accepted
contractors.  So for every `n` there is a project of `2 * n` works, `n` of which both contractors can do equally well, and contractor 2
gets all of them. -/
theorem wrong_contractor_counted (n : Nat) :
    ∃ (contractors : List Contractor) (reqs : Nat → List WorkerReq) (A : Assignment), contractors.length = 2 ∧
      C16.SoundContractors contractors ∧ (∀ v, C54.Staffable contractors {} (reqs v)) ∧
      (∀ v, n ≤ v → FullyEquipped contractors {} (reqs v)) ∧
      assignAll contractors (fun _ => {}) reqs (fun _ _ => 1) (fun _ => argmax) (List.range (2 * n)) = some A ∧
      contractors.map (fun c => A.works c.id) = [0, 2 * n] := by
  obtain ⟨A, h1, -, h2, h3⟩ := split_run n (2 * n) (Nat.le_refl _)
  refine ⟨twoContractors, splitReqs n, A, rfl, by unfold C16.SoundContractors; decide, fun v => ?_, fun v hv => ?_, h1, ?_⟩
  · unfold splitReqs C54.Staffable
    split
    · refine ⟨?_, by decide, fun r _ m hm => (by cases hm), ⟨2, [(0, 5), (1, 5)]⟩, by decide, .inl rfl, ?_⟩
      · unfold C16.SoundReqs
        decide
      · intro r hr
        rw [List.mem_singleton] at hr
        subst hr
        exact ⟨5, rfl, by decide, fun m hm => by cases hm⟩
    · refine ⟨?_, by decide, fun r _ m hm => (by cases hm), ⟨2, [(0, 5), (1, 5)]⟩, by decide, .inl rfl, ?_⟩
      · unfold C16.SoundReqs
        decide
      · intro r hr
        rw [List.mem_singleton] at hr
        subst hr
        exact ⟨5, rfl, by decide, fun m hm => by cases hm⟩
  · intro c hc
    refine ⟨.inl rfl, fun r hr => ?_⟩
    unfold splitReqs at hr
    rw [if_neg (by omega), List.mem_singleton] at hr
    subst hr
    refine ⟨5, ?_, by decide⟩
    simp only [twoContractors, List.mem_cons, List.not_mem_nil, or_false] at hc
    rcases hc with rfl | rfl <;> rfl
  · simp only [twoContractors, List.map_cons, List.map_nil, h2, h3]

/-! ### A concrete project -/

private def works : List Nat := [0, 1, 3, 2, 4]
private def demoReqs (v : Nat) : List WorkerReq := if v = 0 ∨ v = 4 ∨ 4 < v then [] else [⟨0, 1, 2⟩]
private def demoSite : Env Unit :=
  { Demo.env with kinds := fun v => (demoReqs v).map (·.kind), service := fun v => v == 0 || v == 4 || decide (4 < v),
                  estimate := fun v team => if team = [] then 0 else min (10 * v) 40 }
private def demoContractors : List Contractor := [⟨7, [(0, 3)]⟩, ⟨8, [(0, 3)]⟩]
private def demoPrio (v : Nat) : Int := if v = 4 then 2 else 1
private theorem demo_graph : WorkGraph C22.demo works where
  once := by decide
  linked := Graph.linked_ofEdges _
  closed := Graph.closed_ofEdges (by decide)
  chains := Graph.chains_ofEdges (by decide)
  acyclic := Graph.acyclic_ofEdges (fun v => if v = 3 then 1 else v) (by decide)

private theorem demo_collapse : Heads.collapse C22.demo works =
    some ([0, 3, 1, 4], [(0, []), (1, [0, 3]), (3, [0]), (4, [1])], [(0, [1, 3]), (1, [4]), (3, [1]), (4, [])]) := by decide

private def demoEdges : List Edge := [⟨0, 1, 0, .finishStart⟩, ⟨0, 3, 2, .lagFinishStart⟩, ⟨1, 2, 0, .inseparable⟩,
  ⟨3, 2, 0, .finishStart⟩, ⟨2, 4, 0, .finishStart⟩]

private theorem demo_edge {v : Nat} {e : Edge} (h : e ∈ C22.demo.edgesTo v) : e ∈ demoEdges ∧ e.finish = v := by
  unfold C22.demo at h
  rw [Graph.ofEdges_to] at h
  exact ⟨(List.mem_filter.1 h).1, by simpa using (List.mem_filter.1 h).2⟩

private theorem demo_deps : OnlyDependencies C22.demo := fun _ e he =>
  (by decide : ∀ e ∈ demoEdges, e.type = .finishStart ∨ e.type = .lagFinishStart ∨ e.type = .inseparable) e (demo_edge he).1

private theorem demo_lag {v : Nat} {e : Edge} (h : e ∈ C22.demo.edgesTo v) : 0 ≤ e.lag ∧ e.lag ≤ 2 :=
  (by decide : ∀ e ∈ demoEdges, 0 ≤ e.lag ∧ e.lag ≤ 2) e (demo_edge h).1

private theorem demo_agrees : PrioritiesAgree demoPrio C22.demo works := by
  intro a b hd
  have hb := ((C22.collapse_tables demo_graph demo_collapse a b).1).2 hd
  have ha : a ∈ [0, 3, 1, 4] := ((C22.collapse_preserves_dependencies demo_graph demo_collapse).2.1 a).2 hd.1
  have key : ∀ a ∈ [0, 3, 1, 4], ∀ b ∈ (List.lookup a [(0, []), (1, [0, 3]), (3, [0]), (4, [1])]).getD [],
      demoPrio b ≤ demoPrio a := by decide
  exact key a ha b hb

private theorem demo_acyclic : Acyclic (C22.demo.HeadDependsOn works) := by
  by_contra hn
  have := (C22.error_iff_chain_cycle demo_graph).2 hn
  rw [demo_collapse] at this
  cases this

private theorem demo_site : NoSiteLimits demoSite :=
  ⟨fun _ _ _ => Int.le_refl _, fun _ _ _ _ => Int.le_refl _, fun s _ t => ⟨s, t, rfl, Int.le_refl _⟩, fun s _ _ _ => ⟨s, rfl⟩,
    fun s => ⟨s, 0, rfl, Int.le_refl _⟩⟩

private theorem demo_est (v : Nat) (team : List Worker) : 0 ≤ demoSite.estimate v team := by
  simp only [demoSite]
  split <;> omega

private theorem demo_contractors : C16.SoundContractors demoContractors := by unfold C16.SoundContractors; decide

private theorem demo_staff (v : Nat) : C54.Staffable demoContractors ⟨[], []⟩ (demoReqs v) := by
  unfold demoReqs
  split
  · exact ⟨by simp [C16.SoundReqs], by simp, by simp, _, List.mem_cons_self, .inl rfl, by simp⟩
  · refine ⟨by simp [C16.SoundReqs], by simp, by simp, _, List.mem_cons_self, .inl rfl, ?_⟩
    intro r hr
    rw [List.mem_singleton] at hr
    subst hr
    exact ⟨3, by decide, by decide, by simp⟩

private theorem demo_full (v : Nat) : FullyEquipped demoContractors {} (demoReqs v) := by
  intro c hc
  refine ⟨.inl rfl, fun r hr => ⟨3, ?_⟩⟩
  unfold demoReqs at hr
  split at hr
  · cases hr
  · rw [List.mem_singleton] at hr
    subst hr
    revert c
    decide

-- the chains start with works 0, 3, 1 and 4, each contractor gets two of them
example : (assignAll demoContractors (fun _ => {}) demoReqs (chainDuration (onGraph demoSite C22.demo works) 0 demoReqs) (fun _ => argmax)
    [0, 3, 1, 4]).map (fun A => (A.teams.map fun x => (x.1, x.2.1), A.durations)) =
    some ([(0, 7), (3, 8), (1, 7), (4, 8)], [(0, 1), (3, 31), (1, 31), (4, 1)]) := by decide +kernel

-- all hypotheses of the theorems above are met by this project
example : ∃ st, (∀ fuel, 1 ≤ fuel → LFT.schedule demoSite 0 C22.demo works demoContractors (fun _ => {}) demoReqs demoPrio
      (fun _ => false) 5 () fuel = some (some st)) ∧
    ∀ c ∈ demoContractors, ∀ c' ∈ demoContractors, doneBy st.sched [0, 1, 3, 4] c.id ≤ doneBy st.sched [0, 1, 3, 4] c'.id + 1 :=
  schedule_even demo_graph demo_deps (fun v e he _ => (demo_lag he).1) demo_acyclic demoSite demo_site demo_est 0 demo_contractors
    (fun _ _ _ h => by cases h) demoPrio demo_agrees (fun _ => false) 5 (by decide) () demo_staff demo_full [0, 1, 3, 4] (by decide)
    (fun v => by
      have := (C22.collapse_preserves_dependencies demo_graph demo_collapse).2.1 v
      rw [← this]
      simp only [List.mem_cons, List.not_mem_nil, or_false]
      omega)

example : ∃ A, assignAll demoContractors (fun _ => {}) demoReqs (fun v _ => v + 1) (fun _ => argmax) [3, 1] = some A ∧
    ∃ (i : Nat) (c : Contractor) (team : List Worker) (counts : List Int) (d : Int), demoContractors[i]? = some c ∧
      assignAll demoContractors (fun _ => {}) demoReqs (fun v _ => v + 1) (fun _ => argmax) [3, 1, 2] =
        some ⟨counts, A.teams ++ [(2, c.id, team)], A.durations ++ [(2, d)]⟩ := by
  obtain ⟨A, h, i, c, team, counts, d, h1, h2, -⟩ := choice (chainDur := fun v _ => v + 1) demo_contractors (spec := fun _ => {})
    (fun _ _ _ h => by cases h) (fun v _ => by omega) [3, 1] 2 (fun u _ c hc => by
      refine ⟨(demo_staff u).1, (demo_staff u).2.1, (demo_staff u).2.2.1, c, List.mem_singleton_self c, .inl rfl, fun r hr => ?_⟩
      have hk : r = ⟨0, 1, 2⟩ := by
        unfold demoReqs at hr
        split at hr
        · cases hr
        · simpa using hr
      subst hk
      refine ⟨3, ?_, by decide, fun n hn => by cases hn⟩
      revert c
      decide) rfl (by decide)
  exact ⟨A, h, i, c, team, counts, d, h1, h2⟩

private theorem demo_same (k v : Nat) (h : C22.demo.InChain k v) : demoSite.kinds v = demoSite.kinds k ∨ demoSite.kinds v = [] := by
  induction h with
  | refl => exact .inl rfl
  | @tail b c _ hf ih =>
    obtain ⟨e, he, rfl, ht⟩ := hf
    obtain ⟨h1, rfl⟩ := demo_edge he
    have key : ∀ e ∈ demoEdges, e.type = .inseparable → demoSite.kinds e.finish = demoSite.kinds e.start := by decide
    rw [key e h1 ht]
    exact ih

private theorem demo_chain_lag (k v : Nat) (e : Edge) (he : e ∈ C22.demo.edgesTo v) (h1 : C22.demo.InChain k v)
    (h2 : C22.demo.InChain k e.start) : e.lag ≤ 0 := by
  have hm := demo_edge he
  by_cases hl : e.lag ≤ 0
  · exact hl
  · exfalso
    have key : ∀ e ∈ demoEdges, ¬ e.lag ≤ 0 → e.finish = 3 ∧ e.start = 0 := by decide
    obtain ⟨h3, h0⟩ := key e hm.1 hl
    rw [← hm.2, h3] at h1
    rw [h0] at h2
    have nofollow : ∀ p, ¬ C22.demo.Follows p 3 ∧ ¬ C22.demo.Follows p 0 := by
      have key : ∀ e ∈ demoEdges, e.type = .inseparable → e.finish ≠ 3 ∧ e.finish ≠ 0 := by decide
      intro p
      constructor <;>
      · rintro ⟨e, he, -, ht⟩
        have hm := demo_edge he
        have := key e hm.1 ht
        omega
    have hk3 : k = 3 := by
      cases h1 with
      | refl => rfl
      | tail _ hf => exact absurd hf (nofollow _).1
    have hk0 : k = 0 := by
      cases h2 with
      | refl => rfl
      | tail _ hf => exact absurd hf (nofollow _).2
    omega

private theorem demo_headList (v : Nat) : v ∈ [0, 1, 3, 4] ↔ C22.demo.IsHead works v := by
  rw [← (C22.collapse_preserves_dependencies demo_graph demo_collapse).2.1 v]
  simp only [List.mem_cons, List.not_mem_nil, or_false]
  omega

example : ∃ N st, (∀ fuelIn fuel, N ≤ fuelIn → 1 ≤ fuel → LFT.scheduleMomentum demoSite 0 C22.demo works demoContractors (fun _ => {})
      demoReqs demoPrio (fun _ => false) 5 () 1000 fuelIn fuel = some (some st)) ∧
    ∀ c ∈ demoContractors, ∀ c' ∈ demoContractors, doneBy st.sched [0, 1, 3, 4] c.id ≤ doneBy st.sched [0, 1, 3, 4] c'.id + 1 :=
  schedule_even_momentum demo_graph demo_deps demo_chain_lag demo_acyclic demoSite demo_site 2 40 (by decide) (by decide)
    (fun v team => ⟨demo_est v team, by simp only [demoSite]; split <;> omega⟩) (fun _ _ he => (demo_lag he).2) 0 demo_contractors
    (fun _ _ _ h => by cases h) demoPrio demo_agrees (fun _ => false) 5 1000 (by decide) (by decide) () (fun _ => rfl) (fun v h => by
      simp only [demoSite, demoReqs] at h ⊢
      split at h
      · exact absurd rfl h
      · simp; omega) demo_same demo_staff demo_full [0, 1, 3, 4] (by decide) demo_headList

-- work 3 needs more workers than any contractor has
example : ∀ fuel, LFT.schedule demoSite 0 C22.demo works demoContractors (fun _ => {}) (fun v => if v = 3 then [⟨0, 9, 9⟩] else demoReqs v)
    demoPrio (fun _ => false) 5 () fuel = some none :=
  (refuses demo_graph demoSite 0 demo_contractors (fun _ _ _ h => by cases h) (fun v => by
    split
    · unfold C16.SoundReqs; decide
    · exact ⟨(demo_staff v).1, (demo_staff v).2.1⟩) demoPrio (fun _ => false) 5 ()
    (.inr ⟨3, (demo_headList 3).1 (by decide), by
      rintro ⟨-, -, -, c, hc, -, h⟩
      obtain ⟨n, h1, h2, -⟩ := h ⟨0, 9, 9⟩ (by decide)
      have : ∀ c ∈ demoContractors, ∀ n, c.workers.lookup 0 = some n → n < 9 := by decide
      have := this c hc n h1
      dsimp only at h2
      omega⟩)).1

end Sampo.C106
