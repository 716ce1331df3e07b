import Verif.Lemmas.GeneticStart
import Verif.Props.C17_Validator
import Verif.Props.C89_Schedulers
import Verif.Lemmas.MatAsked
import Verif.Model.Checked
import Verif.Spec.Checked

/-! Valid schedules pass the validation; service works take no time. -/

namespace Sampo.Validate

variable {cs : List Contractor}

theorem find_crew (hids : (cs.map (·.id)).Nodup) {c : Contractor} (hc : c ∈ cs) :
    (crews cs).reverse.find? (fun x => x.1 = c.id) = some (c.id, c.workers) := by
  cases h : (crews cs).reverse.find? (fun x => x.1 = c.id) with
  | none =>
    rw [List.find?_eq_none] at h
    exact absurd (h (c.id, c.workers) (by simp only [crews, List.mem_reverse, List.mem_map]; exact ⟨c, hc, rfl⟩)) (by simp)
  | some x =>
    have h1 := List.mem_of_find?_eq_some h
    have h2 := List.find?_some h
    simp only [crews, List.mem_reverse, List.mem_map] at h1
    obtain ⟨d, hd, rfl⟩ := h1
    have : d = c := List.inj_on_of_nodup_map hids hd hc (by simpa using h2)
    rw [this]

theorem counts_of_lookup {k : Nat} : ∀ {ws : List (Nat × Int)}, (ws.map (·.1)).Nodup →
    (match ws.lookup k with | none => (ws.filter fun w => w.1 = k).map (·.2) = [] | some n => (ws.filter fun w => w.1 = k).map (·.2) = [n])
  | [], _ => rfl
  | (a, n) :: ws, hnd => by
    rw [List.map_cons, List.nodup_cons] at hnd
    have ih := counts_of_lookup (k := k) hnd.2
    rw [List.lookup_cons]
    by_cases hk : k = a
    · subst hk
      have : ws.filter (fun w => decide (w.1 = k)) = [] := by
        rw [List.filter_eq_nil_iff]
        intro w hw hd
        exact hnd.1 (List.mem_map.2 ⟨w, hw, by simpa using hd⟩)
      simp [this]
    · have hk' : (k == a) = false := by simpa using hk
      have hk2 : ¬ a = k := fun h => hk h.symm
      simp only [hk', List.filter_cons, hk2, decide_false, Bool.false_eq_true, if_false]
      exact ih

theorem pool_crews (h : C16.SoundContractors cs) (a : AgentId) : pool (crews cs) a = LFT.agents cs a := by
  obtain ⟨c, k⟩ := a
  show _ = getPool cs k c
  by_cases hc : ∃ d ∈ cs, d.id = c
  · obtain ⟨d, hd, rfl⟩ := hc
    rw [getPool_of_mem h.1 h.2 hd]
    unfold pool
    simp only [find_crew h.1 hd]
    have := counts_of_lookup (k := k) (h.2 d hd)
    cases hl : d.workers.lookup k with
    | none => rw [hl] at this; simp only at this; rw [this]; rfl
    | some n => rw [hl] at this; simp only at this; rw [this]; simp
  · have h1 : (crews cs).reverse.find? (fun x => x.1 = c) = none := by
      rw [List.find?_eq_none]
      intro x hx
      simp only [crews, List.mem_reverse, List.mem_map] at hx
      obtain ⟨d, hd, rfl⟩ := hx
      simpa using fun he => hc ⟨d, hd, he⟩
    unfold pool
    simp only [h1]
    cases hg : getPool cs k c with
    | none => rfl
    | some n =>
      obtain ⟨d, hd, he, -⟩ := GeneticRun.getPool_known hg
      exact absurd ⟨d, hd, he⟩ hc

/-- What the validator wants to know about the team of a chain. -/
def Proper (cs : List Contractor) (spec : Nat → WorkSpec) (reqs : Nat → List WorkerReq) (k : Nat) (team : List Worker) (cid : Nat) : Prop :=
  ∃ c ∈ cs, c.id = cid ∧ C14.Admissible (spec k) c ∧ ∀ w ∈ team, w.contractor = cid ∧ 0 ≤ w.count ∧
    (∃ n, c.workers.lookup w.name = some n) ∧ ∃ r ∈ reqs k, r.kind = w.name ∧ r.minCount ≤ w.count ∧ w.count ≤ r.maxCount

theorem proper_of_staffs {spec : Nat → WorkSpec} {reqs : Nat → List WorkerReq} (hr : ∀ v, C16.SoundReqs (reqs v)) {k : Nat}
    {team : List Worker} {cid : Nat} (h : C89.Staffs cs spec reqs k team cid) : Proper cs spec reqs k team cid := by
  obtain ⟨c, hc, hid, ha, hm⟩ := h
  refine ⟨c, hc, hid, ha, fun w hw => ?_⟩
  obtain ⟨r, hrm, h1, h2, h3, h4, n, h5, -⟩ := GeneticRun.meets_full hm w hw
  exact ⟨h2.trans hid, Int.le_trans (hr k r hrm).1 h3, ⟨n, by rw [h1]; exact h5⟩, r, hrm, h1.symm, h3, h4⟩

theorem busy_zero {ps : List Placement} {a : AgentId} {t : Int} (h : ∀ p ∈ ps, ∀ w ∈ p.team, w.agent ≠ a) : busy ps a t = 0 := by
  unfold busy
  have : ∀ x ∈ (ps.filter fun p => p.runs t).map (fun p => teamCount p.team a), x = 0 := by
    intro x hx
    rw [List.mem_map] at hx
    obtain ⟨p, hp, rfl⟩ := hx
    unfold teamCount
    have hnil : p.team.filter (fun w => decide (w.agent = a)) = [] := by
      rw [List.filter_eq_nil_iff]
      intro w hw
      simpa using h p (List.mem_filter.1 hp).1 w hw
    rw [hnil]
    rfl
  exact List.sum_eq_zero this

theorem feasible_passes {g : Graph} {nodes : List Nat} (hw : C22.WorkGraph g nodes) (hne : nodes ≠ [])
    (hlag : ∀ v, ∀ e ∈ g.edgesTo v, 0 ≤ e.lag) (hcs : C16.SoundContractors cs) (hcount : ∀ c ∈ cs, ∀ w ∈ c.workers, 0 ≤ w.2)
    {spec : Nat → WorkSpec} {reqs : Nat → List WorkerReq} (hkinds : ∀ v, ((reqs v).map (·.kind)).Nodup)
    (huni : Uniform g nodes reqs spec) {accepts : Nat → List Worker → Nat → Prop}
    (hacc : ∀ k team c, accepts k team c → Proper cs spec reqs k team c) {service : Nat → Bool} {sw : Sched}
    (hf : Feasible g nodes (LFT.agents cs) accepts sw) (hserv : Instant service sw) {sort : Sched → Sched} (hsort : (sort sw).Perm sw) :
    passes sort g nodes service cs spec reqs sw = true := by
  have hnd : sw.works.Nodup := hf.works.nodup_iff.2 hw.once
  have hget : ∀ e ∈ sort sw, sw.get e.1 = some e.2 := fun e he => MatSite.get_of_mem hnd (hsort.mem_iff.1 he)
  have hnode : ∀ e ∈ sw, e.1 ∈ nodes := fun e he => hf.works.mem_iff.1 (List.mem_map.2 ⟨e, he, rfl⟩)
  have hteam : ∀ e ∈ sw, ∃ k, g.IsHead nodes k ∧ g.InChain k e.1 ∧ Proper cs spec reqs k e.2.team e.2.contractor := by
    intro e he
    obtain ⟨k, ⟨hk, hc⟩, -⟩ := C22.one_head hw e.1 (hnode e he)
    obtain ⟨x, hx, ha⟩ := hf.staffed k e.1 hk hc
    rw [MatSite.get_of_mem hnd he] at hx
    cases hx
    exact ⟨k, hk, hc, hacc _ _ _ ha⟩
  have hown : ∀ e ∈ sw, ∀ x ∈ e.2.team, ∃ i, LFT.agents cs x.agent = some i := by
    intro e he x hx
    obtain ⟨k, -, -, c, hc, hid, -, hall⟩ := hteam e he
    obtain ⟨h1, -, ⟨n, hn⟩, -⟩ := hall x hx
    refine ⟨n, ?_⟩
    show getPool cs x.name x.contractor = some n
    rw [h1, ← hid, getPool_of_mem hcs.1 hcs.2 hc, hn]
  have hmem : ∀ w ∈ (sort sw).map (row service), ∃ e ∈ sw, sw.get e.1 = some e.2 ∧ row service e = w := by
    intro w hw'
    obtain ⟨e, he, rfl⟩ := List.mem_map.1 hw'
    exact ⟨e, hsort.mem_iff.1 he, hget e he, rfl⟩
  unfold passes
  refine C17.executable_is_accepted ?_ ?_ ?_ ?_ ?_ ?_ ?_ ?_ ?_ ?_ ?_ ?_ ?_ ?_ ?_
  · intro hnil
    rw [List.map_eq_nil_iff] at hnil
    rw [hnil] at hsort
    have : sw = [] := by simpa using hsort.symm.eq_nil
    obtain ⟨v, hv⟩ := List.exists_mem_of_ne_nil _ hne
    have := hf.works.mem_iff.2 hv
    simp_all [Sched.works]
  · have : ((sort sw).map (row service)).map (·.id) = (sort sw).works := by simp [row, Sched.works, Function.comp_def]
    rw [this]
    exact ((hsort.map Prod.fst).nodup_iff).2 hnd
  · intro v hv
    obtain ⟨e, he, rfl⟩ := List.mem_map.1 (hf.works.mem_iff.2 hv)
    exact ⟨row service e, List.mem_map.2 ⟨e, hsort.mem_iff.2 he, rfl⟩, rfl⟩
  · intro w hw'
    obtain ⟨e, he, -, rfl⟩ := hmem w hw'
    exact hnode e he
  · intro w hw'
    obtain ⟨e, he, hg, rfl⟩ := hmem w hw'
    exact hf.times _ _ hg
  · intro w hw' p hp
    obtain ⟨e, he, hg, rfl⟩ := hmem w hw'
    obtain ⟨ed, hed, rfl⟩ := List.mem_map.1 (show p ∈ ((g.edgesTo e.1).filter (·.type.isDependency)).map (·.start) from hp)
    have hed := (List.mem_filter.1 hed).1
    obtain ⟨y, hy, hle⟩ := hf.precedence _ _ hg ed hed
    refine ⟨row service (ed.start, y), List.mem_map.2 ⟨(ed.start, y), hsort.mem_iff.2 (mem_of_get hy), rfl⟩, rfl, ?_⟩
    have := hlag _ ed hed
    show y.finish ≤ e.2.start
    omega
  · intro w hw'
    obtain ⟨e, he, hg, rfl⟩ := hmem w hw'
    obtain ⟨k, hk, hch, c, hc, hid, ha, -⟩ := hteam e he
    show (spec e.1).contractors = [] ∨ e.2.contractor ∈ (spec e.1).contractors
    rcases (huni k e.1 hk hch).2 with h | ⟨h1, h2⟩
    · exact .inl h
    · rcases ha with ha | ha
      · exact absurd ha h1
      · exact .inr (h2 _ (hid ▸ ha))
  · intro w hw' hs
    obtain ⟨e, he, hg, rfl⟩ := hmem w hw'
    exact hserv _ _ hg hs
  · intro v
    have : ((inputOf g nodes reqs spec).reqs v).map (·.kind) = (reqs v).map (·.kind) := by simp [inputOf, Function.comp_def]
    rw [this]
    exact hkinds v
  · intro w hw' x hx
    obtain ⟨e, he, hg, rfl⟩ := hmem w hw'
    obtain ⟨k, hk, hch, c, hc, hid, ha, hall⟩ := hteam e he
    obtain ⟨-, -, -, r, hr, h1, h2, h3⟩ := hall x hx
    exact ⟨⟨r.kind, r.minCount, r.maxCount⟩, List.mem_map.2 ⟨r, (huni k e.1 hk hch).1 r hr, rfl⟩, h1, h2, h3⟩
  · intro w hw'
    obtain ⟨e, he, hg, rfl⟩ := hmem w hw'
    obtain ⟨k, hk, hch, c, hc, hid, ha, hall⟩ := hteam e he
    exact ⟨_, fun x hx => (hall x hx).1⟩
  · intro w hw' x hx
    obtain ⟨e, he, hg, rfl⟩ := hmem w hw'
    obtain ⟨k, hk, hch, c, hc, hid, ha, hall⟩ := hteam e he
    exact (hall x hx).2.1
  · intro w hw' x hx
    obtain ⟨e, he, hg, rfl⟩ := hmem w hw'
    rw [pool_crews hcs]
    exact hown e he x hx
  · intro c hc w hw'
    obtain ⟨d, hd, rfl⟩ := List.mem_map.1 hc
    exact hcount d hd w hw'
  · intro t a
    have hp : C17.placements ((sort sw).map (row service)) = (sort sw).placements := by
      simp [C17.placements, Sched.placements, row, Function.comp_def]
    have hb : busy (sort sw).placements a t = busy sw.placements a t := by
      unfold busy
      exact (((hsort.map _).filter _).map _).sum_eq
    rw [hp, hb, pool_crews hcs]
    cases hl : LFT.agents cs a with
    | none =>
      rw [busy_zero]
      · exact Int.le_refl _
      · intro p hp w hw' heq
        obtain ⟨e, he, rfl⟩ := List.mem_map.1 hp
        obtain ⟨i, hi⟩ := hown e he w hw'
        rw [heq, hl] at hi
        cases hi
    | some n =>
      have hn : 0 ≤ n := by
        obtain ⟨d, hd, he, -⟩ := GeneticRun.getPool_known (show getPool cs a.2 a.1 = some n from hl)
        have hl' : getPool cs a.2 a.1 = some n := hl
        rw [← he, getPool_of_mem hcs.1 hcs.2 hd] at hl'
        exact hcount d hd _ (lookup_mem hl')
      exact hf.capacity a n hl hn t

end Sampo.Validate
