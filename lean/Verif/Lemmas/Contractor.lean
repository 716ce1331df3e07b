import Verif.Prelude
import Verif.Model.Contractor
import Verif.Lemmas.Optimize

/-! # Lemmas about contractor search and teams -/

namespace Sampo

/-- What the search knows after the contractors `done`. -/
def BestOf {τ} (runner : Contractor → Option (Int × Int × τ)) (done : List Contractor) : Best → Prop
  | none => ∀ c ∈ done, ∀ r, runner c = some r → tIsInf r.2.1 = true
  | some (f, c, s) => s = c.size ∧ ∃ l₁ l₂ r, done = l₁ ++ c :: l₂ ∧ runner c = some r ∧ r.2.1 = f ∧ tIsInf f = false ∧
      (∀ c' ∈ l₁, ∀ r', runner c' = some r' → tIsInf r'.2.1 = false → f < r'.2.1 ∨ (f = r'.2.1 ∧ c.size < c'.size)) ∧
      (∀ c' ∈ l₂, ∀ r', runner c' = some r' → tIsInf r'.2.1 = false → f < r'.2.1 ∨ (f = r'.2.1 ∧ c.size ≤ c'.size))

theorem tIsInf_false_lt {f : Int} (hf : IsTime f) (h : tIsInf f = false) : f < timeInf := by
  unfold IsTime TIME_INF at hf
  simp only [tIsInf, TIME_INF, beq_eq_false_iff_ne, ne_eq] at h
  have e : timeInf = 2000000000 := by decide
  rw [e]
  omega

theorem searchStep_bestOf {τ} {runner : Contractor → Option (Int × Int × τ)} {done best c r}
    (hb : BestOf runner done best) (hr : runner c = some r) (ht : IsTime r.2.1) :
    BestOf runner (done ++ [c]) (searchStep best c r.2.1) := by
  unfold searchStep
  match best with
  | none =>
    by_cases hi : tIsInf r.2.1
    · simp only [hi, Bool.not_true, Bool.false_and, Bool.false_eq_true, if_false]
      intro c' hc' r' hr'
      simp only [List.mem_append, List.mem_singleton] at hc'
      rcases hc' with hc' | rfl
      · exact hb c' hc' r' hr'
      · rw [hr] at hr'; cases hr'; exact hi
    · have hi : tIsInf r.2.1 = false := by simpa using hi
      have hlt := tIsInf_false_lt ht hi
      simp only [hi, hlt, Bool.not_false, decide_true, Bool.true_or, Bool.and_self, if_true]
      refine ⟨rfl, done, [], r, rfl, hr, rfl, hi, ?_, by simp⟩
      intro c' hc' r' hr' hf'
      have := hb c' hc' r' hr'
      rw [this] at hf'; simp at hf'
  | some (f, b, s) =>
    obtain ⟨rfl, l₁, l₂, rb, hd, hrb, hfb, hfin, h1, h2⟩ := hb
    by_cases hi : tIsInf r.2.1
    · simp only [hi, Bool.not_true, Bool.false_and, Bool.false_eq_true, if_false]
      refine ⟨rfl, l₁, l₂ ++ [c], rb, by simp [hd], hrb, hfb, hfin, h1, ?_⟩
      intro c' hc' r' hr' hf'
      simp only [List.mem_append, List.mem_singleton] at hc'
      rcases hc' with hc' | rfl
      · exact h2 c' hc' r' hr' hf'
      · rw [hr] at hr'; cases hr'; rw [hi] at hf'; simp at hf'
    · have hi : tIsInf r.2.1 = false := by simpa using hi
      simp only [hi, Bool.not_false, Bool.true_and, Bool.or_eq_true, decide_eq_true_eq, Bool.and_eq_true, beq_iff_eq]
      by_cases hbet : r.2.1 < f ∨ r.2.1 = f ∧ c.size < b.size
      · rw [if_pos hbet]
        refine ⟨rfl, done, [], r, rfl, hr, rfl, hi, ?_, by simp⟩
        intro c' hc' r' hr' hf'
        rw [hd, List.mem_append, List.mem_cons] at hc'
        rcases hc' with hc' | rfl | hc'
        · have := h1 c' hc' r' hr' hf'; omega
        · rw [hrb] at hr'; cases hr'; rw [hfb]; omega
        · have := h2 c' hc' r' hr' hf'; omega
      · rw [if_neg hbet]
        refine ⟨rfl, l₁, l₂ ++ [c], rb, by simp [hd], hrb, hfb, hfin, h1, ?_⟩
        intro c' hc' r' hr' hf'
        simp only [List.mem_append, List.mem_singleton] at hc'
        rcases hc' with hc' | rfl
        · exact h2 c' hc' r' hr' hf'
        · rw [hr] at hr'; cases hr'; omega

theorem searchLoop_bestOf {τ} {runner : Contractor → Option (Int × Int × τ)}
    (ht : ∀ c r, runner c = some r → IsTime r.2.1) : ∀ cs done best best',
    BestOf runner done best → searchLoop runner cs best = some best' → BestOf runner (done ++ cs) best' := by
  intro cs
  induction cs with
  | nil => intro done best best' hb h; simp only [searchLoop, Option.some.injEq] at h; subst h; simpa using hb
  | cons c cs ih =>
    intro done best best' hb h
    simp only [searchLoop, Option.bind_eq_some_iff] at h
    obtain ⟨r, hr, h⟩ := h
    have := ih (done ++ [c]) _ best' (searchStep_bestOf hb hr (ht c r hr)) h
    simpa using this

theorem searchLoop_isSome {τ} {runner : Contractor → Option (Int × Int × τ)} : ∀ cs best,
    (∀ c ∈ cs, (runner c).isSome) ↔ (searchLoop runner cs best).isSome := by
  intro cs
  induction cs with
  | nil => simp [searchLoop]
  | cons c cs ih =>
    intro best
    simp only [searchLoop, List.mem_cons, forall_eq_or_imp]
    cases hr : runner c with
    | none => simp
    | some r => simp only [Option.isSome_some, true_and, Option.bind_some]; exact ih _

/-- Lower borders, upper borders and workers that the requirements ask for. -/
theorem borders_go (pool : WPool) (c : Nat) : ∀ reqs lo hi ws,
    getWorkerBorders.go pool c reqs lo hi ws =
      if ∀ r ∈ reqs, ∃ n, pool r.kind c = some n ∧ r.minCount ≤ n then
        (lo ++ reqs.map (·.minCount), hi ++ reqs.map (fun r => min r.maxCount ((pool r.kind c).getD 0)),
          ws ++ reqs.map (fun r => ⟨c, r.kind, (pool r.kind c).getD 0⟩))
      else ([], [], []) := by
  intro reqs
  induction reqs with
  | nil => intro lo hi ws; simp [getWorkerBorders.go]
  | cons r reqs ih =>
    intro lo hi ws
    simp only [getWorkerBorders.go]
    cases hp : pool r.kind c with
    | none =>
      rw [if_neg]
      intro h
      obtain ⟨n, hn, _⟩ := h r (by simp)
      rw [hp] at hn; simp at hn
    | some n =>
      simp only
      split
      · rename_i hlt
        rw [if_neg]
        intro h
        obtain ⟨m, hm, hle⟩ := h r (by simp)
        rw [hp] at hm; cases hm; omega
      · rename_i hge
        rw [ih]
        by_cases hall : ∀ r ∈ reqs, ∃ n, pool r.kind c = some n ∧ r.minCount ≤ n
        · rw [if_pos hall, if_pos]
          · simp [hp]
          · intro r' hr'
            simp only [List.mem_cons] at hr'
            rcases hr' with rfl | hr'
            · exact ⟨n, hp, by omega⟩
            · exact hall r' hr'
        · rw [if_neg hall, if_neg]
          exact fun h => hall fun r' hr' => h r' (by simp [hr'])

theorem lookup_mem {α : Type} {l : List (Nat × α)} {k : Nat} {v : α} (h : l.lookup k = some v) : (k, v) ∈ l := by
  induction l with
  | nil => simp at h
  | cons a l ih =>
    obtain ⟨a, b⟩ := a
    simp only [List.lookup_cons] at h
    split at h
    · rename_i hk
      simp at hk h
      simp [hk, h]
    · simp [ih h]

theorem mapM_count {assigned : List (Nat × Int)} : ∀ {team team' : List Worker},
    (team.mapM fun w => (assigned.lookup w.name).map fun n => { w with count := n }) = some team' →
    List.Forall₂ (fun w w' => w'.name = w.name ∧ w'.contractor = w.contractor ∧ assigned.lookup w.name = some w'.count) team team' := by
  intro team
  induction team with
  | nil => intro team' h; simp at h; subst h; exact .nil
  | cons w team ih =>
    intro team' h
    simp only [List.mapM_cons, Option.bind_eq_bind, Option.bind_eq_some_iff, Option.map_eq_some_iff, Option.pure_def,
      Option.some.injEq] at h
    obtain ⟨w', ⟨n, hn, rfl⟩, t, ht, rfl⟩ := h
    exact .cons ⟨rfl, rfl, hn⟩ (ih ht)

end Sampo

namespace Sampo

/-! ## The pool -/

theorem pool_inner (id : Nat) : ∀ (ws : List (Nat × Int)) (p : WPool) (name c : Nat),
    (ws.map (·.1)).Nodup →
    ws.foldl (fun p w => fun name i => if name = w.1 ∧ i = id then some w.2 else p name i) p name c =
      if c = id then (ws.lookup name).or (p name c) else p name c := by
  intro ws
  induction ws with
  | nil => intro p name c _; simp
  | cons w ws ih =>
    intro p name c hn
    obtain ⟨k, v⟩ := w
    simp only [List.map_cons, List.nodup_cons] at hn
    rw [List.foldl_cons, ih _ _ _ hn.2]
    by_cases hc : c = id
    · simp only [hc, if_true, and_true, List.lookup_cons]
      by_cases hw : name = k
      · subst hw
        have : ws.lookup name = none := by
          cases hl : ws.lookup name with
          | none => rfl
          | some v => exact absurd (List.mem_map_of_mem (f := (·.1)) (lookup_mem hl)) hn.1
        simp [this]
      · have : (name == k) = false := by simpa using hw
        simp [hw, this]
    · simp [hc]

/-- In the pool of contractors with different ids, each owning each worker type once, the entries of a contractor are its
own workers. -/
theorem getPool_of_mem {cs : List Contractor} (hids : (cs.map (·.id)).Nodup)
    (hw : ∀ c ∈ cs, (c.workers.map (·.1)).Nodup) {c : Contractor} (hc : c ∈ cs) (name : Nat) :
    getPool cs name c.id = c.workers.lookup name := by
  unfold getPool
  have gen : ∀ (cs : List Contractor) (p : WPool), (cs.map (·.id)).Nodup → (∀ c ∈ cs, (c.workers.map (·.1)).Nodup) →
      ∀ i, (∀ c ∈ cs, c.id ≠ i) →
      cs.foldl (fun pool c => c.workers.foldl (fun p w => fun name id => if name = w.1 ∧ id = c.id then some w.2 else p name id) pool) p name i
        = p name i := by
    intro cs
    induction cs with
    | nil => intros; rfl
    | cons d cs ih =>
      intro p hids hw i hi
      simp only [List.map_cons, List.nodup_cons] at hids
      rw [List.foldl_cons, ih _ hids.2 (fun c hc => hw c (by simp [hc])) i (fun c hc => hi c (by simp [hc]))]
      rw [pool_inner _ _ _ _ _ (hw d (by simp))]
      rw [if_neg (fun h => hi d (by simp) h.symm)]
  have gen2 : ∀ (cs : List Contractor) (p : WPool), (cs.map (·.id)).Nodup → (∀ c ∈ cs, (c.workers.map (·.1)).Nodup) →
      c ∈ cs → p name c.id = none →
      cs.foldl (fun pool c => c.workers.foldl (fun p w => fun name id => if name = w.1 ∧ id = c.id then some w.2 else p name id) pool) p name c.id
        = c.workers.lookup name := by
    intro cs
    induction cs with
    | nil => intro p _ _ h; simp at h
    | cons d cs ih =>
      intro p hids hw hc hp
      simp only [List.map_cons, List.nodup_cons, List.mem_map, not_exists, not_and] at hids
      rw [List.foldl_cons]
      rcases List.mem_cons.mp hc with rfl | hc
      · rw [gen cs _ hids.2 (fun c hc => hw c (by simp [hc])) _ (fun x hx => hids.1 x hx), pool_inner _ _ _ _ _ (hw c (by simp))]
        simp [hp]
      · refine ih _ hids.2 (fun c hc => hw c (by simp [hc])) hc ?_
        rw [pool_inner _ _ _ _ _ (hw d (by simp)), if_neg (fun h => hids.1 c hc h), hp]
  exact gen2 cs _ hids hw hc rfl

/-! ## Teams -/

/-- An optimizer whose result is between the borders whenever it ends normally (C29). -/
def StaysWithin (opt : Optimizer) : Prop :=
  ∀ arr down up counts r, (∀ d ∈ down, 0 ≤ d) → Ordered down up → counts.length = down.length →
    (∀ l, arr = some l → l.length = counts.length) → opt arr down up counts = some r → Within down up r

theorem team_of_counts {pool : WPool} {c : Nat} : ∀ {reqs : List WorkerReq} {counts : List Int},
    (∀ r ∈ reqs, ∃ n, pool r.kind c = some n ∧ r.minCount ≤ n) →
    Within (reqs.map (·.minCount)) (reqs.map fun r => min r.maxCount ((pool r.kind c).getD 0)) counts →
    List.Forall₂ (fun (r : WorkerReq) (w : Worker) => w.name = r.kind ∧ w.contractor = c ∧ r.minCount ≤ w.count ∧
        w.count ≤ r.maxCount ∧ ∃ n, pool r.kind c = some n ∧ w.count ≤ n) reqs
      (((reqs.map fun r => (⟨c, r.kind, (pool r.kind c).getD 0⟩ : Worker)).zip counts).map fun x => { x.1 with count := x.2 }) := by
  intro reqs
  induction reqs with
  | nil => intro counts _ h; simp
  | cons r reqs ih =>
    intro counts hcan h
    cases counts with
    | nil => simp [Within] at h
    | cons x counts =>
      simp only [List.map_cons, Within] at h
      obtain ⟨n, hn, _⟩ := hcan r (by simp)
      simp only [hn, Option.getD_some] at h
      simp only [List.map_cons, List.zip_cons_cons]
      refine .cons ⟨rfl, rfl, h.1, by simp only; omega, n, hn, by simp only; omega⟩ ?_
      exact ih (fun r hr => hcan r (by simp [hr])) h.2.2

theorem borders_ordered {pool : WPool} {c : Nat} : ∀ {reqs : List WorkerReq},
    (∀ r ∈ reqs, ∃ n, pool r.kind c = some n ∧ r.minCount ≤ n) → (∀ r ∈ reqs, r.minCount ≤ r.maxCount) →
    Ordered (reqs.map (·.minCount)) (reqs.map fun r => min r.maxCount ((pool r.kind c).getD 0)) := by
  intro reqs
  induction reqs with
  | nil => intros; trivial
  | cons r reqs ih =>
    intro hcan hmm
    obtain ⟨n, hn, hle⟩ := hcan r (by simp)
    have := hmm r (by simp)
    show Within _ _ _
    simp only [List.map_cons, Within, hn, Option.getD_some]
    exact ⟨by omega, by omega, ih (fun r hr => hcan r (by simp [hr])) (fun r hr => hmm r (by simp [hr]))⟩

/-- What `run_with_contractor` gives when it reports a finite finish. -/
theorem runWithContractor_spec {pool : WPool} {parent reqs spec opt find c s f team}
    (h : runWithContractor pool parent reqs spec opt find c = some (s, f, team)) (hf : tIsInf f = false) :
    (∀ r ∈ reqs, ∃ n, pool r.kind c.id = some n ∧ r.minCount ≤ n) ∧ find c team = some (s, f) ∧
    applyTeamSpec reqs (reqs.map fun r => ⟨c.id, r.kind, (pool r.kind c.id).getD 0⟩) spec.assigned
      (fun arr counts => opt arr (reqs.map (·.minCount)) (reqs.map fun r => min r.maxCount ((pool r.kind c.id).getD 0)) counts)
      = some team := by
  unfold runWithContractor at h
  simp only [getWorkerBorders, borders_go] at h
  by_cases hcan : ∀ r ∈ reqs, ∃ n, pool r.kind c.id = some n ∧ r.minCount ≤ n
  · simp only [if_pos hcan, List.nil_append, List.length_map, ne_eq, not_true_eq_false, if_false,
      Option.bind_eq_some_iff, Option.some.injEq, Prod.mk.injEq] at h
    obtain ⟨t, h1, ⟨s', f'⟩, h2, rfl, rfl, rfl⟩ := h
    exact ⟨hcan, h2, h1⟩
  · simp only [if_neg hcan] at h
    have hne : reqs ≠ [] := by rintro rfl; simp at hcan
    have hl : ([] : List Worker).length ≠ reqs.length := by
      intro h0; exact hne (List.length_eq_zero_iff.mp h0.symm)
    rw [if_pos hl] at h
    simp only [Option.some.injEq, Prod.mk.injEq] at h
    obtain ⟨_, rfl, _⟩ := h
    have : tIsInf timeInf = true := by decide
    rw [this] at hf; simp at hf

end Sampo
