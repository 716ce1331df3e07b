import Verif.Spec.Even
import Verif.Lemmas.Contractor
import Mathlib.Tactic.Linarith
import Mathlib.Tactic.FieldSimp
import Mathlib.Tactic.Positivity

/-!
# Lemmas on the choice of contractors by LFT
-/

namespace Sampo.LFT

theorem foldl_max_mem (xs : List ℚ) (x : ℚ) : xs.foldl max x ∈ x :: xs := by
  induction xs generalizing x with
  | nil => simp
  | cons y ys ih =>
    rw [List.foldl_cons]
    have := ih (max x y)
    rcases List.mem_cons.mp this with h | h
    · rw [h]
      rcases max_choice x y with h' | h' <;> simp [h']
    · exact List.mem_cons_of_mem _ (List.mem_cons_of_mem _ h)

theorem le_foldl_max (xs : List ℚ) (x : ℚ) : ∀ y ∈ x :: xs, y ≤ xs.foldl max x := by
  induction xs generalizing x with
  | nil => simp
  | cons z zs ih =>
    intro y hy
    rw [List.foldl_cons]
    rcases List.mem_cons.mp hy with rfl | hy
    · exact le_trans (le_max_left _ _) (ih _ _ List.mem_cons_self)
    · rcases List.mem_cons.mp hy with rfl | hy
      · exact le_trans (le_max_right _ _) (ih _ _ List.mem_cons_self)
      · exact ih _ _ (List.mem_cons_of_mem _ hy)

/-- The index of `np.argmax` is one of a largest element. -/
theorem argmax_spec {xs : List ℚ} (h : xs ≠ []) : ∃ y, xs[argmax xs]? = some y ∧ ∀ x ∈ xs, x ≤ y := by
  cases xs with
  | nil => exact absurd rfl h
  | cons x xs =>
    refine ⟨xs.foldl max x, ?_, le_foldl_max xs x⟩
    have hm := foldl_max_mem xs x
    have hlt := List.idxOf_lt_length_of_mem hm
    show (x :: xs)[(x :: xs).idxOf _]? = _
    rw [List.getElem?_eq_getElem hlt, List.getElem_idxOf hlt]

theorem idxOf_getElem_le {xs : List ℚ} {j : Nat} (h : j < xs.length) : xs.idxOf xs[j] ≤ j := by
  induction xs generalizing j with
  | nil => exact absurd h (Nat.not_lt_zero _)
  | cons x xs ih =>
    cases j with
    | zero => simp
    | succ j =>
      rw [List.getElem_cons_succ, List.idxOf_cons]
      cases hb : x == xs[j]'(by simpa using h) with
      | true => simp
      | false =>
        simp only [cond_false]
        have := ih (j := j) (by simpa using h)
        omega

/-- ... the first of them. -/
theorem argmax_first {xs : List ℚ} {j : Nat} (hj : j < argmax xs) : ∃ x y, xs[j]? = some x ∧ xs[argmax xs]? = some y ∧ x < y := by
  cases xs with
  | nil => exact absurd hj (Nat.not_lt_zero _)
  | cons x xs =>
    obtain ⟨y, hy, hle⟩ := argmax_spec (List.cons_ne_nil x xs)
    have hlt : j < (x :: xs).length := lt_trans hj (List.idxOf_lt_length_of_mem (foldl_max_mem xs x))
    refine ⟨(x :: xs)[j], y, List.getElem?_eq_getElem hlt, hy, lt_of_le_of_ne (hle _ (List.getElem_mem _)) fun he => ?_⟩
    have hy' : y = xs.foldl max x := by
      have hm := foldl_max_mem xs x
      have hlt := List.idxOf_lt_length_of_mem hm
      change (x :: xs)[(x :: xs).idxOf _]? = _ at hy
      rw [List.getElem?_eq_getElem hlt, List.getElem_idxOf hlt] at hy
      exact (Option.some.inj hy).symm
    have : (x :: xs).idxOf (xs.foldl max x) ≤ j := by
      rw [← hy', ← he]
      exact idxOf_getElem_le hlt
    exact absurd hj (Nat.not_lt.mpr this)

theorem filter_all {α : Type} {xs : List α} {m : List Bool} (hl : xs.length = m.length) (hm : ∀ b ∈ m, b = true) :
    ((xs.zip m).filter (·.2)).map (·.1) = xs := by
  induction xs generalizing m with
  | nil => rfl
  | cons x xs ih =>
    cases m with
    | nil => simp at hl
    | cons b m =>
      have hb := hm b List.mem_cons_self
      subst hb
      simp [ih (by simpa using hl) fun b hb => hm b (List.mem_cons_of_mem _ hb)]

theorem foldl_tAdd_nonneg {xs : List Int} (h : ∀ x ∈ xs, 0 ≤ x) {a : Int} (ha : 0 ≤ a) : 0 ≤ xs.foldl tAdd a := by
  induction xs generalizing a with
  | nil => exact ha
  | cons x xs ih =>
    refine ih (fun y hy => h y (List.mem_cons_of_mem _ hy)) ?_
    have := h x List.mem_cons_self
    unfold tAdd mkTime TIME_INF
    split
    · decide
    · split <;> omega

/-- Durations are at least one. -/
theorem chainDuration_pos {σ : Type} {E : Env σ} (hest : ∀ v team, 0 ≤ E.estimate v team) (nobody : Nat) (reqs : Nat → List WorkerReq)
    (v : Nat) (amounts : List Int) : 0 < chainDuration E nobody reqs v amounts := by
  unfold chainDuration
  dsimp only
  split
  · decide
  · have := foldl_tAdd_nonneg (xs := (E.chain v).map fun u => E.estimate u (((reqs v).zip amounts).map fun x => ⟨nobody, x.1.kind, x.2⟩))
      (by simp only [List.mem_map]; rintro _ ⟨u, _, rfl⟩; exact hest _ _) (a := 0) (Int.le_refl _)
    omega

/-- The result of one round when `contractorsAndAmounts` gives `l`. -/
theorem assignWork_some {contractors : List Contractor} {spec : Nat → WorkSpec} {reqs : Nat → List WorkerReq}
    {chainDur : Nat → List Int → Int} {pick : Nat → List ℚ → Nat} {A A' : Assignment} {v : Nat}
    (h : assignWork contractors spec reqs chainDur pick A v = some A') :
    ∃ l i ca, contractorsAndAmounts (getPool contractors) contractors (spec v) (reqs v) = .ok l ∧ l[i]? = some ca ∧
      i = pick v (scores (l.map fun ca => chainDur v ca.2)
        (((A.counts.zip (contractors.map (accepted (getPool contractors) (spec v) (reqs v)))).filter (·.2)).map (·.1)) A.counts.sum) ∧
      A' = ⟨A.counts.modify i (· + 1), A.teams ++ [(v, ca.1.id, ((reqs v).zip ca.2).map fun x => ⟨ca.1.id, x.1.kind, x.2⟩)],
          A.durations ++ [(v, chainDur v ca.2)]⟩ := by
  unfold assignWork at h
  split at h
  · cases h
  · rename_i l hl
    dsimp only at h
    rw [Option.bind_eq_some_iff] at h
    obtain ⟨ca, hca, h⟩ := h
    rw [Option.bind_eq_some_iff] at h
    obtain ⟨d, hd, h⟩ := h
    split at h
    · rw [List.getElem?_map, hca] at hd
      simp only [Option.map_some, Option.some.injEq] at hd h
      subst hd
      exact ⟨l, _, ca, hl, hca, rfl, h.symm⟩
    · cases h

/-- One round if all contractors are accepted. -/
theorem assignWork_all {contractors : List Contractor} {spec : Nat → WorkSpec} {reqs : Nat → List WorkerReq}
    {chainDur : Nat → List Int → Int} {A : Assignment} {v : Nat} (hne : contractors ≠ [])
    (hok : ∃ l, contractorsAndAmounts (getPool contractors) contractors (spec v) (reqs v) = .ok l)
    (hacc : ∀ c ∈ contractors, accepted (getPool contractors) (spec v) (reqs v) c = true)
    (hdur : ∀ c ∈ contractors, 0 < chainDur v (amounts (getPool contractors) (spec v) (reqs v) c))
    (hlen : A.counts.length = contractors.length) (hpos : ∀ n ∈ A.counts, 0 < n) :
    ∃ i c n, contractors[i]? = some c ∧ A.counts[i]? = some n ∧
      assignWork contractors spec reqs chainDur (fun _ => argmax) A v = some ⟨A.counts.modify i (· + 1),
        A.teams ++ [(v, c.id, ((reqs v).zip (amounts (getPool contractors) (spec v) (reqs v) c)).map fun x => ⟨c.id, x.1.kind, x.2⟩)],
        A.durations ++ [(v, chainDur v (amounts (getPool contractors) (spec v) (reqs v) c))]⟩ ∧
      ∀ (j : Nat) c' n', contractors[j]? = some c' → A.counts[j]? = some n' →
        let d := chainDur v (amounts (getPool contractors) (spec v) (reqs v) c)
        let d' := chainDur v (amounts (getPool contractors) (spec v) (reqs v) c')
        ¬ (d' ≤ d ∧ n' < n) ∧ ¬ (d' < d ∧ n' ≤ n) ∧ (j < i → d' ≤ d → n' ≤ n → False) := by
  obtain ⟨l, hl⟩ := hok
  have hl' : l = contractors.map fun c => (c, amounts (getPool contractors) (spec v) (reqs v) c) := by
    unfold contractorsAndAmounts at hl
    split at hl
    · cases hl
    · split at hl
      · cases hl
      · split at hl
        · cases hl
        · simp only [Except.ok.injEq] at hl
          rw [← hl, List.filter_eq_self.mpr hacc]
  have hcnt : ((A.counts.zip (contractors.map (accepted (getPool contractors) (spec v) (reqs v)))).filter (·.2)).map (·.1) = A.counts :=
    filter_all (by simp [hlen]) (by simp only [List.mem_map]; rintro _ ⟨c, hc, rfl⟩; exact hacc c hc)
  set D : Contractor → Int := fun c => chainDur v (amounts (getPool contractors) (spec v) (reqs v) c) with hD
  have hdurs : (l.map fun ca => chainDur v ca.2) = contractors.map D := by rw [hl', List.map_map]; rfl
  set sc := scores (contractors.map D) A.counts A.counts.sum with hsc
  have hsclen : sc.length = contractors.length := by rw [hsc]; unfold scores; rw [List.length_zipWith, List.length_map, hlen, Nat.min_self]
  have hscne : sc ≠ [] := by
    intro h
    rw [h] at hsclen
    exact hne (List.length_eq_zero_iff.mp hsclen.symm)
  obtain ⟨y, hy, hmax⟩ := argmax_spec hscne
  have hfirst := fun j => @argmax_first sc j
  generalize hi : argmax sc = i at hy hfirst
  have hiltc : i < contractors.length := by
    rw [← hsclen]
    exact (List.getElem?_eq_some_iff.mp hy).1
  have hic := List.getElem?_eq_getElem hiltc
  have hin := List.getElem?_eq_getElem (show i < A.counts.length by omega)
  generalize contractors[i] = c at hic
  generalize A.counts[i]'(by omega) = n at hin
  have hcm : c ∈ contractors := List.mem_of_getElem? hic
  have hS : 0 < (contractors.map D).sum := by
    have h0 : ∀ x ∈ contractors.map D, 0 < x := by
      simp only [List.mem_map]; rintro _ ⟨c, hc, rfl⟩; exact hdur c hc
    exact List.sum_pos _ h0 (by simpa using hne)
  have hT : 0 < A.counts.sum := List.sum_pos _ hpos (by
    intro h
    rw [h] at hlen
    exact hne (List.length_eq_zero_iff.mp hlen.symm))
  have hscore : ∀ (j : Nat) c' n', contractors[j]? = some c' → A.counts[j]? = some n' →
      sc[j]? = some (2 - ((D c' : ℚ) / ((contractors.map D).sum : ℤ) + (n' : ℚ) / (A.counts.sum : ℤ))) := by
    intro j c' n' hj hj'
    rw [hsc]
    unfold scores
    rw [List.getElem?_zipWith, List.getElem?_map, hj, hj']
    rfl
  refine ⟨i, c, n, hic, hin, ?_, fun j c' n' hj hj' => ?_⟩
  · have hen : (spec v).enabled c.id = true := by
      have := hacc c hcm
      unfold accepted at this
      simp only [Bool.and_eq_true] at this
      exact this.2
    unfold assignWork
    rw [hl]
    dsimp only
    rw [hcnt, hdurs, ← hsc, hi, hl']
    simp only [List.getElem?_map, hic, Option.map_some, Option.bind_some, hen, if_true]
    rfl
  · have hyv := hscore i c n hic hin
    rw [hy] at hyv
    simp only [Option.some.injEq] at hyv
    have hjv := hscore j c' n' hj hj'
    have hle := hmax _ (List.mem_of_getElem? hjv)
    have hSq : (0 : ℚ) < ((contractors.map D).sum : ℤ) := by exact_mod_cast hS
    have hTq : (0 : ℚ) < (A.counts.sum : ℤ) := by exact_mod_cast hT
    have key : ∀ a b : Int, a ≤ b → (a : ℚ) / ((contractors.map D).sum : ℤ) ≤ (b : ℚ) / ((contractors.map D).sum : ℤ) := by
      intro a b hab
      exact div_le_div_of_nonneg_right (by exact_mod_cast hab) hSq.le
    have key' : ∀ a b : Int, a ≤ b → (a : ℚ) / (A.counts.sum : ℤ) ≤ (b : ℚ) / (A.counts.sum : ℤ) := by
      intro a b hab
      exact div_le_div_of_nonneg_right (by exact_mod_cast hab) hTq.le
    have keyS : ∀ a b : Int, a < b → (a : ℚ) / ((contractors.map D).sum : ℤ) < (b : ℚ) / ((contractors.map D).sum : ℤ) := by
      intro a b hab
      exact div_lt_div_of_pos_right (by exact_mod_cast hab) hSq
    have keyT : ∀ a b : Int, a < b → (a : ℚ) / (A.counts.sum : ℤ) < (b : ℚ) / (A.counts.sum : ℤ) := by
      intro a b hab
      exact div_lt_div_of_pos_right (by exact_mod_cast hab) hTq
    refine ⟨fun ⟨h1, h2⟩ => ?_, fun ⟨h1, h2⟩ => ?_, fun hji h1 h2 => ?_⟩
    · have a1 := key _ _ h1
      have a2 := keyT _ _ h2
      rw [hyv] at hle
      linarith
    · have a1 := keyS _ _ h1
      have a2 := key' _ _ h2
      rw [hyv] at hle
      linarith
    · obtain ⟨x, y', hx, hy', hlt⟩ := hfirst j hji
      rw [hy, Option.some.injEq] at hy'
      rw [hjv, Option.some.injEq] at hx
      have a1 := key _ _ h1
      have a2 := key' _ _ h2
      rw [← hx, ← hy', hyv] at hlt
      linarith

theorem length_accepted {α : Type} {xs : List α} {ys : List Bool} (h : xs.length = ys.length) :
    ((xs.zip ys).filter (·.2)).length = (ys.filter id).length := by
  induction xs generalizing ys with
  | nil => cases ys with
    | nil => rfl
    | cons y ys => simp at h
  | cons x xs ih => cases ys with
    | nil => simp at h
    | cons y ys =>
      have := ih (ys := ys) (by simpa using h)
      cases y <;> simp [this]

theorem contractorsAndAmounts_ok {pool : WPool} {contractors : List Contractor} {spec : WorkSpec} {reqs : List WorkerReq}
    {l : List (Contractor × List Int)} (h : contractorsAndAmounts pool contractors spec reqs = .ok l) :
    l ≠ [] ∧ l = (contractors.filter (accepted pool spec reqs)).map fun c => (c, amounts pool spec reqs c) := by
  unfold contractorsAndAmounts at h
  split at h
  · cases h
  · split at h
    · cases h
    · split at h
      · cases h
      · rename_i hany
        simp only [Except.ok.injEq] at h
        refine ⟨?_, h.symm⟩
        rw [← h]
        simp only [Bool.not_eq_true, Bool.not_eq_false', List.any_eq_true, Bool.not_eq_eq_eq_not, Bool.not_true, Bool.not_eq_false] at hany
        obtain ⟨c, hc, ha⟩ := hany
        intro he
        rw [List.map_eq_nil_iff, List.filter_eq_nil_iff] at he
        exact he c hc ha

theorem scores_length {contractors : List Contractor} {spec : Nat → WorkSpec} {reqs : Nat → List WorkerReq}
    {chainDur : Nat → List Int → Int} {A : Assignment} {v : Nat} {l : List (Contractor × List Int)}
    (hl : contractorsAndAmounts (getPool contractors) contractors (spec v) (reqs v) = .ok l)
    (hlen : A.counts.length = contractors.length) (total : Int) :
    (((A.counts.zip (contractors.map (accepted (getPool contractors) (spec v) (reqs v)))).filter (·.2)).map (·.1)).length = l.length ∧
    (scores (l.map fun ca => chainDur v ca.2)
        (((A.counts.zip (contractors.map (accepted (getPool contractors) (spec v) (reqs v)))).filter (·.2)).map (·.1)) total).length =
      l.length := by
  have h1 : (((A.counts.zip (contractors.map (accepted (getPool contractors) (spec v) (reqs v)))).filter (·.2)).map (·.1)).length =
      l.length := by
    rw [List.length_map, length_accepted (by simp [hlen]), (contractorsAndAmounts_ok hl).2, List.length_map, List.filter_map, List.length_map]
    rfl
  refine ⟨h1, ?_⟩
  unfold scores
  rw [List.length_zipWith, h1, List.length_map, Nat.min_self]

/-- A round answers if the work is accepted for some contractor. -/
theorem assignWork_answers {contractors : List Contractor} {spec : Nat → WorkSpec} {reqs : Nat → List WorkerReq}
    {chainDur : Nat → List Int → Int} {pick : Nat → List ℚ → Nat} (hpick : ∀ v sc, sc ≠ [] → pick v sc < sc.length) {A : Assignment}
    {v : Nat} (hok : ∃ l, contractorsAndAmounts (getPool contractors) contractors (spec v) (reqs v) = .ok l)
    (hlen : A.counts.length = contractors.length) : ∃ A', assignWork contractors spec reqs chainDur pick A v = some A' := by
  obtain ⟨l, hl⟩ := hok
  obtain ⟨hne, hl'⟩ := contractorsAndAmounts_ok hl
  obtain ⟨-, hs⟩ := scores_length (chainDur := chainDur) hl hlen A.counts.sum
  unfold assignWork
  rw [hl]
  dsimp only
  generalize hsc : scores (l.map fun ca => chainDur v ca.2) _ _ = sc at hs
  have hlt := hpick v sc (by
    intro h
    rw [h] at hs
    exact hne (List.length_eq_zero_iff.mp hs.symm))
  rw [hs] at hlt
  have hca := List.getElem?_eq_getElem hlt
  generalize l[pick v sc] = ca at hca
  have hmem : ca ∈ l := List.mem_of_getElem? hca
  rw [hl', List.mem_map] at hmem
  obtain ⟨c, hc, rfl⟩ := hmem
  have hen : (spec v).enabled c.id = true := by
    have := (List.mem_filter.mp hc).2
    unfold accepted at this
    simp only [Bool.and_eq_true] at this
    exact this.2
  rw [List.getElem?_map, hca]
  simp only [Option.bind_some, Option.map_some, hen, if_true]
  exact ⟨_, rfl⟩

/-- The counters show the numbers of works. -/
def Counted (contractors : List Contractor) (A : Assignment) : Prop :=
  A.counts = contractors.map fun c => 1 + (A.works c.id : Int)

theorem Counted.length {contractors : List Contractor} {A : Assignment} (h : Counted contractors A) :
    A.counts.length = contractors.length := by rw [h]; simp

theorem Counted.pos {contractors : List Contractor} {A : Assignment} (h : Counted contractors A) : ∀ n ∈ A.counts, 0 < n := by
  rw [h]
  simp only [List.mem_map]
  rintro _ ⟨c, _, rfl⟩
  omega

theorem works_append (A : Assignment) (counts : List Int) (durs : List (Nat × Int)) (v c : Nat) (team : List Worker) (k : Nat) :
    (Assignment.mk counts (A.teams ++ [(v, c, team)]) durs).works k = A.works k + if c = k then 1 else 0 := by
  unfold Assignment.works
  rw [List.filter_append, List.length_append]
  by_cases h : c = k <;> simp [h]

theorem Counted.next {contractors : List Contractor} (hids : (contractors.map (·.id)).Nodup) {A : Assignment}
    (h : Counted contractors A) {i : Nat} {c : Contractor} (hi : contractors[i]? = some c) (v : Nat) (team : List Worker)
    (durs : List (Nat × Int)) : Counted contractors ⟨A.counts.modify i (· + 1), A.teams ++ [(v, c.id, team)], durs⟩ := by
  unfold Counted
  apply List.ext_getElem?
  intro j
  rw [List.getElem?_modify, List.getElem?_map]
  have hj : A.counts[j]? = (contractors[j]?).map fun c => 1 + (A.works c.id : Int) := by
    conv_lhs => rw [h]
    rw [List.getElem?_map]
  rw [hj]
  cases hcj : contractors[j]? with
  | none => simp
  | some c' =>
    simp only [Option.map_some, works_append]
    by_cases hij : i = j
    · subst hij
      rw [hi, Option.some.injEq] at hcj
      subst hcj
      simp
      omega
    · have hne : c.id ≠ c'.id := by
        intro he
        have hil := (List.getElem?_eq_some_iff.mp hi).1
        have hjl := (List.getElem?_eq_some_iff.mp hcj).1
        apply hij
        rw [List.nodup_iff_injective_getElem] at hids
        have := @hids ⟨i, by simpa using hil⟩ ⟨j, by simpa using hjl⟩ (by
          simp only [List.getElem_map]
          rw [(List.getElem?_eq_some_iff.mp hi).2, (List.getElem?_eq_some_iff.mp hcj).2]
          exact he)
        simpa using this
      simp [hij, hne]

end Sampo.LFT
