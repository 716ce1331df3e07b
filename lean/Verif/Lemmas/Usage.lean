import Verif.Spec.Usage
import Mathlib.Algebra.Order.BigOperators.Group.List
import Mathlib.Tactic.ByContra

/-! Lemmas about reports of resource usage. -/

namespace Sampo.Usage

/-! ## Points -/

theorem mem_insertPoint {x y : Int} {ps : List Int} : y ∈ insertPoint x ps ↔ y = x ∨ y ∈ ps := by
  induction ps with
  | nil => simp [insertPoint]
  | cons p ps ih =>
    unfold insertPoint
    split
    · simp
    · split
      · rename_i h; subst h; simp
      · simp only [List.mem_cons, ih]; constructor <;> (rintro (h | h | h) <;> simp [h])

theorem insertPoint_sorted {x : Int} {ps : List Int} (h : ps.Pairwise (· < ·)) : (insertPoint x ps).Pairwise (· < ·) := by
  induction ps with
  | nil => simp [insertPoint]
  | cons p ps ih =>
    unfold insertPoint
    obtain ⟨h1, h2⟩ := List.pairwise_cons.mp h
    split
    · rename_i hx
      refine List.pairwise_cons.mpr ⟨?_, h⟩
      intro y hy
      rcases List.mem_cons.mp hy with rfl | hy
      · exact hx
      · have := h1 y hy; omega
    · split
      · exact h
      · refine List.pairwise_cons.mpr ⟨?_, ih h2⟩
        intro y hy
        rcases mem_insertPoint.mp hy with rfl | hy
        · omega
        · exact h1 y hy

theorem points_sorted (jobs : List Job) : (points jobs).Pairwise (· < ·) := by
  unfold points
  induction (jobs.flatMap fun j => [j.start, j.finish]) with
  | nil => simp
  | cons x xs ih => exact insertPoint_sorted ih

theorem mem_points {jobs : List Job} {x : Int} : x ∈ points jobs ↔ ∃ j ∈ jobs, x = j.start ∨ x = j.finish := by
  have : x ∈ points jobs ↔ x ∈ jobs.flatMap fun j => [j.start, j.finish] := by
    unfold points
    induction (jobs.flatMap fun j => [j.start, j.finish]) with
    | nil => simp
    | cons y ys ih => rw [List.foldr_cons, mem_insertPoint, ih]; simp
  rw [this]; simp

theorem bisectLeft_le {x : Int} : ∀ {ps : List Int}, ps.Pairwise (· < ·) → ∀ {i : Nat} {p : Int}, ps[i]? = some p →
    (bisectLeft ps x ≤ i ↔ x ≤ p) := by
  intro ps
  induction ps with
  | nil => intro _ i p h; simp at h
  | cons y ys ih =>
    intro hs i p h
    obtain ⟨h1, h2⟩ := List.pairwise_cons.mp hs
    unfold bisectLeft
    cases i with
    | zero =>
      simp at h; subst h
      split <;> simp <;> omega
    | succ i =>
      rw [List.getElem?_cons_succ] at h
      have hp := h1 p (List.mem_of_getElem? h)
      split
      · rw [Nat.add_le_add_iff_right]; exact ih h2 h
      · simp; omega

/-! ## Rows -/

theorem addSlice_get {c : Int} : ∀ {vs : List Int} {s f i : Nat},
    (addSlice vs s f c)[i]? = vs[i]?.map fun v => if s ≤ i ∧ i < f then v + c else v := by
  intro vs
  induction vs with
  | nil => intro s f i; simp [addSlice]
  | cons v vs ih =>
    intro s f i
    cases s with
    | zero =>
      cases f with
      | zero => simp [addSlice]
      | succ f =>
        cases i with
        | zero => simp [addSlice]
        | succ i => simp [addSlice, ih]
    | succ s =>
      cases i with
      | zero => simp [addSlice]
      | succ i =>
        simp only [addSlice, List.getElem?_cons_succ, ih]
        congr 1
        funext x
        by_cases h : s ≤ i ∧ i < f - 1
        · rw [if_pos h, if_pos (by omega)]
        · rw [if_neg h, if_neg (by omega)]

theorem addSlice_length {c : Int} : ∀ {vs : List Int} {s f : Nat}, (addSlice vs s f c).length = vs.length := by
  intro vs
  induction vs with
  | nil => intro s f; simp [addSlice]
  | cons v vs ih =>
    intro s f
    cases s with
    | zero => cases f <;> simp [addSlice, ih]
    | succ s => simp [addSlice, ih]

/-- The row of a resource; all zeros if there is none. -/
def rowOf (n : Nat) (rows : List (Nat × List Int)) (name : Nat) : List Int :=
  ((rows.find? fun r => r.1 = name).map (·.2)).getD (List.replicate n 0)

theorem rowOf_charge {n s f : Nat} {c : Int} {name : Nat} {rows : List (Nat × List Int)} (k : Nat) :
    rowOf n (charge n s f c name rows) k = if k = name then addSlice (rowOf n rows name) s f c else rowOf n rows k := by
  induction rows with
  | nil =>
    unfold rowOf charge
    by_cases h : k = name
    · subst h; simp
    · have : ¬ name = k := fun hh => h hh.symm
      simp [h, this]
  | cons row rows ih =>
    unfold charge
    by_cases hr : row.1 = name
    · rw [if_pos hr]
      unfold rowOf
      by_cases h : k = name
      · subst h; simp [hr]
      · have h1 : ¬ name = k := fun hh => h hh.symm
        have h2 : ¬ row.1 = k := by rw [hr]; exact h1
        simp [h, h1, h2]
    · rw [if_neg hr]
      unfold rowOf at ih ⊢
      by_cases h2 : row.1 = k
      · have h : ¬ k = name := by rw [← h2]; exact hr
        simp [h2, h]
      · rw [List.find?_cons_of_neg (by simpa using h2), ih,
          List.find?_cons_of_neg (p := fun r : Nat × List Int => decide (r.1 = name)) (by simpa using hr),
          List.find?_cons_of_neg (p := fun r : Nat × List Int => decide (r.1 = k)) (by simpa using h2)]

theorem charge_keys {n s f : Nat} {c : Int} {name : Nat} {rows : List (Nat × List Int)} :
    (charge n s f c name rows).map (·.1) = if name ∈ rows.map (·.1) then rows.map (·.1) else rows.map (·.1) ++ [name] := by
  induction rows with
  | nil => simp [charge]
  | cons row rows ih =>
    unfold charge
    by_cases hr : row.1 = name
    · subst hr; simp
    · rw [if_neg hr, List.map_cons, ih]
      have : ¬ name = row.1 := fun h => hr h.symm
      by_cases h : name ∈ rows.map (·.1)
      · rw [if_pos h, if_pos (by rw [List.map_cons]; exact List.mem_cons_of_mem _ h)]; simp
      · rw [if_neg h, if_neg (by rw [List.map_cons, List.mem_cons]; rintro (h' | h') <;> contradiction)]; simp

/-- What the rows are after some jobs. -/
structure Rows (ps : List Int) (names : Option (List Nat)) (rows : List (Nat × List Int)) (crews : List (Job × Crew)) : Prop where
  nodup : (rows.map (·.1)).Nodup
  keys : ∀ k, k ∈ rows.map (·.1) ↔ wanted names k = true ∧ ∃ jc ∈ crews, jc.2.name = k
  length : ∀ k, (rowOf ps.length rows k).length = ps.length
  value : ∀ k, wanted names k = true → ∀ (i : Nat) (p : Int), ps[i]? = some p → (rowOf ps.length rows k)[i]? =
    some (((crews.filter fun jc => jc.1.at p ∧ jc.2.name = k).map fun jc => jc.2.count).sum)

theorem rows_nil (ps : List Int) (names : Option (List Nat)) : Rows ps names [] [] := by
  refine ⟨by simp, by simp, by simp [rowOf], ?_⟩
  intro k _ i p h
  have : i < ps.length := (List.getElem?_eq_some_iff.mp h).1
  simp [rowOf, this]

theorem rows_charge {ps : List Int} (hs : ps.Pairwise (· < ·)) {names : Option (List Nat)} {rows : List (Nat × List Int)}
    {crews : List (Job × Crew)} (h : Rows ps names rows crews) (j : Job) (w : Crew) :
    Rows ps names (if wanted names w.name then
      charge ps.length (bisectLeft ps j.start) (bisectLeft ps j.finish) w.count w.name rows else rows) (crews ++ [(j, w)]) := by
  by_cases hw : wanted names w.name = true
  · rw [if_pos hw]
    refine ⟨?_, ?_, ?_, ?_⟩
    · rw [charge_keys]
      split
      · exact h.nodup
      · rename_i hn
        exact List.nodup_append.mpr ⟨h.nodup, by simp, by
          intro a ha b hb heq
          simp only [List.mem_singleton] at hb
          subst hb; subst heq; exact hn ha⟩
    · intro k
      rw [charge_keys]
      have hk := h.keys k
      split
      · rename_i hin
        rw [hk]
        constructor
        · rintro ⟨h1, jc, h2, h3⟩; exact ⟨h1, jc, by simp [h2], h3⟩
        · rintro ⟨h1, jc, h2, h3⟩
          rcases List.mem_append.mp h2 with h2 | h2
          · exact ⟨h1, jc, h2, h3⟩
          · simp only [List.mem_singleton] at h2
            subst h2
            dsimp only at h3; subst h3
            exact (h.keys _).mp hin
      · rw [List.mem_append, hk]
        constructor
        · rintro (⟨h1, jc, h2, h3⟩ | h2)
          · exact ⟨h1, jc, by simp [h2], h3⟩
          · simp only [List.mem_singleton] at h2
            subst h2
            exact ⟨hw, (j, w), by simp, rfl⟩
        · rintro ⟨h1, jc, h2, h3⟩
          rcases List.mem_append.mp h2 with h2 | h2
          · exact Or.inl ⟨h1, jc, h2, h3⟩
          · simp only [List.mem_singleton] at h2
            subst h2
            exact Or.inr (by simp [← h3])
    · intro k
      rw [rowOf_charge]
      split
      · rw [addSlice_length]; exact h.length _
      · exact h.length _
    · intro k hk i p hp
      rw [rowOf_charge, List.filter_append, List.map_append, List.sum_append]
      by_cases hkn : k = w.name
      · subst hkn
        rw [if_pos rfl, addSlice_get, h.value _ hk i p hp]
        have e1 := bisectLeft_le (x := j.start) hs hp
        have e2 := bisectLeft_le (x := j.finish) hs hp
        by_cases hat : j.at p
        · have hat' := hat
          unfold Job.at at hat'
          rw [Option.map_some, if_pos ⟨e1.mpr hat'.1, by rw [← Nat.not_le, e2]; omega⟩]
          simp [hat]
        · have : ¬ (bisectLeft ps j.start ≤ i ∧ i < bisectLeft ps j.finish) := by
            rw [e1, ← Nat.not_le, e2]
            unfold Job.at at hat; omega
          rw [Option.map_some, if_neg this]
          simp [hat]
      · rw [if_neg hkn, h.value k hk i p hp]
        have : ¬ w.name = k := fun hh => hkn hh.symm
        simp [this]
  · rw [if_neg hw]
    refine ⟨h.nodup, ?_, h.length, ?_⟩
    · intro k
      rw [h.keys k]
      constructor
      · rintro ⟨h1, jc, h2, h3⟩; exact ⟨h1, jc, by simp [h2], h3⟩
      · rintro ⟨h1, jc, h2, h3⟩
        rcases List.mem_append.mp h2 with h2 | h2
        · exact ⟨h1, jc, h2, h3⟩
        · simp only [List.mem_singleton] at h2
          subst h2
          dsimp only at h3; subst h3
          exact absurd h1 hw
    · intro k hk i p hp
      rw [h.value k hk i p hp, List.filter_append, List.map_append, List.sum_append]
      have : ¬ w.name = k := by rintro rfl; exact hw hk
      simp [this]

theorem rows_job {ps : List Int} (hs : ps.Pairwise (· < ·)) {names : Option (List Nat)} (j : Job) : ∀ (ws : List Crew)
    {rows : List (Nat × List Int)} {crews : List (Job × Crew)}, Rows ps names rows crews →
    Rows ps names (ws.foldl (fun rows w => if wanted names w.name then
      charge ps.length (bisectLeft ps j.start) (bisectLeft ps j.finish) w.count w.name rows else rows) rows)
      (crews ++ ws.map fun w => (j, w)) := by
  intro ws
  induction ws with
  | nil => intro rows crews h; simpa using h
  | cons w ws ih =>
    intro rows crews h
    have := ih (rows_charge hs h j w)
    rw [List.foldl_cons, List.map_cons]
    rwa [List.append_assoc, List.singleton_append] at this

theorem rows_jobs {ps : List Int} (hs : ps.Pairwise (· < ·)) {names : Option (List Nat)} : ∀ (jobs : List Job)
    {rows : List (Nat × List Int)} {crews : List (Job × Crew)}, Rows ps names rows crews →
    Rows ps names (jobs.foldl (chargeJob ps names) rows) (crews ++ jobs.flatMap fun j => j.workers.map fun w => (j, w)) := by
  intro jobs
  induction jobs with
  | nil => intro rows crews h; simpa using h
  | cons j jobs ih =>
    intro rows crews h
    have := ih (rows_job hs j j.workers h)
    rw [List.foldl_cons, List.flatMap_cons]
    rwa [List.append_assoc] at this

theorem rows_total (jobs : List Job) (names : Option (List Nat)) :
    Rows (points jobs) names (totalUsage jobs names) (jobs.flatMap fun j => j.workers.map fun w => (j, w)) := by
  unfold totalUsage
  simpa using rows_jobs (points_sorted jobs) jobs (rows_nil (points jobs) names)

theorem inUse_eq (jobs : List Job) (k : Nat) (t : Int) :
    (((jobs.flatMap fun j => j.workers.map fun w => (j, w)).filter fun jc => jc.1.at t ∧ jc.2.name = k).map
      fun jc => jc.2.count).sum = inUse jobs k t := by
  unfold inUse
  induction jobs with
  | nil => simp
  | cons j jobs ih =>
    rw [List.flatMap_cons, List.filter_append, List.map_append, List.sum_append, ih]
    by_cases h : j.at t
    · rw [List.filter_cons_of_pos (by simpa using h), List.map_cons, List.sum_cons]
      congr 1
      rw [List.filter_map, List.map_map]
      simp [Function.comp_def, h]
    · rw [List.filter_cons_of_neg (by simpa using h)]
      have : ((j.workers.map fun w => (j, w)).filter fun jc => jc.1.at t ∧ jc.2.name = k) = [] := by
        rw [List.filter_eq_nil_iff]
        intro x hx
        obtain ⟨w, _, rfl⟩ := List.mem_map.mp hx
        simp [h]
      rw [this]; simp

theorem row_mem {n : Nat} : ∀ {rows : List (Nat × List Int)}, (rows.map (·.1)).Nodup → ∀ row ∈ rows, rowOf n rows row.1 = row.2 := by
  intro rows
  induction rows with
  | nil => intro _ row h; simp at h
  | cons r rows ih =>
    intro hn row h
    rw [List.map_cons, List.nodup_cons] at hn
    unfold rowOf at ih ⊢
    rcases List.mem_cons.mp h with rfl | h
    · simp
    · have : ¬ r.1 = row.1 := fun heq => hn.1 (by rw [heq]; exact List.mem_map_of_mem h)
      rw [List.find?_cons_of_neg (by simpa using this)]
      exact ih hn.2 row h

/-! ## Maximum -/

theorem maximum_spec : ∀ {vs : List Int}, vs ≠ [] → maximum vs ∈ vs ∧ ∀ v ∈ vs, v ≤ maximum vs
  | [], h => absurd rfl h
  | [v], _ => by simp [maximum]
  | v :: w :: vs, _ => by
    obtain ⟨h1, h2⟩ := maximum_spec (vs := w :: vs) (by simp)
    have hm : maximum (v :: w :: vs) = max v (maximum (w :: vs)) := rfl
    rw [hm]
    refine ⟨?_, ?_⟩
    · rcases le_total v (maximum (w :: vs)) with h | h
      · rw [max_eq_right h]; exact List.mem_cons_of_mem _ h1
      · rw [max_eq_left h]; simp
    · intro x hx
      rcases List.mem_cons.mp hx with rfl | hx
      · exact le_max_left _ _
      · exact le_trans (h2 x hx) (le_max_right _ _)

/-! ## Usage between points -/

theorem inUse_nonneg {jobs : List Job} (h : Sensible jobs) (k : Nat) (t : Int) : 0 ≤ inUse jobs k t := by
  unfold inUse
  apply List.sum_nonneg
  intro x hx
  obtain ⟨j, hj, rfl⟩ := List.mem_map.mp hx
  apply List.sum_nonneg
  intro y hy
  obtain ⟨w, hw, rfl⟩ := List.mem_map.mp hy
  exact (h j (List.mem_filter.mp hj).1).2 w (List.mem_filter.mp hw).1

/-- Some work is going on at the moment, or nothing is in use; going back to the latest start nothing ends. -/
theorem latest_point {jobs : List Job} (t : Int) (h : ∃ j ∈ jobs, j.start ≤ t) :
    ∃ p, p ∈ points jobs ∧ p ≤ t ∧ ∀ q ∈ points jobs, q ≤ t → q ≤ p := by
  have : ∀ ps : List Int, (∃ p ∈ ps, p ≤ t) → ∃ p ∈ ps, p ≤ t ∧ ∀ q ∈ ps, q ≤ t → q ≤ p := by
    intro ps
    induction ps with
    | nil => rintro ⟨p, hp, _⟩; simp at hp
    | cons a as ih =>
      rintro ⟨p, hp, hpt⟩
      by_cases has : ∃ p ∈ as, p ≤ t
      · obtain ⟨q, hq, hqt, hmax⟩ := ih has
        by_cases hle : a ≤ t ∧ q ≤ a
        · refine ⟨a, by simp, hle.1, ?_⟩
          intro x hx hxt
          rcases List.mem_cons.mp hx with rfl | hx
          · exact le_refl _
          · exact le_trans (hmax x hx hxt) hle.2
        · refine ⟨q, by simp [hq], hqt, ?_⟩
          intro x hx hxt
          rcases List.mem_cons.mp hx with rfl | hx
          · omega
          · exact hmax x hx hxt
      · rcases List.mem_cons.mp hp with rfl | hp
        · refine ⟨p, by simp, hpt, ?_⟩
          intro x hx hxt
          rcases List.mem_cons.mp hx with rfl | hx
          · exact le_refl _
          · exact absurd ⟨x, hx, hxt⟩ has
        · exact absurd ⟨p, hp, hpt⟩ has
  obtain ⟨j, hj, hjt⟩ := h
  exact this _ ⟨j.start, mem_points.mpr ⟨j, hj, Or.inl rfl⟩, hjt⟩

theorem inUse_at_point {jobs : List Job} {t p : Int} (hpt : p ≤ t) (hmax : ∀ q ∈ points jobs, q ≤ t → q ≤ p) (k : Nat) :
    inUse jobs k t = inUse jobs k p := by
  unfold inUse
  congr 2
  apply List.filter_congr
  intro j hj
  have h1 := hmax j.start (mem_points.mpr ⟨j, hj, Or.inl rfl⟩)
  have h2 := hmax j.finish (mem_points.mpr ⟨j, hj, Or.inr rfl⟩)
  rw [decide_eq_decide]
  unfold Job.at
  constructor
  · intro h; omega
  · intro h
    refine ⟨by omega, ?_⟩
    by_contra hc
    have := h2 (by omega)
    omega

theorem inUse_early {jobs : List Job} {t : Int} (h : ¬ ∃ j ∈ jobs, j.start ≤ t) (k : Nat) : inUse jobs k t = 0 := by
  unfold inUse
  rw [List.filter_eq_nil_iff.mpr]
  · simp
  · intro j hj hat
    simp only [decide_eq_true_eq] at hat
    exact h ⟨j, hj, hat.1⟩

/-! ## Totals over time -/

theorem sum_range_add (f g : Nat → Int) (n : Nat) :
    ((List.range n).map fun i => f i + g i).sum = ((List.range n).map f).sum + ((List.range n).map g).sum := by
  induction n with
  | zero => simp
  | succ n ih => simp only [List.range_succ, List.map_append, List.sum_append, ih]; simp; omega

theorem sum_range_if (c lo s f : Int) (n : Nat) (h : lo ≤ s) (hsf : s ≤ f) :
    ((List.range n).map fun i : Nat => if s ≤ lo + i ∧ lo + i < f then c else 0).sum =
      c * (min f (max s (lo + n)) - s) := by
  induction n with
  | zero => simp [max_eq_left h, min_eq_right hsf]
  | succ n ih =>
    rw [List.range_succ, List.map_append, List.sum_append, ih]
    simp only [List.map_cons, List.map_nil, List.sum_cons, List.sum_nil, Int.add_zero]
    by_cases hc : s ≤ lo + n ∧ lo + n < f
    · rw [if_pos hc, show min f (max s (lo + ((n + 1 : Nat) : Int))) - s = (min f (max s (lo + n)) - s) + 1 by omega, Int.mul_add]
      omega
    · rw [if_neg hc, show min f (max s (lo + ((n + 1 : Nat) : Int))) = min f (max s (lo + n)) by omega]
      omega

/-- A sum over works of something proportional to their duration is a sum over moments. -/
theorem sum_over_time (rate : Job → Int) (jobs : List Job) (lo : Int) (n : Nat)
    (h : ∀ j ∈ jobs, lo ≤ j.start ∧ j.start ≤ j.finish ∧ j.finish ≤ lo + n) :
    (jobs.map fun j => rate j * (j.finish - j.start)).sum =
      ((List.range n).map fun i : Nat => ((jobs.filter fun j => j.at (lo + i)).map rate).sum).sum := by
  induction jobs with
  | nil => simp
  | cons j jobs ih =>
    rw [List.map_cons, List.sum_cons, ih (fun x hx => h x (by simp [hx]))]
    obtain ⟨h1, h2, h3⟩ := h j (by simp)
    have := sum_range_if (rate j) lo j.start j.finish n h1 h2
    rw [show min j.finish (max j.start (lo + n)) = j.finish by omega] at this
    rw [← this, ← sum_range_add]
    congr 1
    apply List.map_congr_left
    intro i _
    by_cases hat : j.at (lo + i)
    · rw [List.filter_cons_of_pos (by simpa using hat), if_pos (show j.start ≤ lo + i ∧ lo + i < j.finish from hat)]; simp
    · rw [List.filter_cons_of_neg (by simpa using hat), if_neg (show ¬ (j.start ≤ lo + i ∧ lo + i < j.finish) from hat)]; simp

theorem sum_map_mul (f : Crew → Int) (d : Int) (ws : List Crew) : (ws.map fun w => f w * d).sum = (ws.map f).sum * d := by
  induction ws with
  | nil => simp
  | cons w ws ih => simp only [List.map_cons, List.sum_cons, ih, Int.add_mul]

theorem wanted_eq (names : Option (List Nat)) (k : Nat) : wanted names k = names.all fun ns => ns.contains k := by
  cases names <;> rfl

end Sampo.Usage
