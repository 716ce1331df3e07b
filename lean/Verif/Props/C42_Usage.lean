import Verif.Lemmas.Usage

/-!
# C42: resource usage reports are exact

The report of usage over time, the peaks, the sum of peaks and the cost are exact.  The report of the total usage never succeeds:
it reads an attribute that workers do not have.
-/

namespace Sampo.C42

open Usage

/-- The columns of the report are the moments at which some work starts or finishes, each once, in increasing order. -/
theorem columns (jobs : List Job) : (points jobs).Pairwise (· < ·) ∧
    ∀ x, x ∈ points jobs ↔ ∃ j ∈ jobs, x = j.start ∨ x = j.finish := ⟨points_sorted jobs, fun _ => mem_points⟩

/-- The report has exactly one row for each asked kind of workers that occurs in the schedule. -/
theorem rows (jobs : List Job) (names : Option (List Nat)) : ((totalUsage jobs names).map (·.1)).Nodup ∧
    ∀ k, k ∈ (totalUsage jobs names).map (·.1) ↔ (∀ ns, names = some ns → k ∈ ns) ∧ ∃ j ∈ jobs, ∃ w ∈ j.workers, w.name = k := by
  have h := rows_total jobs names
  refine ⟨h.nodup, fun k => ?_⟩
  rw [h.keys k]
  apply and_congr
  · cases names <;> simp [wanted]
  · simp only [List.mem_flatMap, List.mem_map]
    constructor
    · rintro ⟨jc, ⟨j, hj, w, hw, rfl⟩, rfl⟩; exact ⟨j, hj, w, hw, rfl⟩
    · rintro ⟨j, hj, w, hw, rfl⟩; exact ⟨(j, w), ⟨j, hj, w, hw, rfl⟩, rfl⟩

/-- Every entry of the report is the number of workers of the kind that are at work at the moment of the column. -/
theorem usage_exact (jobs : List Job) (names : Option (List Nat)) {k : Nat} {vals : List Int}
    (h : (k, vals) ∈ totalUsage jobs names) : vals = (points jobs).map (inUse jobs k) := by
  have hr := rows_total jobs names
  have hrow := row_mem (n := (points jobs).length) hr.nodup _ h
  dsimp only at hrow
  have hk := ((hr.keys k).mp (List.mem_map_of_mem (f := Prod.fst) h)).1
  apply List.ext_getElem?
  intro i
  rw [List.getElem?_map]
  cases hp : (points jobs)[i]? with
  | none =>
    have h1 := hr.length k
    rw [hrow] at h1
    rw [List.getElem?_eq_none_iff] at hp
    simp only [Option.map_none, List.getElem?_eq_none_iff]
    omega
  | some p =>
    have h1 := hr.value k hk i p hp
    rw [hrow] at h1
    rw [h1, inUse_eq]; rfl

/-- The reported peak of a kind is the greatest number of its workers that are ever at work. -/
theorem peak_exact {jobs : List Job} (hs : Sensible jobs) (names : Option (List Nat)) {k : Nat} {m : Int}
    (h : (k, m) ∈ peaks jobs names) : (∀ t, inUse jobs k t ≤ m) ∧ ∃ t, inUse jobs k t = m := by
  obtain ⟨row, hrow, heq⟩ := List.mem_map.mp h
  cases heq
  have he := usage_exact jobs names (k := row.1) (vals := row.2) hrow
  obtain ⟨_, j, hj, w, hw, hwn⟩ := ((rows jobs names).2 row.1).mp (List.mem_map_of_mem hrow)
  have hne : row.2 ≠ [] := by
    intro hnil
    rw [hnil] at he
    have : points jobs = [] := by simpa using he.symm
    have hm : j.start ∈ points jobs := mem_points.mpr ⟨j, hj, Or.inl rfl⟩
    rw [this] at hm; simp at hm
  obtain ⟨h1, h2⟩ := maximum_spec hne
  constructor
  · intro t
    by_cases ht : ∃ j ∈ jobs, j.start ≤ t
    · obtain ⟨p, hp, hpt, hmax⟩ := latest_point t ht
      rw [inUse_at_point hpt hmax]
      exact h2 _ (by rw [he]; exact List.mem_map_of_mem hp)
    · rw [inUse_early ht]
      rw [he] at h1
      obtain ⟨p, _, hp⟩ := List.mem_map.mp h1
      rw [he, ← hp]
      exact inUse_nonneg hs _ _
  · rw [he] at h1
    obtain ⟨p, _, hp⟩ := List.mem_map.mp h1
    exact ⟨p, by rw [he]; exact hp⟩

/-- The reported sum of peaks is the sum, over the asked kinds that occur, of the greatest numbers of workers ever at work; it is
infinite if the schedule is. -/
theorem peaks_sum_exact {jobs : List Job} (hs : Sensible jobs) (names : Option (List Nat)) {ks : List Nat} (hn : ks.Nodup)
    (hks : ∀ k, k ∈ ks ↔ (∀ ns, names = some ns → k ∈ ns) ∧ ∃ j ∈ jobs, ∃ w ∈ j.workers, w.name = k) {peak : Nat → Int}
    (hpeak : ∀ k ∈ ks, (∀ t, inUse jobs k t ≤ peak k) ∧ ∃ t, inUse jobs k t = peak k) (done : Int) :
    (done ≠ TIME_INF → peaksSum done jobs names = (ks.map peak).sum) ∧ (done = TIME_INF → peaksSum done jobs names = TIME_INF) := by
  constructor
  · intro hd
    unfold peaksSum
    rw [if_neg hd]
    have hperm : ((totalUsage jobs names).map (·.1)).Perm ks := by
      rw [List.perm_ext_iff_of_nodup (rows jobs names).1 hn]
      intro k; rw [(rows jobs names).2 k, hks k]
    rw [← (hperm.map peak).sum_eq]
    unfold peaks
    rw [List.map_map, List.map_map]
    congr 1
    apply List.map_congr_left
    intro row hrow
    obtain ⟨h1, t, ht⟩ := peak_exact hs names (k := row.1) (m := maximum row.2) (List.mem_map.mpr ⟨row, hrow, rfl⟩)
    obtain ⟨h2, u, hu⟩ := hpeak row.1 (hperm.mem_iff.mp (List.mem_map_of_mem hrow))
    have a := h1 u
    have b := h2 t
    show maximum row.2 = peak row.1
    omega
  · intro hd
    unfold peaksSum
    rw [if_pos hd]

/-- The reported cost is the sum over all moments of what the asked workers at work at the moment cost. -/
theorem cost_exact {jobs : List Job} (names : Option (List Nat)) (lo : Int) (n : Nat)
    (h : ∀ j ∈ jobs, lo ≤ j.start ∧ j.start ≤ j.finish ∧ j.finish ≤ lo + n) :
    costsSum jobs names = ((List.range n).map fun i : Nat => costRate jobs names (lo + i)).sum := by
  unfold costsSum costRate
  rw [← sum_over_time (fun j => ((j.workers.filter fun w => names.all fun ns => ns.contains w.name).map
    fun w => w.price * w.count).sum) jobs lo n h]
  congr 1
  apply List.map_congr_left
  intro j _
  rw [← sum_map_mul]
  congr 2
  apply List.filter_congr
  intro w _
  exact wanted_eq names w.name

/-- Not proved because false: "the reported total of resources is the sum over all moments of the workers at work".  The report
raises an exception for every schedule in which anyone works. -/
theorem total_fails {jobs : List Job} (h : ∃ j ∈ jobs, j.workers ≠ []) (names : Option (List Nat)) :
    resourcesSum jobs names = none := by
  unfold resourcesSum
  rw [if_pos]
  obtain ⟨j, hj, hw⟩ := h
  rw [List.any_eq_true]
  exact ⟨j, hj, by cases hj' : j.workers with
    | nil => exact absurd hj' hw
    | cons _ _ => rfl⟩

/-! ## Examples -/

private def jobs : List Job := [⟨0, 5, [⟨1, 2, 10⟩, ⟨2, 1, 7⟩]⟩, ⟨3, 8, [⟨1, 3, 10⟩]⟩, ⟨8, 8, []⟩]

/-- Two overlapping works and the finish. -/
example : Sensible jobs ∧ points jobs = [0, 3, 5, 8] ∧
    totalUsage jobs none = [(1, [2, 5, 3, 0]), (2, [1, 1, 0, 0])] ∧ peaks jobs (some [1]) = [(1, 5)] ∧
    peaksSum 8 jobs none = 6 ∧ costsSum jobs none = 285 ∧
    (∀ j ∈ jobs, 0 ≤ j.start ∧ j.start ≤ j.finish ∧ j.finish ≤ 0 + (8 : Nat)) ∧ ∃ j ∈ jobs, j.workers ≠ [] := by
  decide +kernel

end Sampo.C42
