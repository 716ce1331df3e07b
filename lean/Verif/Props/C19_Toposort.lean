import Verif.Lemmas.Toposort

/-!
# C19: the topological level sort is complete and detects cycles

The argument is a Python dictionary, so its keys are distinct (`d.keys.Nodup`).
-/

namespace Sampo.C19

/-- The sort raises the circular dependency error exactly if some item depends on itself through other items. -/
theorem error_iff_cycle (d : Deps) (hd : (d.map (·.1)).Nodup) :
    toposort d = none ↔ ∃ x, Relation.TransGen (DependsOn d) x x := by
  constructor
  · exact toposort_none
  · rintro ⟨x, hx⟩
    cases h : toposort d with
    | none => rfl
    | some levels =>
      obtain ⟨h1, h2, h3, -⟩ := toposort_some hd h
      refine absurd hx (acyclic_of_levels h1 h3 ?_ x)
      rintro a b ⟨-, deps, hm, -⟩
      exact (h2 a).2 ⟨_, hm, Or.inl rfl⟩

/-- Without a cycle every item, also one mentioned only as a dependency, is in exactly one place of the levels, every level
has items, and the items of a level have all their dependencies in earlier levels. -/
theorem levels_complete (d : Deps) (hd : (d.map (·.1)).Nodup) (hac : Acyclic (DependsOn d)) :
    ∃ levels, toposort d = some levels ∧ levels.flatten.Nodup ∧ (∀ x, x ∈ levels.flatten ↔ Mentioned d x) ∧
      LevelsRespect (DependsOn d) levels ∧ ∀ l ∈ levels, l ≠ [] := by
  cases h : toposort d with
  | none =>
    obtain ⟨x, hx⟩ := toposort_none h
    exact absurd hx (hac x)
  | some levels => exact ⟨levels, rfl, toposort_some hd h⟩

/-- Whatever the order inside the levels, the flattened levels put everything after what it depends on. -/
theorem any_flattening_is_an_order (d : Deps) (hd : (d.map (·.1)).Nodup) (levels shuffled : List (List Nat))
    (h : toposort d = some levels) (hs : List.Forall₂ List.Perm shuffled levels) :
    shuffled.flatten.Nodup ∧ (∀ x, x ∈ shuffled.flatten ↔ Mentioned d x) ∧
      OrderRespects (DependsOn d) shuffled.flatten := by
  obtain ⟨h1, h2, h3, -⟩ := toposort_some hd h
  obtain ⟨hp, ho⟩ := order_of_levels hs h1 h3
  exact ⟨hp.nodup_iff.2 h1, fun x => by rw [hp.mem_iff, h2], ho⟩

/-- An item is as early as possible: everything in a level but the first depends on something in the level before. -/
theorem levels_are_earliest (d : Deps) (hd : (d.map (·.1)).Nodup) (levels : List (List Nat))
    (h : toposort d = some levels) (before : List (List Nat)) (previous level : List Nat) (after : List (List Nat))
    (he : levels = before ++ previous :: level :: after) : ∀ x ∈ level, ∃ y ∈ previous, DependsOn d x y := by
  have gen : ∀ (fuel : Nat) (d' : Deps), d'.keys.Nodup → ∀ before previous level after,
      (toposortLoop fuel d').1 = before ++ previous :: level :: after →
      ∀ x ∈ level, ∃ y ∈ previous, ∃ deps, (x, deps) ∈ d' ∧ y ∈ deps := by
    intro fuel
    induction fuel with
    | zero => intro d' _ b p l a h; simp [toposortLoop] at h
    | succ fuel ih =>
      intro d' hd' b p l a h x hx
      unfold toposortLoop at h
      split at h
      · simp at h
      · simp only at h
        have hd'' : (d'.remove d'.ready).keys.Nodup := by rw [Deps.keys_remove]; exact hd'.filter _
        cases b with
        | nil =>
          rw [List.nil_append, List.cons.injEq] at h
          obtain ⟨rfl, h⟩ := h
          have hxr : x ∈ (d'.remove d'.ready).ready := by
            cases fuel with
            | zero => simp [toposortLoop] at h
            | succ fuel =>
              unfold toposortLoop at h
              split at h
              · simp at h
              · simp only [List.cons.injEq] at h
                rw [← h.1] at hx
                exact hx
          obtain ⟨hxo, deps, hm, hdeps⟩ := Deps.of_mem_remove (Deps.mem_ready.1 hxr)
          simp only at hm hdeps hxo
          have hne : deps ≠ [] := by
            rintro rfl
            exact hxo (Deps.mem_ready.2 hm)
          obtain ⟨y, hy⟩ := List.exists_mem_of_ne_nil deps hne
          refine ⟨y, ?_, deps, hm, hy⟩
          by_contra hyo
          have : y ∈ deps.filter fun y => y ∉ d'.ready := List.mem_filter.2 ⟨hy, by simpa using hyo⟩
          rw [← hdeps] at this
          exact List.not_mem_nil this
        | cons b0 bs =>
          rw [List.cons_append, List.cons.injEq] at h
          obtain ⟨y, hy, deps, hm, hyd⟩ := ih _ hd'' bs p l a h.2 x hx
          obtain ⟨-, deps', hm', hdeps⟩ := Deps.of_mem_remove hm
          simp only at hm' hdeps
          rw [hdeps, List.mem_filter] at hyd
          exact ⟨y, hy, deps', hm', hyd.1⟩
  intro x hx
  unfold toposort at h
  split at h
  · rw [Option.some.injEq] at h
    rw [← h] at he
    simp at he
  · simp only at h
    split at h
    · rw [Option.some.injEq] at h
      obtain ⟨y, hy, hxy⟩ := gen _ d.prepare (Deps.nodup_prepare hd) before previous level after (by rw [h, he]) x hx
      exact ⟨y, hy, Deps.mem_prepare.1 hxy⟩
    · simp at h

/-- A dictionary with a self-dependency and an item mentioned only as a dependency. -/
example : toposort [(2, [11]), (9, [11, 8]), (10, [11, 3]), (11, [7, 5, 11]), (8, [7, 3])]
    = some [[5, 7, 3], [11, 8], [2, 9, 10]] := by decide

example : toposort [(1, [2]), (2, [3]), (3, [1])] = none := by decide

end Sampo.C19
