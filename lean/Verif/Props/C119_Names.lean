import Verif.Model.NameMapper
import Verif.Lemmas.Collections

/-!
# C119: names of works
-/

namespace Sampo.C119
open NameMapper Collections

variable {rows : List (String × String)}

private theorem item_rows (key value : String × String → String) (name : String) :
    item (.dict (buildIndex key value rows)) name = ((rows.reverse.find? fun r => key r = name).map value).getD name := by
  have h := lookup_foldl key value name rows []
  rw [List.lookup_nil, Option.or_none] at h
  unfold item
  change (match (buildIndex key value rows).lookup name with | some u => u | none => name) = _
  unfold buildIndex
  rw [h]
  cases rows.reverse.find? fun r => decide (key r = name) <;> rfl

private theorem last {key : String × String → String} {before after : List (String × String)} {r : String × String} {name : String}
    (hr : key r = name) (hafter : ∀ x ∈ after, key x ≠ name) :
    (before ++ r :: after).reverse.find? (fun r => decide (key r = name)) = some r := by
  rw [List.reverse_append, List.reverse_cons, List.append_assoc, List.find?_append, List.find?_eq_none.2]
  · simp [hr]
  · intro x hx
    simpa using hafter x (List.mem_reverse.1 hx)

private theorem nowhere {key : String × String → String} {name : String} (h : ∀ x ∈ rows, key x ≠ name) :
    rows.reverse.find? (fun r => decide (key r = name)) = none := by
  rw [List.find?_eq_none]
  intro x hx
  simpa using h x (List.mem_reverse.1 hx)

/-- A name in the table becomes the unique name of its last row, another name stays as it is; the inverse mapper does the same with the
columns swapped. -/
theorem mapped_as_in_table (before after : List (String × String)) (name unique : String) :
    (rows = before ++ (name, unique) :: after → (∀ r ∈ after, r.1 ≠ name) → item (ofRows rows) name = unique) ∧
    ((∀ r ∈ rows, r.1 ≠ name) → item (ofRows rows) name = name) ∧
    (rows = before ++ (name, unique) :: after → (∀ r ∈ after, r.2 ≠ unique) → item (inverse rows) unique = name) ∧
    ((∀ r ∈ rows, r.2 ≠ unique) → item (inverse rows) unique = unique) := by
  refine ⟨?_, ?_, ?_, ?_⟩
  · rintro rfl h
    unfold ofRows
    rw [item_rows, last (key := fun r => r.1) (r := (name, unique)) (name := name) rfl h]
    rfl
  · intro h
    unfold ofRows
    rw [item_rows, nowhere (key := fun r => r.1) h]
    rfl
  · rintro rfl h
    unfold inverse
    rw [item_rows, last (key := fun r => r.2) (r := (name, unique)) (name := unique) rfl h]
    rfl
  · intro h
    unfold inverse
    rw [item_rows, nowhere (key := fun r => r.2) h]
    rfl

private def table : List (String × String) := [("pit", "earthwork"), ("wall", "bricks"), ("pit", "digging")]

example : item (ofRows table) "pit" = "digging" ∧ item (ofRows table) "roof" = "roof" ∧ item (inverse table) "bricks" = "wall" := by
  decide +kernel
example := (mapped_as_in_table (rows := table) [("pit", "earthwork"), ("wall", "bricks")] [] "pit" "digging").1 rfl (by simp)

private theorem found {key value : String × String → String} (h : (rows.map key).Nodup) {r : String × String} (hr : r ∈ rows) :
    item (.dict (buildIndex key value rows)) (key r) = value r := by
  obtain ⟨before, after, rfl⟩ := List.append_of_mem hr
  rw [item_rows, last (key := key) rfl]
  · rfl
  · intro x hx he
    rw [List.map_append, List.map_cons, List.nodup_append] at h
    exact (List.nodup_cons.1 h.2.1).1 (he ▸ List.mem_map_of_mem hx)

/-- Partial: mapping and mapping back gives every name of the table, and every unique name, back, if no name and no unique name is in the
table twice.  Missing: tables with a unique name for several names, see `shared_unique_name`, and names outside the table, see
`unknown_name_renamed`. -/
theorem there_and_back_partial (h1 : (rows.map (·.1)).Nodup) (h2 : (rows.map (·.2)).Nodup) {r : String × String} (hr : r ∈ rows) :
    item (inverse rows) (item (ofRows rows) r.1) = r.1 ∧ item (ofRows rows) (item (inverse rows) r.2) = r.2 := by
  have a : item (ofRows rows) r.1 = r.2 := found (key := fun r => r.1) (value := fun r => r.2) h1 hr
  have b : item (inverse rows) r.2 = r.1 := found (key := fun r => r.2) (value := fun r => r.1) h2 hr
  rw [a, b, a]
  exact ⟨rfl, rfl⟩

example := there_and_back_partial (rows := [("pit", "earthwork"), ("wall", "bricks")]) (by decide) (by decide) (r := ("wall", "bricks"))
  (by decide)

/-- Not proved because false: the inverse mapper gives every name back.  Of two names with the same unique name the one in the last row is
given for both. -/
theorem shared_unique_name (rows : List (String × String)) (a b u : String) (hne : a ≠ b) (h1 : (rows.map (·.1)).Nodup)
    (ha : (a, u) ∈ rows) (hb : (b, u) ∈ rows) :
    item (inverse rows) (item (ofRows rows) a) ≠ a ∨ item (inverse rows) (item (ofRows rows) b) ≠ b := by
  have ha' : item (ofRows rows) a = u := found (key := fun r => r.1) (value := fun r => r.2) (r := (a, u)) h1 ha
  have hb' : item (ofRows rows) b = u := found (key := fun r => r.1) (value := fun r => r.2) (r := (b, u)) h1 hb
  rw [ha', hb']
  by_contra h
  push Not at h
  exact hne (h.1.symm.trans h.2)

example := shared_unique_name [("pit", "earthwork"), ("trench", "earthwork")] "pit" "trench" "earthwork" (by decide) (by decide) (by decide)
  (by decide)

/-- Not proved because false: names outside the table come back unchanged.  A name that is the unique name of another one comes back as that
other name. -/
theorem unknown_name_renamed (rows : List (String × String)) (a u : String) (h2 : (rows.map (·.2)).Nodup) (ha : (a, u) ∈ rows)
    (hu : ∀ r ∈ rows, r.1 ≠ u) : item (inverse rows) (item (ofRows rows) u) = a := by
  rw [(mapped_as_in_table [] [] u u).2.1 hu]
  exact found (key := fun r => r.2) (value := fun r => r.1) (r := (a, u)) h2 ha

example := unknown_name_renamed [("pit", "earthwork")] "pit" "earthwork" (by decide) (by decide) (by decide)

/-- Not proved because false: `get` answers as the brackets do.  It never answers. -/
theorem get_never_answers (m : Mapper) (name : String) : NameMapper.get m name ≠ some (item m name) := by
  simp [NameMapper.get]

/-- Tables with names of works: every name is mapped by itself and stays in its row; without a mapper, or with the mapper that maps nothing,
names stay as they are; mapping twice is mapping once if no unique name is a name to be mapped. -/
theorem columns (m : Mapper) (names : List String) :
    (apply (some m) names).length = names.length ∧ (∀ (i : Nat) (name : String), names[i]? = some name → (apply (some m) names)[i]? = some (item m name)) ∧
    apply none names = names ∧ apply (some .dummy) names = names ∧
    ((∀ r ∈ rows, ∀ r' ∈ rows, r.1 ≠ r'.2) →
      apply (some (ofRows rows)) (apply (some (ofRows rows)) names) = apply (some (ofRows rows)) names) := by
  refine ⟨by simp [apply], fun i name h => by simp [apply, h], rfl, List.map_id names, fun h => ?_⟩
  show (names.map (item (ofRows rows))).map (item (ofRows rows)) = names.map (item (ofRows rows))
  rw [List.map_map]
  refine List.map_congr_left fun name _ => ?_
  show item (ofRows rows) (item (ofRows rows) name) = _
  by_cases hn : ∀ r ∈ rows, r.1 ≠ name
  · rw [(mapped_as_in_table [] [] name name).2.1 hn, (mapped_as_in_table [] [] name name).2.1 hn]
  · have key : ∃ r ∈ rows, item (ofRows rows) name = r.2 := by
      unfold ofRows
      rw [item_rows]
      cases hf : rows.reverse.find? fun r => decide (r.1 = name) with
      | none =>
        exfalso
        push Not at hn
        obtain ⟨r, hr, he⟩ := hn
        have := List.find?_eq_none.1 hf r (List.mem_reverse.2 hr)
        simp [he] at this
      | some r => exact ⟨r, List.mem_reverse.1 (List.mem_of_find?_eq_some hf), rfl⟩
    obtain ⟨r, hr, he⟩ := key
    rw [he]
    exact (mapped_as_in_table [] [] r.2 r.2).2.1 fun r' hr' => h r' hr' r hr

example := columns (rows := table) (ofRows table) ["pit", "roof"]
example : apply (some (ofRows table)) ["pit", "roof", "wall"] = ["digging", "roof", "bricks"] ∧ ∀ r ∈ table, ∀ r' ∈ table, r.1 ≠ r'.2 := by
  decide +kernel

end Sampo.C119
