import Verif.Model.ScheduleTable
import Verif.Props.C18_RowOrder

/-!
# C80: tables of schedules
-/

namespace Sampo.C80

open ScheduleTable

/-- The row shows the work. -/
structure Shows (w : Work) (r : Row) : Prop where
  id : r.id = w.id
  name : r.name = w.name
  contractor : r.contractor = w.contractor
  cost : r.cost = w.cost
  volume : r.volume = w.volume
  times : w.times.1 ≤ w.times.2 → r.start = w.times.1 ∧ r.finish = w.times.2 ∧ r.duration = w.times.2 - w.times.1
  workers : (w.team.map (·.1)).Nodup → r.workers = w.team
  work : r.work = w

private theorem foldl_put : ∀ (l acc : List (String × Int)), ((acc ++ l).map (·.1)).Nodup → l.foldl put acc = acc ++ l
  | [], acc, _ => by simp
  | p :: l, acc, h => by
    have hp : p.1 ∉ acc.map (·.1) := by
      intro hm
      rw [List.map_append, List.map_cons] at h
      exact (List.nodup_append.mp h).2.2 _ hm _ List.mem_cons_self rfl
    rw [List.foldl_cons, put, if_neg hp, foldl_put l _ (by simpa using h)]
    simp

private theorem shows (n i : Nat) (w : Work) : Shows w (rowOf n i w) := by
  refine ⟨rfl, rfl, rfl, rfl, rfl, fun h => ?_, fun h => ?_, rfl⟩
  · simp [rowOf, h]
  · exact foldl_put _ [] (by simpa using h)

private theorem ofWorks_rows {ws : List Work} {t : Table} (h : ofWorks ws = some t) :
    ∃ w n, ws.head? = some w ∧ n = w.model.length ∧ (∀ v ∈ ws, v.model.length ≤ n) ∧ t = ⟨keys w.model, ws.mapIdx fun i v => rowOf n i v⟩ := by
  cases ws with
  | nil => simp [ofWorks] at h
  | cons w ws =>
    rw [ofWorks] at h
    split at h
    · simp at h
    · next hn =>
      refine ⟨w, _, rfl, rfl, ?_, (Option.some.inj h).symm⟩
      intro v hv
      simp only [List.any_eq_true, decide_eq_true_eq, not_exists, not_and, not_lt] at hn
      exact hn v hv

/-- Without a graph the table has a row for every work, in the order of the works, and the row shows the work. -/
theorem rows_show_works (ws : List Work) (t : Table) (h : ofWorks ws = some t) : List.Forall₂ Shows ws t.rows ∧ works t = ws := by
  obtain ⟨w, n, -, -, -, rfl⟩ := ofWorks_rows h
  constructor
  · rw [List.forall₂_iff_get]
    refine ⟨by simp, fun i h1 h2 => ?_⟩
    simp only [List.get_eq_getElem, List.getElem_mapIdx]
    exact shows ..
  · apply List.ext_getElem
    · simp [works]
    · intro i h1 h2
      simp [works, rowOf]

/-- The table is made unless there are no works or a work has more parts in its model name than the first work. -/
theorem raises_iff (ws : List Work) : ofWorks ws = none ↔ ∀ w, ws.head? = some w → ∃ v ∈ ws, w.model.length < v.model.length := by
  cases ws with
  | nil => simp [ofWorks]
  | cons w ws =>
    rw [ofWorks]
    split
    · next h => simpa using h
    · next h => simpa using h

private theorem lookup_perm {β : Type} {l l' : List (String × β)} (h : l.Perm l') (hn : (l.map (·.1)).Nodup) (k : String) :
    l.lookup k = l'.lookup k := by
  have key : ∀ (l : List (String × β)), (l.map (·.1)).Nodup → ∀ v, l.lookup k = some v ↔ (k, v) ∈ l := by
    intro l hl v
    induction l with
    | nil => simp
    | cons p l ih =>
      obtain ⟨a, b⟩ := p
      rw [List.map_cons, List.nodup_cons] at hl
      rw [List.lookup_cons]
      by_cases h : k = a
      · subst h
        simp only [beq_self_eq_true, List.mem_cons, Prod.mk.injEq, true_and]
        constructor
        · intro e; exact Or.inl (Option.some.inj e).symm
        · rintro (e | e)
          · rw [e]
          · exact absurd (List.mem_map_of_mem (f := (·.1)) e) hl.1
      · rw [beq_false_of_ne h]
        simp only [List.mem_cons, Prod.mk.injEq, h, false_and, false_or]
        exact ih hl.2
  ext v
  rw [key l hn, key l' ((h.map _).nodup_iff.mp hn), h.mem_iff]

private instance : Std.Total (fun a b : String × String => a.1 ≤ b.1) := ⟨fun _ _ => String.le_total _ _⟩
private instance : IsTrans (String × String) (fun a b => a.1 ≤ b.1) := ⟨fun _ _ _ h h' => String.le_trans h h'⟩

private theorem keys_perm (m : List (String × String)) : (keys m).Perm (m.map (·.1)) := (List.perm_insertionSort _ m).map _

private theorem keys_sorted (m : List (String × String)) : (keys m).Pairwise (· ≤ ·) := by
  unfold keys
  rw [List.pairwise_map]
  exact List.pairwise_insertionSort (fun a b : String × String => a.1 ≤ b.1) m

private theorem zip_keys (m : List (String × String)) :
    (keys m).zip ((values m).map some) = (m.insertionSort fun a b => a.1 ≤ b.1).map fun p => (p.1, some p.2) := by
  unfold keys values
  induction (m.insertionSort fun a b => a.1 ≤ b.1) with
  | nil => rfl
  | cons p l ih => simpa using ih

private theorem lookup_map (m : List (String × String)) (k : String) :
    (m.map fun p => (p.1, some p.2)).lookup k = (m.lookup k).map some := by
  induction m with
  | nil => rfl
  | cons p l ih =>
    rw [List.map_cons, List.lookup_cons, List.lookup_cons, ih]
    cases k == p.1 <;> rfl

/-- If all works have the same parts in their model names, then every row shows, under the name of each part, the value of that part. -/
theorem model_name_shown_partial (ws : List Work) (t : Table) (h : ofWorks ws = some t)
    (hk : ∀ v ∈ ws, ∀ w ∈ ws, (v.model.map (·.1)).Perm (w.model.map (·.1))) (hn : ∀ v ∈ ws, (v.model.map (·.1)).Nodup) :
    ∀ r ∈ t.rows, ∀ k, (t.columns.zip r.cells).lookup k = (r.work.model.lookup k).map some := by
  obtain ⟨w, n, hw, rfl, -, rfl⟩ := ofWorks_rows h
  intro r hr k
  obtain ⟨i, hi, rfl⟩ := List.mem_mapIdx.mp hr
  have hw' : w ∈ ws := List.mem_of_mem_head? hw
  have hv : ws[i] ∈ ws := List.getElem_mem hi
  have e : keys w.model = keys ws[i].model :=
    List.Perm.eq_of_pairwise (le := (· ≤ ·)) (fun a b _ _ h h' => String.le_antisymm h h') (keys_sorted _) (keys_sorted _)
      ((keys_perm _).trans ((hk w hw' _ hv).trans (keys_perm _).symm))
  have el : w.model.length = ws[i].model.length := by simpa using (hk w hw' _ hv).length_eq
  simp only [rowOf, el, Nat.sub_self, List.replicate_zero, List.append_nil, e]
  rw [zip_keys, lookup_map]
  congr 1
  exact lookup_perm (List.perm_insertionSort _ _) (((List.perm_insertionSort _ _).map _).nodup_iff.mpr (hn _ hv)) k

/-- Not proved because false: "values are in the columns of their parts".  The second work has no measurement and a group instead. -/
theorem wrong_column : ∃ (ws : List Work) (t : Table), ofWorks ws = some t ∧ (∀ v ∈ ws, (v.model.map (·.1)).Nodup) ∧
    ∃ r ∈ t.rows, (t.columns.zip r.cells).lookup "measurement" = some (some "pit") ∧ r.work.model.lookup "granular_name" = some "pit" := by
  refine ⟨[⟨0, "", "", 0, 0, (0, 0), [], true, [("granular_name", "start"), ("measurement", "unit")]⟩,
    ⟨1, "", "", 0, 0, (0, 5), [], false, [("granular_name", "pit"), ("block", "B")]⟩], _, rfl, by decide, ?_⟩
  exact ⟨_, List.mem_cons_of_mem _ List.mem_cons_self, by decide, by decide⟩

/-- Not proved because false: "every list of works has a table".  A work has one part more than the first work, the start of the project. -/
theorem more_parts_raise : ofWorks [⟨0, "", "", 0, 0, (0, 0), [], true, [("granular_name", "start"), ("measurement", "unit")]⟩,
    ⟨1, "", "", 0, 0, (0, 5), [], false, [("granular_name", "pit"), ("measurement", "unit"), ("block", "B")]⟩] = none := by decide

/-- The table without service works has exactly the other works, in the same order. -/
theorem pure_rows (t : Table) : works (withoutService t) = (works t).filter (fun w => !w.service) ∧ (withoutService t).columns = t.columns := by
  refine ⟨?_, rfl⟩
  simp [works, withoutService, List.filter_map, Function.comp_def]

private theorem find_iff {t : Table} {ws : List Work} (hp : (works t).Perm ws) (hs : ∀ r ∈ t.rows, r.id = r.work.id)
    (hn : (ws.map (·.id)).Nodup) (id : Nat) (w : Work) : find t id = some w ↔ w ∈ ws ∧ w.id = id := by
  have hn' : ((works t).map (·.id)).Nodup := (hp.map _).nodup_iff.mpr hn
  have inj := List.inj_on_of_nodup_map hn'
  rw [← hp.mem_iff, find, Option.map_eq_some_iff]
  constructor
  · rintro ⟨r, h1, rfl⟩
    have hr : r ∈ t.rows := by simpa using List.mem_of_find?_eq_some h1
    have := List.find?_some h1
    refine ⟨List.mem_map_of_mem hr, ?_⟩
    rw [← hs r hr]
    simpa using this
  · rintro ⟨h1, rfl⟩
    obtain ⟨r, hr, e⟩ := List.mem_map.mp h1
    cases hf : t.rows.reverse.find? fun r => decide (r.id = w.id) with
    | none =>
      have := List.find?_eq_none.mp hf r (by simpa using hr)
      simp [hs r hr, e] at this
    | some r' =>
      have hr' : r' ∈ t.rows := by simpa using List.mem_of_find?_eq_some hf
      have h2 := List.find?_some hf
      refine ⟨r', rfl, ?_⟩
      rw [decide_eq_true_eq, hs r' hr'] at h2
      exact inj (List.mem_map_of_mem hr') h1 h2

/-- In the dictionary every work is found by its identifier. -/
theorem dictionary (ws : List Work) (t : Table) (h : ofWorks ws = some t) (hn : (ws.map (·.id)).Nodup) (id : Nat) (w : Work) :
    find t id = some w ↔ w ∈ ws ∧ w.id = id := by
  obtain ⟨h1, h2⟩ := rows_show_works ws t h
  refine find_iff (h2 ▸ List.Perm.refl _) ?_ hn id w
  intro r hr
  obtain ⟨w, n, -, -, -, rfl⟩ := ofWorks_rows h
  obtain ⟨i, hi, rfl⟩ := List.mem_mapIdx.mp hr
  rfl

private theorem sorted_idx {order : List Nat} (ho : order.Nodup) : ∀ {l : List Nat}, l.Perm order →
    l.Pairwise (fun a b => order.idxOf a ≤ order.idxOf b) → l = order := by
  intro l hp hs
  refine List.Perm.eq_of_pairwise (le := fun a b => order.idxOf a ≤ order.idxOf b) ?_ hs ?_ hp
  · intro a b ha hb h1 h2
    exact (List.idxOf_inj (hp.mem_iff.mp ha)).mp (le_antisymm h1 h2)
  · rw [List.pairwise_iff_getElem]
    intro i j hi hj hij
    rw [ho.idxOf_getElem, ho.idxOf_getElem]
    exact hij.le

/-- With a graph the table has a row for every work, which shows it; rows are ordered by start; no work is above one of its predecessors
that starts with it, and if no predecessor starts later, above none of its predecessors; works are found by their identifiers. -/
theorem ordered (parents : Nat → List Nat) (hac : Acyclic fun u v => v ∈ parents u) (iter : List Nat → List Nat)
    (hit : ∀ l, (iter l).Perm l) (ws : List Work) (hn : (ws.map (·.id)).Nodup) (fuel : Nat) (hf : ws.length ≤ fuel)
    (hm : ofWorks ws ≠ none) :
    ∃ t, ofWorksOrdered parents iter fuel ws = some t ∧ (works t).Perm ws ∧ (∀ r ∈ t.rows, Shows r.work r) ∧
      (works t).Pairwise (fun a b => a.times.1 ≤ b.times.1) ∧
      (works t).Pairwise (fun a b => a.times.1 = b.times.1 → b.id ∉ parents a.id) ∧
      ((∀ a ∈ ws, ∀ b ∈ ws, b.id ∈ parents a.id → b.times.1 ≤ a.times.1) → (works t).Pairwise fun a b => b.id ∉ parents a.id) ∧
      ∀ id w, find t id = some w ↔ w ∈ ws ∧ w.id = id := by
  obtain ⟨t, ht⟩ := Option.ne_none_iff_exists'.mp hm
  let time : Nat → Int := fun v => ((ws.find? fun w => w.id = v).map (·.times.1)).getD 0
  have inj := List.inj_on_of_nodup_map hn
  have htime : ∀ w ∈ ws, time w.id = w.times.1 := by
    intro w hw
    simp only [time]
    cases hf : ws.find? fun v => decide (v.id = w.id) with
    | none => have := List.find?_eq_none.mp hf w hw; simp at this
    | some v =>
      have h1 := List.mem_of_find?_eq_some hf
      have h2 := List.find?_some hf
      rw [inj h1 hw (by simpa using h2)]
      rfl
  have e : (ws.map fun w => (w.times.1, w.id)) = (ws.map (·.id)).map fun v => (time v, v) := by
    rw [List.map_map]
    exact List.map_congr_left fun w hw => by simp [htime w hw]
  obtain ⟨order, h1, h2, h3, h4⟩ := C18.rows_ordered parents hac iter hit time (ws.map (·.id)) hn fuel (by simpa using hf)
  have hon : order.Nodup := h2.nodup_iff.mpr hn
  obtain ⟨-, hw⟩ := rows_show_works ws t ht
  let rows := t.rows.insertionSort fun a b => order.idxOf a.id ≤ order.idxOf b.id
  have hrp : rows.Perm t.rows := List.perm_insertionSort _ _
  have hid : ∀ r ∈ t.rows, Shows r.work r := by
    intro r hr
    obtain ⟨w, n, -, -, -, rfl⟩ := ofWorks_rows ht
    obtain ⟨i, hi, rfl⟩ := List.mem_mapIdx.mp hr
    exact shows _ _ _
  have hperm : (works { t with rows := rows }).Perm ws := (hrp.map _).trans (hw ▸ List.Perm.refl _)
  have : Std.Total (fun a b : Row => order.idxOf a.id ≤ order.idxOf b.id) := ⟨fun a b => le_total _ _⟩
  have : IsTrans Row (fun a b => order.idxOf a.id ≤ order.idxOf b.id) := ⟨fun _ _ _ h h' => le_trans h h'⟩
  have hids : (works { t with rows := rows }).map (·.id) = order := by
    refine sorted_idx hon ((hperm.map _).trans h2.symm) ?_
    rw [works, List.map_map, List.pairwise_map]
    refine List.Pairwise.imp_of_mem ?_ (List.pairwise_insertionSort (fun a b : Row => order.idxOf a.id ≤ order.idxOf b.id) t.rows)
    intro a b ha hb h
    rw [(hid a (hrp.mem_iff.mp ha)).id, (hid b (hrp.mem_iff.mp hb)).id] at h
    exact h
  have pair : ∀ {R : Nat → Nat → Prop} {S : Work → Work → Prop}, order.Pairwise R → (∀ a ∈ ws, ∀ b ∈ ws, R a.id b.id → S a b) →
      (works { t with rows := rows }).Pairwise S := by
    intro R S h hRS
    rw [← hids, List.pairwise_map] at h
    exact h.imp_of_mem fun ha hb hr => hRS _ (hperm.mem_iff.mp ha) _ (hperm.mem_iff.mp hb) hr
  refine ⟨{ t with rows := rows }, ?_, hperm, fun r hr => hid r (hrp.mem_iff.mp hr), ?_, ?_, ?_, ?_⟩
  · rw [ofWorksOrdered, e, h1, Option.bind_some, ht, Option.bind_some, if_pos hon]
  · exact pair h3 fun a ha b hb h => by rwa [htime a ha, htime b hb] at h
  · exact pair h4 fun a ha b hb h => by rwa [htime a ha, htime b hb] at h
  · intro hpar
    refine pair (h3.and h4) fun a ha b hb h hm => ?_
    rw [htime a ha, htime b hb] at h
    exact h.2 (le_antisymm h.1 (hpar a ha b hb hm)) hm
  · intro id w
    exact find_iff hperm (fun r hr => (hid r (hrp.mem_iff.mp hr)).id) hn id w

/-- Not proved because false: "`idx` is the number of the row".  With a graph it is the number of the work in the given list. -/
theorem idx_not_row_number : ∃ (ws : List Work) (t : Table), ofWorksOrdered (fun _ => []) id 2 ws = some t ∧ (ws.map (·.id)).Nodup ∧
    t.rows.map (·.idx) = [1, 0] := by
  refine ⟨[⟨0, "", "", 0, 0, (3, 5), [], false, []⟩, ⟨1, "", "", 0, 0, (0, 3), [], false, []⟩], _, rfl, by decide, by decide⟩

/-- With a graph, the execution time is the time at which the last work is finished, if the finish of the project takes no time and starts
when all works are finished. -/
theorem execution_time_partial (parents : Nat → List Nat) (hac : Acyclic fun u v => v ∈ parents u) (iter : List Nat → List Nat)
    (hit : ∀ l, (iter l).Perm l) (ws : List Work) (hn : (ws.map (·.id)).Nodup) (fuel : Nat) (hf : ws.length ≤ fuel)
    (hm : ofWorks ws ≠ none) (hp : ∀ w ∈ ws, w.times.1 ≤ w.times.2) (last : Work) (hl : last ∈ ws) (h0 : last.times.1 = last.times.2)
    (hall : ∀ w ∈ ws, w.times.2 ≤ last.times.1) :
    ∃ t, ofWorksOrdered parents iter fuel ws = some t ∧ executionTime t = some last.times.2 := by
  obtain ⟨t, h1, h2, h3, h4, -⟩ := ordered parents hac iter hit ws hn fuel hf hm
  refine ⟨t, h1, ?_⟩
  have hlw : last ∈ works t := h2.mem_iff.mpr hl
  obtain ⟨r0, hr0, e0⟩ := List.mem_map.mp hlw
  have hne : t.rows ≠ [] := List.ne_nil_of_mem hr0
  rw [executionTime, List.getLast?_eq_getLast_of_ne_nil hne, Option.map_some]
  have hr : t.rows.getLast hne ∈ t.rows := List.getLast_mem hne
  have hw : (t.rows.getLast hne).work ∈ ws := h2.mem_iff.mp (List.mem_map_of_mem hr)
  have hfin : (t.rows.getLast hne).finish = (t.rows.getLast hne).work.times.2 := ((h3 _ hr).times (hp _ hw)).2.1
  have hge : last.times.1 ≤ (t.rows.getLast hne).work.times.1 := by
    rw [works, List.pairwise_map] at h4
    rw [← List.dropLast_append_getLast hne, List.mem_append, List.mem_singleton] at hr0
    rcases hr0 with hr0 | hr0
    · rw [← List.dropLast_append_getLast hne, List.pairwise_append] at h4
      have := h4.2.2 r0 hr0 _ (List.mem_singleton.mpr rfl)
      rwa [e0] at this
    · rw [← hr0, e0]
  rw [hfin]
  have a := hall _ hw
  have b := hp _ hw
  congr 1
  omega

/-- Not proved because false: "the execution time is the finish of the last finished work".  Without a graph it is that of the last given
work. -/
theorem execution_time_unordered : ∃ (ws : List Work) (t : Table), ofWorks ws = some t ∧ executionTime t = some 3 ∧
    ∃ w ∈ ws, w.times.2 = 5 :=
  ⟨[⟨0, "", "", 0, 0, (3, 5), [], false, []⟩, ⟨1, "", "", 0, 0, (0, 3), [], false, []⟩], _, rfl, by decide, _, List.mem_cons_self, rfl⟩

/-! ### Dates -/

/-- A row moved by days. -/
def moved (d : Int) (r : Merge.Row) : Merge.Row := { r with start := d + r.start, finish := d + r.finish }

/-- All dates can be written. -/
def Dates (d : Int) (rows : List Merge.Row) : Prop :=
  ∀ r ∈ rows, 1 ≤ d + r.start ∧ d + r.start ≤ 3652059 ∧ 1 ≤ d + r.finish ∧ d + r.finish ≤ 3652059

private theorem offsetRows_eq {d : Int} : ∀ {rows : List Merge.Row}, Dates d rows → offsetRows d rows = some (rows.map (moved d))
  | [], _ => rfl
  | r :: rows, h => by
    obtain ⟨h1, h2, h3, h4⟩ := h r List.mem_cons_self
    have ih := offsetRows_eq (d := d) (rows := rows) fun r hr => h r (List.mem_cons_of_mem _ hr)
    unfold offsetRows at ih ⊢
    have e1 : addDays d r.start = some (d + r.start) := if_pos ⟨h1, h2⟩
    have e2 : addDays d r.finish = some (d + r.finish) := if_pos ⟨h3, h4⟩
    rw [List.mapM_cons, ih, e1, e2]
    rfl

private theorem stages_moved (d : Int) (rows : List Merge.Row) (id : Merge.Str) :
    Merge.stagesOf (rows.map (moved d)) id = (Merge.stagesOf rows id).map (moved d) := by
  unfold Merge.stagesOf
  rw [List.filter_map]
  rfl

private theorem mapM_moved (d : Int) (num : Merge.Str → Option Int) : ∀ (rows : List Merge.Row),
    (rows.map (moved d)).mapM (fun r => (Merge.stageNum num r.granular).map fun n => (n, r)) =
      (rows.mapM fun r => (Merge.stageNum num r.granular).map fun n => (n, r)).map fun l => l.map fun p => (p.1, moved d p.2)
  | [] => rfl
  | r :: rows => by
    rw [List.map_cons, List.mapM_cons, List.mapM_cons, mapM_moved d num rows]
    have : (moved d r).granular = r.granular := rfl
    rw [this]
    cases Merge.stageNum num r.granular <;> [rfl; skip]
    cases rows.mapM fun r => (Merge.stageNum num r.granular).map fun n => (n, r) <;> rfl

private theorem merge_moved (d : Int) (num : Merge.Str → Option Int) (sort : List (Int × Merge.Row) → List (Int × Merge.Row))
    (hs : ∀ l, sort (l.map fun p => (p.1, moved d p.2)) = (sort l).map fun p => (p.1, moved d p.2)) (rows : List Merge.Row) :
    Merge.mergeStages num sort (rows.map (moved d)) = (Merge.mergeStages num sort rows).map (moved d) := by
  match rows with
  | [] => rfl
  | [r] => rfl
  | a :: b :: rest =>
    have := mapM_moved d num (a :: b :: rest)
    simp only [List.map_cons] at this ⊢
    simp only [Merge.mergeStages, this]
    cases (a :: b :: rest).mapM fun r => (Merge.stageNum num r.granular).map fun n => (n, r) with
    | none => rfl
    | some l =>
      simp only [Option.map_some, Option.bind_some, hs, List.getLast?_map]
      cases (sort l).getLast? with
      | none => rfl
      | some x =>
        have hl : ((moved d a :: moved d b :: rest.map (moved d)).getLast?.getD (moved d a)).finish =
            d + ((a :: b :: rest).getLast?.getD a).finish := by
          rw [← List.map_cons, ← List.map_cons, List.getLast?_map]
          cases (a :: b :: rest).getLast? <;> rfl
        have hv : (moved d a :: moved d b :: rest.map (moved d)).map (·.volume) = (a :: b :: rest).map (·.volume) := by
          simp [moved, Function.comp_def]
        have ha : ∀ (y : Merge.Row), (moved d y).start = d + y.start := fun _ => rfl
        simp only [Option.map_some, Option.some.injEq, hl, hv, ha]
        simp only [moved, Merge.Row.mk.injEq, true_and, and_true]
        omega

/-- The table of dates is the table of merged works moved by the offset, if all dates can be written; `sort`, which sorts stages by their
numbers, does not look at the times. -/
theorem dates (d : Int) (num : Merge.Str → Option Int) (sort : List (Int × Merge.Row) → List (Int × Merge.Row))
    (listing : List Merge.Str → List Merge.Str)
    (hs : ∀ l, sort (l.map fun p => (p.1, moved d p.2)) = (sort l).map fun p => (p.1, moved d p.2)) (rows : List Merge.Row)
    (hd : Dates d rows) :
    mergedDates num sort listing d rows = (Merge.fixSplit num sort listing rows).map fun m => m.map (moved d) := by
  rw [mergedDates, offsetRows_eq hd, Option.bind_some]
  unfold Merge.fixSplit
  have e : (rows.map (moved d)).map (fun r => Merge.head r.taskId) = rows.map fun r => Merge.head r.taskId := by
    rw [List.map_map]; rfl
  rw [e]
  have hm : ∀ ids : List Merge.Str, (ids.mapM fun id => Merge.mergeStages num sort (Merge.stagesOf (rows.map (moved d)) id)) =
      (ids.mapM fun id => Merge.mergeStages num sort (Merge.stagesOf rows id)).map fun m => m.map (moved d) := by
    intro ids
    induction ids with
    | nil => rfl
    | cons id ids ih =>
      rw [List.mapM_cons, List.mapM_cons, ih, stages_moved, merge_moved d num sort hs]
      cases Merge.mergeStages num sort (Merge.stagesOf rows id) <;> [rfl; skip]
      cases ids.mapM fun id => Merge.mergeStages num sort (Merge.stagesOf rows id) <;> rfl
  rw [hm, Option.map_map, Option.map_map]
  congr 1
  funext m
  simp only [Function.comp]
  rw [List.map_mergeSort]
  intro a _ b _
  simp [Merge.rowLe, moved]

/-- Not proved because false: "every schedule has a table of dates".  A work that cannot be done ends at an infinite time. -/
theorem infinite_date_raises (d : Int) (hd : 1 ≤ d) (num : Merge.Str → Option Int) (sort : List (Int × Merge.Row) → List (Int × Merge.Row))
    (listing : List Merge.Str → List Merge.Str) (rows : List Merge.Row) (r : Merge.Row) (hr : r ∈ rows) (hf : r.finish = 2000000000) :
    mergedDates num sort listing d rows = none := by
  have : offsetRows d rows = none := by
    unfold offsetRows
    induction rows with
    | nil => simp at hr
    | cons a rows ih =>
      rw [List.mapM_cons]
      rcases List.mem_cons.mp hr with rfl | hr
      · have e : addDays d r.finish = none := if_neg (by omega)
        rw [e]
        cases addDays d r.start <;> rfl
      · rw [ih hr]
        cases (addDays d a.start).bind fun s => (addDays d a.finish).map fun f => ({ a with start := s, finish := f } : Merge.Row) <;> rfl
  rw [mergedDates, this, Option.bind_none]

/-! ### Cases -/

private def demo : List Work :=
  [⟨2, "finish", "", 0, 0, (5, 5), [], true, [("measurement", "unit"), ("granular_name", "finish")]⟩,
   ⟨1, "pit", "A", 10, 3, (0, 5), [("driver", 2)], false, [("granular_name", "pit"), ("measurement", "m")]⟩,
   ⟨0, "start", "", 0, 0, (0, 0), [], true, [("granular_name", "start"), ("measurement", "unit")]⟩]

private def demoParents (v : Nat) : List Nat := if v = 0 then [] else if v ≤ 2 then [v - 1] else []

/-- A project of a start, a pit and a finish meets the hypotheses on works. -/
example : ofWorks demo ≠ none ∧ (demo.map (·.id)).Nodup ∧ (∀ v ∈ demo, ∀ w ∈ demo, (v.model.map (·.1)).Perm (w.model.map (·.1))) ∧
    (∀ v ∈ demo, (v.model.map (·.1)).Nodup) ∧ (∀ w ∈ demo, w.times.1 ≤ w.times.2) ∧
    (∀ w ∈ demo, w.times.2 ≤ 5) ∧ (∀ a ∈ demo, ∀ b ∈ demo, b.id ∈ demoParents a.id → b.times.1 ≤ a.times.1) := by decide +kernel

/-- Its table. -/
example : (ofWorksOrdered demoParents id 3 demo).map (·.columns) = some ["granular_name", "measurement"] ∧
    (ofWorksOrdered demoParents id 3 demo).map (fun t => t.rows.map fun r => (r.idx, r.id, r.finish)) =
      some [(2, 0, 0), (1, 1, 5), (0, 2, 5)] ∧
    (ofWorksOrdered demoParents id 3 demo).map (fun t => t.rows.map (·.cells)) =
      some [[some "start", some "unit"], [some "pit", some "m"], [some "finish", some "unit"]] := by
  refine ⟨?_, ?_, ?_⟩ <;> decide +kernel

/-- Its graph has no cycles. -/
example : Acyclic fun u v => v ∈ demoParents u := by
  have lt : ∀ u v, Relation.TransGen (fun u v => v ∈ demoParents u) u v → v < u := by
    intro u v h
    have step : ∀ u v, v ∈ demoParents u → v < u := by
      intro u v h
      unfold demoParents at h
      split at h
      · simp at h
      · split at h
        · simp only [List.mem_singleton] at h; omega
        · simp at h
    induction h with
    | single h => exact step _ _ h
    | tail _ h ih => exact (step _ _ h).trans ih
  intro u h
  exact lt_irrefl u (lt u u h)

/-- A sort that looks at the numbers of stages only. -/
example (d : Int) (l : List (Int × Merge.Row)) : (l.map fun p => (p.1, moved d p.2)).insertionSort (fun a b => a.1 ≤ b.1) =
    (l.insertionSort fun a b => a.1 ≤ b.1).map fun p => (p.1, moved d p.2) :=
  (List.map_insertionSort (r := fun a b : Int × Merge.Row => a.1 ≤ b.1) (s := fun a b : Int × Merge.Row => a.1 ≤ b.1)
    (fun p => (p.1, moved d p.2)) l fun _ _ _ _ => Iff.rfl).symm

/-- Dates of 2026 can be written. -/
example : Dates 739500 [Merge.rowOf ⟨['a'], [], ['a'], 1, 0, 3, 8, []⟩] := by
  intro r hr
  rw [List.mem_singleton] at hr
  subst hr
  decide +kernel

end Sampo.C80
