import Verif.Lemmas.Merge

/-!
# C48: merging the stages of split works

A stage of the work `b` has the id `b` (the last stage, or the whole work) or `b_stage_…`.  `sort` and `listing` are any sorting by
stage number and any order of the set of task ids; `num` is any reading of numbers.
-/

namespace Sampo.C48

open Merge

private theorem mkTime_range {t : Int} (h : IsTime t) : mkTime t = t := by
  unfold IsTime at h
  unfold mkTime
  rw [if_neg (by omega), if_neg (by omega)]

private theorem uniteRow_id (r : Row) : (uniteRow r).id = r.work.id := rfl

private theorem unite_rows {num : Str → Option Int} {sort : List (Int × Row) → List (Int × Row)} {listing : List Str → List Str}
    {works us : List Work} (h : unite num sort listing works = some us) :
    ∃ rows, fixSplit num sort listing (works.map rowOf) = some rows ∧ us = rows.map uniteRow := by
  unfold unite at h
  split at h
  · simp at h
  · obtain ⟨rows, h1, rfl⟩ := Option.map_eq_some_iff.mp h
    exact ⟨rows, h1, rfl⟩

private theorem row_times {works : List Work} (hwf : ∀ w ∈ works, w.start ≤ w.finish ∧ IsTime w.start ∧ IsTime w.finish) {b : Str}
    {num : Str → Option Int} {sort : List (Int × Row) → List (Int × Row)} (hsort : Sorts sort) {m : Row}
    (hm : mergeStages num sort ((works.filter fun w => Stage b w.id).map rowOf) = some m) :
    (∃ f, (works.filter fun w => Stage b w.id).head? = some f ∧ (uniteRow m).start = f.start ∧ m.start = f.start) ∧
    (∃ l, (works.filter fun w => Stage b w.id).getLast? = some l ∧ (uniteRow m).finish = l.finish ∧ m.finish = l.finish) := by
  obtain ⟨r, hr, _, _, _, ⟨f, hf, hfs, _⟩, ⟨l, hl, hlf⟩, _⟩ := mergeStages_spec hsort hm
  rw [List.head?_map] at hf
  rw [List.getLast?_map] at hl
  obtain ⟨f', hf', rfl⟩ := Option.map_eq_some_iff.mp hf
  obtain ⟨l', hl', rfl⟩ := Option.map_eq_some_iff.mp hl
  have h1 := hwf f' (List.mem_filter.mp (List.mem_of_mem_head? hf')).1
  have h2 := hwf l' (List.mem_filter.mp (List.mem_of_getLast? hl')).1
  have e1 : (rowOf f').start = f'.start := by show min _ _ = _; omega
  have e2 : (rowOf l').finish = l'.finish := by show max _ _ = _; omega
  refine ⟨⟨f', hf', ?_, by rw [hfs, e1]⟩, ⟨l', hl', ?_, by rw [hlf, e2]⟩⟩
  · show mkTime m.start = _
    rw [hfs, e1, mkTime_range h1.2.1]
  · show mkTime m.finish = _
    rw [hlf, e2, mkTime_range h2.2.2]

/-- Partial: a united schedule has exactly one row for each work; its volume is the sum of the volumes of the stages, it starts with the
first stage of the schedule and finishes with the last one, the row is made from one of the stages, and rows are ordered by start.
Missing: ids in which the separator occurs otherwise than before stage numbers (`ids_merged`, `ids_counted_twice`). -/
theorem united_partial {num : Str → Option Int} {sort : List (Int × Row) → List (Int × Row)} {listing : List Str → List Str}
    {works us : List Work} (hsort : Sorts sort) (hlist : Lists listing) (hp : Proper works)
    (hwf : ∀ w ∈ works, w.start ≤ w.finish ∧ IsTime w.start ∧ IsTime w.finish) (h : unite num sort listing works = some us) :
    (∀ b, Clean b → (∃ w ∈ works, Stage b w.id) → ∃ u, us.filter (fun u => Stage b u.id) = [u] ∧
      u.volume = ((works.filter fun w => Stage b w.id).map (·.volume)).sum ∧
      (∃ first, (works.filter fun w => Stage b w.id).head? = some first ∧ u.start = first.start) ∧
      (∃ last, (works.filter fun w => Stage b w.id).getLast? = some last ∧ u.finish = last.finish) ∧
      ∃ w ∈ works, Stage b w.id ∧ u.id = w.id ∧ u.team = w.team) ∧
    (∀ u ∈ us, ∃ b, Clean b ∧ Stage b u.id ∧ ∃ w ∈ works, Stage b w.id) ∧
    us.Pairwise fun u v => u.start ≤ v.start := by
  obtain ⟨rows, hrows, rfl⟩ := unite_rows h
  obtain ⟨hpw, hone, hall⟩ := fixSplit_rows hsort hlist hp hrows
  refine ⟨?_, ?_, ?_⟩
  · intro b hb hex
    obtain ⟨m, hm, hmm⟩ := hone b hb hex
    obtain ⟨r, hr, hw, _, hvol, _⟩ := mergeStages_spec hsort hmm
    obtain ⟨⟨f, hf, hfs, _⟩, ⟨l, hl, hlf, _⟩⟩ := row_times hwf hsort hmm
    obtain ⟨w, hw', rfl⟩ := List.mem_map.mp hr
    refine ⟨uniteRow m, ?_, ?_, ⟨f, hf, hfs⟩, ⟨l, hl, hlf⟩, w, (List.mem_filter.mp hw').1, ?_, ?_, ?_⟩
    · rw [List.filter_map]
      show (rows.filter fun r => decide (Stage b r.work.id)).map uniteRow = _
      rw [hm]; rfl
    · show m.volume = _
      rw [hvol, List.map_map]; rfl
    · simpa using (List.mem_filter.mp hw').2
    · show m.work.id = _
      rw [hw]; rfl
    · show m.work.team = _
      rw [hw]; rfl
  · intro u hu
    obtain ⟨m, hm, rfl⟩ := List.mem_map.mp hu
    obtain ⟨b, hb, hex, hs, _⟩ := hall m hm
    exact ⟨b, hb, hs, hex⟩
  · rw [List.pairwise_map]
    refine List.Pairwise.imp ?_ hpw
    intro a b hab
    have : a.start ≤ b.start := by
      unfold rowLe at hab
      simp only [decide_eq_true_eq] at hab
      rcases hab with h | ⟨h, _⟩ <;> omega
    show mkTime a.start ≤ mkTime b.start
    have : TIME_INF = 2000000000 := rfl
    unfold mkTime
    split_ifs <;> omega

/-- If the stages of every work follow each other in the schedule, as those of a chain do, the united work covers exactly the time from
the earliest start to the latest finish of its stages. -/
theorem spans_stages {num : Str → Option Int} {sort : List (Int × Row) → List (Int × Row)} {listing : List Str → List Str}
    {works us : List Work} (hsort : Sorts sort) (hlist : Lists listing) (hp : Proper works)
    (hwf : ∀ w ∈ works, w.start ≤ w.finish ∧ IsTime w.start ∧ IsTime w.finish)
    (hseq : ∀ b, Clean b → (works.filter fun w => Stage b w.id).Pairwise fun v w => v.finish ≤ w.start)
    (h : unite num sort listing works = some us) :
    ∀ u ∈ us, ∀ b, Clean b → Stage b u.id →
      (∀ w ∈ works, Stage b w.id → u.start ≤ w.start ∧ w.finish ≤ u.finish) ∧
      (∃ w ∈ works, Stage b w.id ∧ u.start = w.start) ∧ ∃ w ∈ works, Stage b w.id ∧ u.finish = w.finish := by
  intro u hu b hb hs
  obtain ⟨c, hc, hcs, w0, hw0, hw0s⟩ := (united_partial hsort hlist hp hwf h).2.1 u hu
  have hbc : b = c := (stage_iff hb hc hcs).mp hs
  subst hbc
  obtain ⟨u', hu', _, ⟨f, hf, hfs⟩, ⟨l, hl, hlf⟩, _⟩ := (united_partial hsort hlist hp hwf h).1 b hb ⟨w0, hw0, hw0s⟩
  have huu : u = u' := by
    have : u ∈ us.filter (fun u => Stage b u.id) := List.mem_filter.mpr ⟨hu, by simpa using hs⟩
    rw [hu'] at this
    simpa using this
  subst huu
  have hfm := List.mem_filter.mp (List.mem_of_mem_head? hf)
  have hlm := List.mem_filter.mp (List.mem_of_getLast? hl)
  refine ⟨?_, ⟨f, hfm.1, by simpa using hfm.2, hfs⟩, ⟨l, hlm.1, by simpa using hlm.2, hlf⟩⟩
  intro w hw hws
  have hwm : w ∈ works.filter fun w => Stage b w.id := List.mem_filter.mpr ⟨hw, by simpa using hws⟩
  have hpw := hseq b hb
  constructor
  · rw [hfs]
    obtain ⟨tl, htl⟩ : ∃ tl, (works.filter fun w => Stage b w.id) = f :: tl := by
      cases hx : works.filter fun w => Stage b w.id with
      | nil => rw [hx] at hf; simp at hf
      | cons a as => rw [hx] at hf; simp at hf; subst hf; exact ⟨as, rfl⟩
    rw [htl] at hwm hpw
    rcases List.mem_cons.mp hwm with rfl | hwm
    · exact le_refl _
    · have := (List.pairwise_cons.mp hpw).1 w hwm
      have := (hwf f hfm.1).1
      omega
  · rw [hlf]
    obtain ⟨ini, hini⟩ := List.getLast?_eq_some_iff.mp hl
    rw [hini] at hwm hpw
    rcases List.mem_append.mp hwm with hwm | hwm
    · have := (List.pairwise_append.mp hpw).2.2 w hwm l (by simp)
      have := (hwf l hlm.1).1
      omega
    · simp at hwm; subst hwm; exact le_refl _

/-- Uniting succeeds if the stage numbers in the names can be read. -/
theorem succeeds {num : Str → Option Int} {sort : List (Int × Row) → List (Int × Row)} {listing : List Str → List Str}
    {works : List Work} (hsort : Sorts sort) (hlist : Lists listing) (hp : Proper works) (hne : works ≠ [])
    (hnum : ∀ w ∈ works, ∃ n, stageNum num w.granular = some n) : ∃ us, unite num sort listing works = some us := by
  obtain ⟨out, h⟩ := fixSplit_exists hsort hlist hp hnum
  unfold unite
  rw [if_neg hne, h]
  exact ⟨_, rfl⟩

/-- A schedule without split works is only reordered. -/
theorem unsplit_unchanged {num : Str → Option Int} {sort : List (Int × Row) → List (Int × Row)} {listing : List Str → List Str}
    {works us : List Work} (hlist : Lists listing) (hclean : ∀ w ∈ works, Clean w.id)
    (hnd : (works.map (·.id)).Nodup)
    (hwf : ∀ w ∈ works, w.start ≤ w.finish ∧ IsTime w.start ∧ IsTime w.finish) (h : unite num sort listing works = some us) :
    us.Perm works := by
  have hp : Proper works := fun w hw => ⟨w.id, hclean w hw, Or.inl rfl⟩
  obtain ⟨rows, hrows, rfl⟩ := unite_rows h
  obtain ⟨hpw, merged, hperm, hfor⟩ := fixSplit_spec hrows
  have hids : listing ((works.map rowOf).map fun r => head r.taskId).dedup |>.Perm (works.map (·.id)) := by
    refine (hlist _).trans ?_
    have : ((works.map rowOf).map fun r => head r.taskId) = works.map (·.id) := by
      rw [List.map_map]
      apply List.map_congr_left
      intro w hw
      exact head_stage (hclean w hw) (Or.inl rfl)
    rw [this, List.Nodup.dedup hnd]
  have hsingle : ∀ w ∈ works, (works.filter fun v => Stage w.id v.id) = [w] := by
    intro w hw
    have hfil : (works.filter fun v => Stage w.id v.id) = works.filter fun v => v.id = w.id := by
      apply List.filter_congr
      intro v hv
      congr 1
      rw [stage_iff (hclean w hw) (hclean v hv) (Or.inl rfl)]
      exact propext eq_comm
    rw [hfil]
    clear hfil
    induction works with
    | nil => simp at hw
    | cons a as ih =>
      rw [List.map_cons, List.nodup_cons] at hnd
      rcases List.mem_cons.mp hw with rfl | hw'
      · rw [List.filter_cons_of_pos (by simp)]
        congr 1
        rw [List.filter_eq_nil_iff]
        intro v hv hve
        simp at hve
        exact hnd.1 (by rw [← hve]; exact List.mem_map_of_mem hv)
      · rw [List.filter_cons_of_neg]
        · have key : ∀ (l : List Work), (l.map (·.id)).Nodup → w ∈ l → l.filter (fun v => v.id = w.id) = [w] := by
            intro l
            induction l with
            | nil => intro _ h; simp at h
            | cons x xs ih2 =>
              intro hn hm
              rw [List.map_cons, List.nodup_cons] at hn
              rcases List.mem_cons.mp hm with rfl | hm
              · rw [List.filter_cons_of_pos (by simp)]
                congr 1
                rw [List.filter_eq_nil_iff]
                intro v hv hve
                simp at hve
                exact hn.1 (by rw [← hve]; exact List.mem_map_of_mem hv)
              · rw [List.filter_cons_of_neg]
                · exact ih2 hn.2 hm
                · simp
                  intro hx
                  exact hn.1 (by rw [hx]; exact List.mem_map_of_mem hm)
          exact key as hnd.2 hw'
        · simp
          intro hx
          exact hnd.1 (by rw [hx]; exact List.mem_map_of_mem hw')
  have hunite : ∀ w ∈ works, uniteRow (rowOf w) = w := by
    intro w hw
    have h1 := hwf w hw
    show ({ w with granular := w.granular, name := w.name, volume := w.volume, start := mkTime (min w.start w.finish), finish := mkTime (max w.start w.finish) } : Work) = w
    rw [min_eq_left h1.1, max_eq_right h1.1, mkTime_range h1.2.1, mkTime_range h1.2.2]
  have hmerged : ∀ {ids : List Str} {ms : List Row},
      List.Forall₂ (fun id m => mergeStages num sort (stagesOf (works.map rowOf) id) = some m) ids ms →
      (∀ id ∈ ids, ∃ w ∈ works, w.id = id) → (∀ m ∈ ms, m.work ∈ works ∧ uniteRow m = m.work) ∧ ms.map (·.work.id) = ids := by
    intro ids ms hf
    induction hf with
    | nil => intro _; simp
    | @cons id m ids ms h1 _ ih =>
      intro hx
      obtain ⟨ih1, ih2⟩ := ih (fun i hi => hx i (List.mem_cons_of_mem _ hi))
      obtain ⟨w, hw, rfl⟩ := hx id (List.mem_cons_self ..)
      rw [stagesOf_eq, hsingle w hw] at h1
      simp only [List.map_cons, List.map_nil, mergeStages, Option.some.injEq] at h1
      subst h1
      refine ⟨?_, by rw [List.map_cons, ih2]; rfl⟩
      intro m hm
      rcases List.mem_cons.mp hm with rfl | hm
      · exact ⟨hw, hunite w hw⟩
      · exact ih1 m hm
  obtain ⟨h1, h2⟩ := hmerged hfor (fun id hid => by
    have := hids.mem_iff.mp hid
    obtain ⟨w, hw, rfl⟩ := List.mem_map.mp this
    exact ⟨w, hw, rfl⟩)
  have h3 : merged.map uniteRow = merged.map (·.work) := List.map_congr_left fun m hm => (h1 m hm).2
  have h4 : (merged.map (·.work)).Perm works := by
    have hndm : (merged.map (·.work)).Nodup := by
      apply List.Nodup.of_map (·.id)
      rw [List.map_map]
      show (merged.map (·.work.id)).Nodup
      rw [h2]
      exact hids.nodup_iff.mpr hnd
    have hndw : works.Nodup := List.Nodup.of_map _ hnd
    rw [List.perm_ext_iff_of_nodup hndm hndw]
    intro w
    constructor
    · intro hw
      obtain ⟨m, hm, rfl⟩ := List.mem_map.mp hw
      exact (h1 m hm).1
    · intro hw
      have : w.id ∈ merged.map (·.work.id) := by
        rw [h2]; exact hids.mem_iff.mpr (List.mem_map_of_mem hw)
      obtain ⟨m, hm, hme⟩ := List.mem_map.mp this
      have : m.work = w := by
        have hmw := (h1 m hm).1
        have : m.work ∈ works.filter fun v => Stage w.id v.id :=
          List.mem_filter.mpr ⟨hmw, decide_eq_true (Or.inl hme)⟩
        rw [hsingle w hw] at this
        simpa using this
      rw [← this]
      exact List.mem_map_of_mem hm
  exact ((hperm.map uniteRow).trans (by rw [h3])).trans h4

/-- The execution time stays the same: if the last row of the schedule is that of the final event, which takes no time and starts when
everything is finished, then the last row of the united schedule finishes at this time. -/
theorem execution_time_kept {num : Str → Option Int} {sort : List (Int × Row) → List (Int × Row)} {listing : List Str → List Str}
    {works us : List Work} (hsort : Sorts sort) (hlist : Lists listing) (hp : Proper works)
    (hwf : ∀ w ∈ works, w.start ≤ w.finish ∧ IsTime w.start ∧ IsTime w.finish)
    (hseq : ∀ b, Clean b → (works.filter fun w => Stage b w.id).Pairwise fun v w => v.finish ≤ w.start)
    {final : Work} (hfinal : final ∈ works) (hid : Clean final.id) (honly : ∀ w ∈ works, Stage final.id w.id → w = final)
    (hend : ∀ w ∈ works, w.finish ≤ final.start) (hzero : final.start = final.finish)
    (h : unite num sort listing works = some us) : ∃ last, us.getLast? = some last ∧ last.finish = final.finish := by
  obtain ⟨h1, h2, h3⟩ := united_partial hsort hlist hp hwf h
  have hspan := spans_stages hsort hlist hp hwf hseq h
  obtain ⟨u, hu, _, ⟨f, hf, hfs⟩, _⟩ := h1 final.id hid ⟨final, hfinal, Or.inl rfl⟩
  have hff : f = final := by
    have := List.mem_filter.mp (List.mem_of_mem_head? hf)
    exact honly f this.1 (by simpa using this.2)
  subst hff
  have hum : u ∈ us := by
    have : u ∈ us.filter (fun u => Stage f.id u.id) := by rw [hu]; simp
    exact (List.mem_filter.mp this).1
  have hne : us ≠ [] := fun h => by rw [h] at hum; simp at hum
  refine ⟨us.getLast hne, List.getLast?_eq_some_getLast hne, ?_⟩
  have hlm := List.getLast_mem hne
  obtain ⟨b, hb, hbs, _⟩ := h2 _ hlm
  obtain ⟨hcover, ⟨v, hv, hvs, hve⟩, ⟨w, hw, hws, hwe⟩⟩ := hspan _ hlm b hb hbs
  have hul : u.start ≤ (us.getLast hne).start := by
    obtain ⟨ini, hini⟩ : ∃ ini, us = ini ++ [us.getLast hne] := ⟨us.dropLast, (List.dropLast_append_getLast hne).symm⟩
    rw [hini] at hum h3
    rcases List.mem_append.mp hum with hum | hum
    · exact (List.pairwise_append.mp h3).2.2 u hum _ (by simp)
    · simp at hum; rw [← hum]
  have e1 := hend w hw
  have e2 := (hcover v hv hvs).2
  have e3 := (hwf v hv).1
  omega

/-- How stages are numbered: by the text behind the separator in the name; a name without the separator comes before all others. -/
theorem numbered_by_name (num : Str → Option Int) {g t : Str} (hg : Clean g) (ht : Clean t) :
    stageNum num g = some (-1) ∧ stageNum num (g ++ sep ++ t) = num t := by
  unfold stageNum
  rw [split_clean hg, split_stage hg ht]
  exact ⟨rfl, rfl⟩

/-- The id of a united work is its own if the last stage has the greatest stage number in its name. -/
theorem id_kept {num : Str → Option Int} {sort : List (Int × Row) → List (Int × Row)} {listing : List Str → List Str}
    {works us : List Work} (hsort : Sorts sort) (hlist : Lists listing) (hp : Proper works) {b : Str} (hb : Clean b)
    (hex : ∃ w ∈ works, Stage b w.id)
    (hnum : ∀ v ∈ works, Stage b v.id → v.id ≠ b → ∃ w ∈ works, w.id = b ∧
      ∀ n k, stageNum num v.granular = some n → stageNum num w.granular = some k → n < k)
    (h : unite num sort listing works = some us) : ∃ u, us.filter (fun u => Stage b u.id) = [u] ∧ u.id = b := by
  obtain ⟨rows, hrows, rfl⟩ := unite_rows h
  obtain ⟨_, hone, _⟩ := fixSplit_rows hsort hlist hp hrows
  obtain ⟨m, hm, hmm⟩ := hone b hb hex
  refine ⟨uniteRow m, ?_, ?_⟩
  · rw [List.filter_map]
    show (rows.filter fun r => decide (Stage b r.work.id)).map uniteRow = _
    rw [hm]; rfl
  · obtain ⟨r, hr, hw, _, _, _, _, _, _, n, hn⟩ := mergeStages_spec hsort hmm
    obtain ⟨v, hv, rfl⟩ := List.mem_map.mp hr
    obtain ⟨hv, hvs⟩ := List.mem_filter.mp hv
    show m.work.id = b
    rw [hw]
    show v.id = b
    by_contra hne
    obtain ⟨w, hw', hwb, hlt⟩ := hnum v hv (by simpa using hvs) hne
    have hwm : w ∈ works.filter fun w => Stage b w.id := List.mem_filter.mpr ⟨hw', decide_eq_true (Or.inl hwb)⟩
    rcases hn with hn | ⟨hn1, hn2⟩
    · obtain ⟨x, hx⟩ := List.length_eq_one_iff.mp (by rw [List.length_map] at hn; exact hn)
      rw [hx] at hwm
      have hvm : v ∈ works.filter fun w => Stage b w.id := List.mem_filter.mpr ⟨hv, hvs⟩
      rw [hx] at hvm
      simp at hwm hvm
      rw [hvm, ← hwm] at hne
      exact hne hwb
    · obtain ⟨k, hk, hle⟩ := hn2 (rowOf w) (List.mem_map_of_mem hwm)
      have := hlt n k hn1 hk
      omega

/-- It is also its own if all stages have the same number, as after restructuring, the last stage is the last one in the schedule, and
the sort leaves a sorted list as it is. -/
theorem id_kept_same {num : Str → Option Int} {sort : List (Int × Row) → List (Int × Row)} {listing : List Str → List Str}
    {works us : List Work} (hsort : Sorts sort) (hstable : ∀ l, l.Pairwise (fun a b => a.1 ≤ b.1) → sort l = l) (hlist : Lists listing)
    (hp : Proper works) {b : Str} (hb : Clean b) {last : Work} (hlast : (works.filter fun w => Stage b w.id).getLast? = some last)
    (hid : last.id = b) {n : Int} (hnum : ∀ v ∈ works, Stage b v.id → stageNum num v.granular = some n)
    (h : unite num sort listing works = some us) : ∃ u, us.filter (fun u => Stage b u.id) = [u] ∧ u.id = b := by
  obtain ⟨rows, hrows, rfl⟩ := unite_rows h
  obtain ⟨_, hone, _⟩ := fixSplit_rows hsort hlist hp hrows
  have hlm := List.mem_filter.mp (List.mem_of_getLast? hlast)
  obtain ⟨m, hm, hmm⟩ := hone b hb ⟨last, hlm.1, of_decide_eq_true hlm.2⟩
  refine ⟨uniteRow m, ?_, ?_⟩
  · rw [List.filter_map]
    show (rows.filter fun r => decide (Stage b r.work.id)).map uniteRow = _
    rw [hm]; rfl
  · have := mergeStages_same hstable (n := n) (l := rowOf last) (fun r hr => by
      obtain ⟨v, hv, rfl⟩ := List.mem_map.mp hr
      have hv := List.mem_filter.mp hv
      exact hnum v hv.1 (of_decide_eq_true hv.2)) (by rw [List.getLast?_map, hlast]; rfl) hmm
    show m.work.id = b
    rw [this, ← hid]; rfl

/-- The table with merged stages: one row for each work, under its own id if the work has a stage with this id, with the volume, start
and finish of the whole work; the duration is right for works in one stage (see `table_duration`). -/
theorem table_partial {num : Str → Option Int} {sort : List (Int × Row) → List (Int × Row)} {listing : List Str → List Str}
    {works : List Work} {rows : List Row} (hsort : Sorts sort) (hlist : Lists listing) (hp : Proper works)
    (hwf : ∀ w ∈ works, w.start ≤ w.finish ∧ IsTime w.start ∧ IsTime w.finish)
    (hlast : ∀ b, Clean b → (∃ w ∈ works, Stage b w.id) → ∃ w ∈ works, w.id = b)
    (h : fixSplit num sort listing (works.map rowOf) = some rows) :
    (∀ b, Clean b → (∃ w ∈ works, Stage b w.id) → ∃ m, rows.filter (fun r => r.taskId = b) = [m] ∧
      m.volume = ((works.filter fun w => Stage b w.id).map (·.volume)).sum ∧
      (∃ first, (works.filter fun w => Stage b w.id).head? = some first ∧ m.start = first.start ∧ m.team = first.team) ∧
      (∃ last, (works.filter fun w => Stage b w.id).getLast? = some last ∧ m.finish = last.finish) ∧
      ((works.filter fun w => Stage b w.id).length = 1 → m.duration = m.finish - m.start)) ∧
    ∀ m ∈ rows, Clean m.taskId ∧ ∃ w ∈ works, Stage m.taskId w.id := by
  obtain ⟨_, hone, hall⟩ := fixSplit_rows hsort hlist hp h
  have hid : ∀ b, Clean b → (∃ w ∈ works, Stage b w.id) → ∀ m,
      mergeStages num sort ((works.filter fun w => Stage b w.id).map rowOf) = some m → m.taskId = b := by
    intro b hb hex m hm
    obtain ⟨r, hr, _, _, _, _, _, ht, _⟩ := mergeStages_spec hsort hm
    obtain ⟨v, hv, rfl⟩ := List.mem_map.mp hr
    have hvs := (List.mem_filter.mp hv).2
    rcases ht with ⟨ht, hone⟩ | ht
    · obtain ⟨w, hw, hwb⟩ := hlast b hb hex
      have hwm : rowOf w ∈ (works.filter fun w => Stage b w.id).map rowOf :=
        List.mem_map_of_mem (List.mem_filter.mpr ⟨hw, decide_eq_true (Or.inl hwb)⟩)
      rw [hone] at hwm
      simp at hwm
      rw [ht, ← hwm]
      exact hwb
    · rw [ht]
      exact head_stage hb (of_decide_eq_true hvs)
  refine ⟨?_, ?_⟩
  · intro b hb hex
    obtain ⟨m, hm, hmm⟩ := hone b hb hex
    obtain ⟨r, hr, _, _, hvol, ⟨f0, hf0, _, hft⟩, _, _, hsame, _⟩ := mergeStages_spec hsort hmm
    obtain ⟨⟨f, hf, _, hfs⟩, ⟨l, hl, _, hlf⟩⟩ := row_times hwf hsort hmm
    refine ⟨m, ?_, by rw [hvol, List.map_map]; rfl, ⟨f, hf, hfs, ?_⟩, ⟨l, hl, hlf⟩, ?_⟩
    · rw [← hm]
      apply List.filter_congr
      intro r hr
      obtain ⟨c, hc, hex', hs, hrm⟩ := hall r hr
      have := hid c hc hex' r hrm
      rw [this]
      congr 1
      rw [stage_iff hb hc hs]
      exact propext eq_comm
    · rw [List.head?_map, hf] at hf0
      simp at hf0
      rw [hft, ← hf0]; rfl
    · intro h1
      obtain ⟨v, _, rfl⟩ := List.mem_map.mp hr
      rw [hsame (by rw [List.length_map]; exact h1)]
      rfl
  · intro m hm
    obtain ⟨b, hb, hex, _, hmm⟩ := hall m hm
    rw [hid b hb hex m hmm]
    exact ⟨hb, hex⟩

/-! ## What does not hold -/

private def byNumber (l : List (Int × Row)) : List (Int × Row) := l.insertionSort fun a b => a.1 ≤ b.1

private theorem byNumber_sorts (f : List (Int × Row) → List (Int × Row)) (hf : ∀ l, (f l).Perm l) : Sorts fun l => byNumber (f l) := by
  intro l
  refine ⟨(List.perm_insertionSort _ _).trans (hf l), ?_⟩
  have : IsTrans (Int × Row) (fun a b => a.1 ≤ b.1) := ⟨fun a b c h1 h2 => le_trans h1 h2⟩
  have : Std.Total (fun a b : Int × Row => a.1 ≤ b.1) := ⟨fun a b => le_total a.1 b.1⟩
  exact List.pairwise_insertionSort _ _

private def str (s : String) : Str := s.toList

/-- Two stages of a work, with the names restructuring gives them: both have the same. -/
private def split2 : List Work :=
  [⟨str "a_stage_0", str "A", str "A_stage_0_stage_1", 10, 5, 0, 2, [(0, 1)]⟩, ⟨str "a", str "A", str "A_stage_0_stage_1", 20, 7, 2, 6, [(0, 1)]⟩]

private def digit (s : Str) : Option Int := s.head?.map fun c => (c.toNat : Int) - 48

/-- Not proved because false: "the cost of a united work is the sum of the costs of its stages".  It is that of one stage, whatever the
order in which the rows are sorted. -/
theorem cost_lost : ∃ works : List Work, Proper works ∧ ∀ {num : Str → Option Int} {sort : List (Int × Row) → List (Int × Row)}
    {listing : List Str → List Str} {us : List Work}, Sorts sort → Lists listing → unite num sort listing works = some us →
    (us.map (·.cost)).sum < (works.map (·.cost)).sum := by
  have hp : Proper split2 := by
    intro w hw
    refine ⟨str "a", by decide, ?_⟩
    simp only [split2, List.mem_cons, List.not_mem_nil, or_false] at hw
    rcases hw with rfl | rfl
    · decide
    · decide
  refine ⟨split2, hp, ?_⟩
  intro num sort listing us hsort hlist h
  obtain ⟨rows, hrows, rfl⟩ := unite_rows h
  obtain ⟨_, hone, hall⟩ := fixSplit_rows hsort hlist hp hrows
  have ha : Clean (str "a") := by decide
  obtain ⟨m, hm, hmm⟩ := hone (str "a") ha ⟨_, List.mem_cons_self .., by decide⟩
  have hrows1 : rows = [m] := by
    rw [← hm]
    symm
    rw [List.filter_eq_self]
    intro r hr
    obtain ⟨b, hb, ⟨w, hw, hws⟩, hs, _⟩ := hall r hr
    have : str "a" = b := by
      simp only [split2, List.mem_cons, List.not_mem_nil, or_false] at hw
      rcases hw with rfl | rfl
      · exact (stage_iff ha hb hws).mp (by decide)
      · exact (stage_iff ha hb hws).mp (by decide)
    rw [this]
    simpa using hs
  obtain ⟨r, hr, hw, _⟩ := mergeStages_spec hsort hmm
  rw [hrows1]
  obtain ⟨v, hv, rfl⟩ := List.mem_map.mp hr
  have hv := (List.mem_filter.mp hv).1
  have hc : (uniteRow m).cost = v.cost := by
    show m.work.cost = _
    rw [hw]; rfl
  simp only [List.map_cons, List.map_nil, List.sum_cons, List.sum_nil, hc]
  simp only [split2, List.mem_cons, List.not_mem_nil, or_false] at hv
  rcases hv with rfl | rfl <;> decide

/-- Not proved because false: "a united work has its own id".  All stages made by restructuring share one name, and so the stage number;
a sort may put any of them last. -/
theorem id_may_change : ∃ (works : List Work) (num : Str → Option Int) (sort : List (Int × Row) → List (Int × Row)), Proper works ∧
    Sorts sort ∧ ∃ b, Clean b ∧ (∀ w ∈ works, Stage b w.id) ∧ (∃ w ∈ works, w.id = b) ∧ ∃ u, unite num sort id works = some [u] ∧ u.id ≠ b := by
  refine ⟨split2, digit, fun l => byNumber l.reverse, ?_, byNumber_sorts _ List.reverse_perm, str "a", by decide, by decide,
    ⟨_, List.mem_cons_of_mem _ (List.mem_cons_self ..), rfl⟩, uniteRow ⟨str "a", str "A", str "A", 30, 5, 0, 6, 7, [(0, 1)], split2[0]⟩, ?_, by decide⟩
  · intro w hw
    refine ⟨str "a", by decide, ?_⟩
    simp only [split2, List.mem_cons, List.not_mem_nil, or_false] at hw
    rcases hw with rfl | rfl
    · decide
    · decide
  · have : ((id ((split2.map rowOf).map fun r => head r.taskId).dedup).mapM fun id =>
        mergeStages digit (fun l => byNumber l.reverse) (stagesOf (split2.map rowOf) id)) =
        some [⟨str "a", str "A", str "A", 30, 5, 0, 6, 7, [(0, 1)], split2[0]⟩] := by decide +kernel
    unfold unite
    rw [if_neg (by decide)]
    unfold fixSplit
    rw [this]
    simp

/-- Not proved because false: "the table reports as duration of a work the time from its start to its finish".  Merged works get one unit
more than works that were not split. -/
theorem table_duration {num : Str → Option Int} {sort : List (Int × Row) → List (Int × Row)} {rows : List Row} {m : Row}
    (h : mergeStages num sort rows = some m) (h2 : 2 ≤ rows.length) : m.duration = m.finish - m.start + 1 := by
  match rows, h2 with
  | first :: second :: rest, _ =>
    unfold mergeStages at h
    obtain ⟨_, _, h⟩ := Option.bind_eq_some_iff.mp h
    obtain ⟨_, _, rfl⟩ := Option.map_eq_some_iff.mp h
    rfl

/-- Not proved because false: "works that were not split are left alone", for all ids: two works with the ids `paint_stage_1` and
`paint_stage_2` become one. -/
theorem ids_merged : ∃ (num : Str → Option Int) (sort : List (Int × Row) → List (Int × Row)) (works us : List Work), Sorts sort ∧
    works.length = 2 ∧ (works.map (·.id)).Nodup ∧ unite num sort id works = some us ∧ us.length = 1 := by
  refine ⟨digit, byNumber, [⟨str "paint_stage_1", str "P1", str "P1", 10, 5, 0, 2, []⟩, ⟨str "paint_stage_2", str "P2", str "P2", 20, 5, 1, 6, []⟩],
    [uniteRow ⟨str "paint", str "P2", str "P2", 30, 5, 0, 6, 7, [], ⟨str "paint_stage_2", str "P2", str "P2", 20, 5, 1, 6, []⟩⟩],
    byNumber_sorts id fun _ => List.Perm.refl _, rfl, by decide, ?_, rfl⟩
  have : ((id ((([⟨str "paint_stage_1", str "P1", str "P1", 10, 5, 0, 2, []⟩, ⟨str "paint_stage_2", str "P2", str "P2", 20, 5, 1, 6, []⟩] :
      List Work).map rowOf).map fun r => head r.taskId).dedup).mapM fun id => mergeStages digit byNumber
      (stagesOf (([⟨str "paint_stage_1", str "P1", str "P1", 10, 5, 0, 2, []⟩, ⟨str "paint_stage_2", str "P2", str "P2", 20, 5, 1, 6, []⟩] :
      List Work).map rowOf) id)) =
      some [⟨str "paint", str "P2", str "P2", 30, 5, 0, 6, 7, [], ⟨str "paint_stage_2", str "P2", str "P2", 20, 5, 1, 6, []⟩⟩] := by
    decide +kernel
  unfold unite
  rw [if_neg (by decide)]
  unfold fixSplit
  rw [this]
  simp

/-- Not proved because false: "volume is conserved", for all ids: of a work with the id `a_stage`, split in two, the first stage is
counted twice. -/
theorem ids_counted_twice : ∃ (num : Str → Option Int) (sort : List (Int × Row) → List (Int × Row)) (works us : List Work),
    Sorts sort ∧ unite num sort id works = some us ∧ (works.map (·.id)).Nodup ∧ (works.map (·.volume)).sum < (us.map (·.volume)).sum := by
  let works : List Work := [⟨str "a_stage_stage_0", str "A", str "A_stage_0_stage_1", 10, 5, 0, 2, []⟩,
    ⟨str "a_stage", str "A", str "A_stage_0_stage_1", 20, 7, 2, 6, []⟩]
  have : ∃ ms, ((id ((works.map rowOf).map fun r => head r.taskId).dedup).mapM fun id =>
        mergeStages digit byNumber (stagesOf (works.map rowOf) id)) = some ms ∧ (ms.map (·.volume)).sum = 40 := by
    refine ⟨[rowOf works[0], ⟨str "a_stage", str "A", str "A", 30, 7, 0, 6, 7, [], works[1]⟩], by decide +kernel, by decide +kernel⟩
  obtain ⟨ms, hms, hsum⟩ := this
  refine ⟨digit, byNumber, works, (ms.mergeSort rowLe).map uniteRow, byNumber_sorts id fun _ => List.Perm.refl _, ?_, by decide, ?_⟩
  · unfold unite
    rw [if_neg (by simp [works])]
    unfold fixSplit
    rw [hms]; rfl
  · rw [List.map_map]
    have : ((ms.mergeSort rowLe).map ((·.volume) ∘ uniteRow)).Perm (ms.map (·.volume)) := (List.mergeSort_perm _ _).map _
    rw [this.sum_eq, hsum]
    decide +kernel

/-- The hypotheses are met: a split work and a final event, united to two rows. -/
example : (let works : List Work := split2 ++ [⟨str "end", str "E", str "E", 0, 0, 6, 6, []⟩]
    Sorts byNumber ∧ Lists id ∧ (∀ w ∈ works, Clean (head w.id) ∧ Stage (head w.id) w.id) ∧
    (∀ w ∈ works, w.start ≤ w.finish ∧ IsTime w.start ∧ IsTime w.finish) ∧
    (∀ w ∈ works, ∃ n, stageNum digit w.granular = some n) ∧
    (works.filter fun w => Stage (str "a") w.id).length = 2 ∧ (works.filter fun w => Stage (str "end") w.id).length = 1) := by
  refine ⟨byNumber_sorts id fun _ => List.Perm.refl _, fun _ => List.Perm.refl _, by decide +kernel, by decide +kernel, ?_,
    by decide +kernel, by decide +kernel⟩
  intro w hw
  apply Option.isSome_iff_exists.mp
  revert w
  decide +kernel

end Sampo.C48
