import Verif.Spec.Merge
import Verif.Lemmas.Pipeline
import Mathlib.Data.List.Basic
import Mathlib.Data.List.Sort
import Mathlib.Data.List.Perm.Basic
import Mathlib.Algebra.Order.Ring.Rat

/-! Lemmas about merging stages. -/

namespace Sampo.Merge

/-! ## Strings -/

theorem splitAux_head {s : Str} (hs : s ≠ []) : ∀ (b cur : Str) (t : Str), (∀ k < b.length, ¬ s <+: (b ++ s).drop k) →
    (splitAux s (b ++ s ++ t) cur 0).headD [] = cur.reverse ++ b := by
  intro b
  induction b with
  | nil =>
    intro cur t _
    cases hst : s with
    | nil => exact absurd hst hs
    | cons c cs =>
      rw [List.nil_append, List.cons_append]
      unfold splitAux
      rw [if_pos ⟨t, rfl⟩]
      simp
  | cons c b ih =>
    intro cur t h
    rw [List.cons_append, List.cons_append]
    unfold splitAux
    rw [if_neg]
    · rw [ih (c :: cur) t (fun k hk => by
        have := h (k + 1) (by simp; omega)
        simpa using this)]
      simp
    · intro hp
      apply h 0 (by simp)
      rw [List.drop_zero]
      exact List.prefix_of_prefix_length_le hp ⟨t, by simp⟩ (by simp; omega)

theorem splitAux_whole {s : Str} : ∀ (b cur : Str), (∀ k < b.length, ¬ s <+: (b ++ s).drop k) →
    splitAux s b cur 0 = [cur.reverse ++ b] := by
  intro b
  induction b with
  | nil => intro cur _; simp [splitAux]
  | cons c b ih =>
    intro cur h
    unfold splitAux
    rw [if_neg]
    · rw [ih (c :: cur) (fun k hk => by
        have := h (k + 1) (by simp; omega)
        simpa using this)]
      simp
    · intro hp
      apply h 0 (by simp)
      rw [List.drop_zero]
      exact hp.trans (List.prefix_append _ _)

theorem head_stage {b x : Str} (hb : Clean b) (hx : Stage b x) : head x = b := by
  rcases hx with rfl | ⟨t, rfl⟩
  · unfold head split
    rw [splitAux_whole x [] hb]
    simp
  · unfold head split
    rw [splitAux_head (by decide) b [] t hb]
    simp

theorem split_clean {b : Str} (hb : Clean b) : split b = [b] := by
  unfold split
  rw [splitAux_whole b [] hb]
  simp

theorem splitAux_skip {s : Str} : ∀ (d t cur : Str), splitAux s (d ++ t) cur d.length = splitAux s t cur 0 := by
  intro d
  induction d with
  | nil => intro t cur; rfl
  | cons c d ih =>
    intro t cur
    rw [List.cons_append, List.length_cons]
    conv_lhs => unfold splitAux
    exact ih t cur

theorem splitAux_cons {s : Str} (hs : s ≠ []) : ∀ (b cur t : Str), (∀ k < b.length, ¬ s <+: (b ++ s).drop k) →
    splitAux s (b ++ s ++ t) cur 0 = (cur.reverse ++ b) :: splitAux s t [] 0 := by
  intro b
  induction b with
  | nil =>
    intro cur t _
    cases hst : s with
    | nil => exact absurd hst hs
    | cons c cs =>
      rw [List.nil_append, List.cons_append]
      conv_lhs => unfold splitAux
      rw [if_pos ⟨t, rfl⟩]
      have := splitAux_skip (s := c :: cs) cs t []
      simp [this]
  | cons c b ih =>
    intro cur t h
    rw [List.cons_append, List.cons_append]
    conv_lhs => unfold splitAux
    rw [if_neg]
    · rw [ih (c :: cur) t (fun k hk => by
        have := h (k + 1) (by simp; omega)
        simpa using this)]
      simp
    · intro hp
      apply h 0 (by simp)
      rw [List.drop_zero]
      exact List.prefix_of_prefix_length_le hp ⟨t, by simp⟩ (by simp; omega)

theorem split_stage {b t : Str} (hb : Clean b) (ht : Clean t) : split (b ++ sep ++ t) = [b, t] := by
  have h := split_clean ht
  unfold split at h ⊢
  rw [splitAux_cons (by decide) b [] t hb, h]
  rfl

/-- A clean id of which `x` is a stage is the head of `x`, whatever the id. -/
theorem stage_iff {b c x : Str} (hb : Clean b) (hc : Clean c) (hx : Stage c x) : Stage b x ↔ b = c :=
  ⟨fun h => by rw [← head_stage hb h, head_stage hc hx], fun h => h ▸ hx⟩

/-! ## Merging one task -/

theorem mergeStages_spec {num : Str → Option Int} {sort : List (Int × Row) → List (Int × Row)} (hsort : Sorts sort) {rows : List Row}
    {m : Row} (h : mergeStages num sort rows = some m) :
    ∃ r ∈ rows, m.work = r.work ∧ m.cost = r.cost ∧ m.volume = (rows.map (·.volume)).sum ∧
      (∃ f, rows.head? = some f ∧ m.start = f.start ∧ m.team = f.team) ∧ (∃ l, rows.getLast? = some l ∧ m.finish = l.finish) ∧
      (m.taskId = r.taskId ∧ rows = [r] ∨ m.taskId = head r.taskId) ∧
      (rows.length = 1 → m = r) ∧
      ∃ n, (rows.length = 1 ∨ stageNum num r.granular = some n ∧ ∀ s ∈ rows, ∃ k, stageNum num s.granular = some k ∧ k ≤ n) := by
  match rows, h with
  | [], h => simp [mergeStages] at h
  | [r], h =>
    simp [mergeStages] at h
    subst h
    exact ⟨r, by simp, rfl, rfl, by simp, ⟨r, rfl, rfl, rfl⟩, ⟨r, rfl, rfl⟩, Or.inl ⟨rfl, rfl⟩, fun _ => rfl, 0, Or.inl rfl⟩
  | first :: second :: rest, h =>
    unfold mergeStages at h
    obtain ⟨numbered, hn, h⟩ := Option.bind_eq_some_iff.mp h
    obtain ⟨last, hl, rfl⟩ := Option.map_eq_some_iff.mp h
    have hfor := Pipeline.mapM_some hn
    have hmem : ∀ p ∈ numbered, p.2 ∈ first :: second :: rest ∧ stageNum num p.2.granular = some p.1 := by
      intro p hp
      obtain ⟨i, hi, rfl⟩ := List.mem_iff_getElem.mp hp
      have hi' : i < (first :: second :: rest).length := by rw [hfor.length_eq]; exact hi
      have := hfor.get hi' hi
      simp only [List.get_eq_getElem] at this
      obtain ⟨n, h1, h2⟩ := Option.map_eq_some_iff.mp this
      rw [← h2]
      exact ⟨List.getElem_mem _, h1⟩
    have hmem' : ∀ r ∈ first :: second :: rest, ∃ n, (n, r) ∈ numbered := by
      intro r hr
      obtain ⟨i, hi, rfl⟩ := List.mem_iff_getElem.mp hr
      have hi' : i < numbered.length := by rw [← hfor.length_eq]; exact hi
      have := hfor.get hi hi'
      simp only [List.get_eq_getElem] at this
      obtain ⟨n, h1, h2⟩ := Option.map_eq_some_iff.mp this
      exact ⟨n, by rw [h2]; exact List.getElem_mem _⟩
    have hlast : last ∈ numbered := (hsort numbered).1.mem_iff.mp (List.mem_of_getLast? hl)
    have hmax : ∀ p ∈ numbered, p.1 ≤ last.1 := by
      intro p hp
      have hp := (hsort numbered).1.mem_iff.mpr hp
      obtain ⟨l, hl'⟩ := List.getLast?_eq_some_iff.mp hl
      have hpw := (hsort numbered).2
      rw [hl'] at hp hpw
      rcases List.mem_append.mp hp with hp | hp
      · exact (List.pairwise_append.mp hpw).2.2 p hp last (by simp)
      · simp at hp; rw [hp]
    refine ⟨last.2, (hmem last hlast).1, rfl, rfl, rfl, ⟨first, rfl, rfl, rfl⟩, ?_, Or.inr rfl, by simp, last.1, Or.inr ⟨(hmem last hlast).2, ?_⟩⟩
    · obtain ⟨l, hl⟩ : ∃ l, (first :: second :: rest).getLast? = some l := ⟨_, List.getLast?_eq_some_getLast (by simp)⟩
      exact ⟨l, hl, by dsimp only; rw [hl]; rfl⟩
    · intro s hs
      obtain ⟨n, hn⟩ := hmem' s hs
      exact ⟨n, (hmem _ hn).2, hmax _ hn⟩

theorem mergeStages_exists {num : Str → Option Int} {sort : List (Int × Row) → List (Int × Row)} (hsort : Sorts sort) {rows : List Row}
    (hne : rows ≠ []) (hnum : ∀ r ∈ rows, ∃ n, stageNum num r.granular = some n) : ∃ m, mergeStages num sort rows = some m := by
  match rows, hne with
  | [r], _ => exact ⟨r, rfl⟩
  | first :: second :: rest, _ =>
    unfold mergeStages
    have key : ∀ l : List Row, (∀ r ∈ l, ∃ n, stageNum num r.granular = some n) →
        ∃ numbered, (l.mapM fun r => (stageNum num r.granular).map fun n => (n, r)) = some numbered ∧ numbered.length = l.length := by
      intro l hl
      induction l with
      | nil => exact ⟨[], rfl, rfl⟩
      | cons r l ih =>
        obtain ⟨ns, h1, h2⟩ := ih (fun s hs => hl s (List.mem_cons_of_mem _ hs))
        obtain ⟨n, hn⟩ := hl r (List.mem_cons_self ..)
        refine ⟨(n, r) :: ns, ?_, by simp [h2]⟩
        rw [List.mapM_cons, h1, hn]
        rfl
    obtain ⟨numbered, h1, h2⟩ := key _ hnum
    dsimp only
    rw [h1, Option.bind_some]
    have : (sort numbered) ≠ [] := by
      intro h
      have := (hsort numbered).1.length_eq
      rw [h] at this; simp at this; rw [← this] at h2; simp at h2
    exact ⟨_, by rw [List.getLast?_eq_some_getLast this]; rfl⟩

/-- With equal stage numbers a sort that leaves sorted lists alone takes the last row. -/
theorem mergeStages_same {num : Str → Option Int} {sort : List (Int × Row) → List (Int × Row)}
    (hstable : ∀ l, l.Pairwise (fun a b => a.1 ≤ b.1) → sort l = l) {rows : List Row} {m l : Row} {n : Int}
    (hn : ∀ r ∈ rows, stageNum num r.granular = some n) (hl : rows.getLast? = some l) (h : mergeStages num sort rows = some m) :
    m.work = l.work := by
  match rows, h with
  | [], h => simp [mergeStages] at h
  | [r], h => simp [mergeStages] at h; simp at hl; rw [← h, hl]
  | first :: second :: rest, h =>
    unfold mergeStages at h
    obtain ⟨numbered, hnum, h⟩ := Option.bind_eq_some_iff.mp h
    obtain ⟨last, hlast, rfl⟩ := Option.map_eq_some_iff.mp h
    have key : ∀ (rs : List Row), (∀ r ∈ rs, stageNum num r.granular = some n) →
        (rs.mapM fun r => (stageNum num r.granular).map fun n => (n, r)) = some (rs.map fun r => (n, r)) := by
      intro rs hrs
      induction rs with
      | nil => rfl
      | cons r rs ih =>
        rw [List.mapM_cons, ih (fun s hs => hrs s (List.mem_cons_of_mem _ hs)), hrs r (List.mem_cons_self ..)]
        rfl
    rw [key _ hn] at hnum
    simp only [Option.some.injEq] at hnum
    rw [hstable numbered (by rw [← hnum, List.pairwise_map]; exact List.pairwise_of_forall fun _ _ => le_refl _), ← hnum,
      List.getLast?_map, hl] at hlast
    simp only [Option.map_some, Option.some.injEq] at hlast
    rw [← hlast]

/-! ## Merging all tasks -/

theorem stagesOf_eq (works : List Work) (b : Str) :
    stagesOf (works.map rowOf) b = (works.filter fun w => Stage b w.id).map rowOf := by
  unfold stagesOf
  rw [List.filter_map]
  congr 1
  apply List.filter_congr
  intro w hw
  simp only [Function.comp, rowOf, Stage]
  congr 1
  exact propext or_comm

theorem heads_mem {works : List Work} (hp : Proper works) {b : Str} :
    b ∈ ((works.map rowOf).map fun r => head r.taskId).dedup ↔ Clean b ∧ ∃ w ∈ works, Stage b w.id := by
  rw [List.mem_dedup]
  simp only [List.mem_map]
  constructor
  · rintro ⟨r, ⟨w, hw, rfl⟩, rfl⟩
    obtain ⟨c, hc, hs⟩ := hp w hw
    have : head (rowOf w).taskId = c := head_stage hc hs
    rw [this]
    exact ⟨hc, w, hw, hs⟩
  · rintro ⟨hb, w, hw, hs⟩
    exact ⟨_, ⟨w, hw, rfl⟩, head_stage hb hs⟩

theorem rowLe_trans (a b c : Row) : rowLe a b → rowLe b c → rowLe a c := by
  unfold rowLe
  simp only [decide_eq_true_eq]
  rintro (h1 | ⟨h1, h1'⟩) (h2 | ⟨h2, h2'⟩)
  · left; omega
  · left; omega
  · left; omega
  · right; exact ⟨by omega, List.le_trans h1' h2'⟩

theorem rowLe_total (a b : Row) : rowLe a b || rowLe b a := by
  unfold rowLe
  simp only [Bool.or_eq_true, decide_eq_true_eq]
  rcases lt_trichotomy a.start b.start with h | h | h
  · exact Or.inl (Or.inl h)
  · rcases List.le_total a.taskName b.taskName with h' | h'
    · exact Or.inl (Or.inr ⟨h, h'⟩)
    · exact Or.inr (Or.inr ⟨h.symm, h'⟩)
  · exact Or.inr (Or.inl h)

theorem fixSplit_spec {num : Str → Option Int} {sort : List (Int × Row) → List (Int × Row)} {listing : List Str → List Str}
    {rows out : List Row} (h : fixSplit num sort listing rows = some out) :
    out.Pairwise (fun a b => rowLe a b) ∧ ∃ merged, out.Perm merged ∧
      List.Forall₂ (fun id m => mergeStages num sort (stagesOf rows id) = some m)
        (listing (rows.map fun r => head r.taskId).dedup) merged := by
  unfold fixSplit at h
  obtain ⟨merged, hm, rfl⟩ := Option.map_eq_some_iff.mp h
  exact ⟨List.pairwise_mergeSort rowLe_trans rowLe_total _, merged, List.mergeSort_perm _ _, Pipeline.mapM_some hm⟩

theorem forall2_filter {P : Str → Row → Prop} (f : Row → Str) : ∀ {ids : List Str} {rows : List Row}, List.Forall₂ P ids rows →
    ids.Nodup → (∀ id ∈ ids, Clean id) → (∀ id ∈ ids, ∀ r ∈ rows, P id r → Stage id (f r)) → ∀ b, Clean b →
    (b ∉ ids → rows.filter (fun r => Stage b (f r)) = []) ∧
    (b ∈ ids → ∃ r, rows.filter (fun r => Stage b (f r)) = [r] ∧ P b r) := by
  intro ids rows h
  induction h with
  | nil => intro _ _ _ b _; simp
  | @cons id r ids rows hp hrest ih =>
    intro hnd hcl hst b hb
    have hr : Stage id (f r) := hst id (List.mem_cons_self ..) r (List.mem_cons_self ..) hp
    obtain ⟨ih1, ih2⟩ := ih (List.nodup_cons.mp hnd).2 (fun i hi => hcl i (List.mem_cons_of_mem _ hi))
      (fun i hi r hr => hst i (List.mem_cons_of_mem _ hi) r (List.mem_cons_of_mem _ hr)) b hb
    have hiff := stage_iff hb (hcl id (List.mem_cons_self ..)) hr
    by_cases hbi : b = id
    · have hno : b ∉ ids := by rw [hbi]; exact (List.nodup_cons.mp hnd).1
      refine ⟨fun h => absurd (List.mem_cons.mpr (Or.inl hbi)) h, fun _ => ⟨r, ?_, hbi ▸ hp⟩⟩
      rw [List.filter_cons_of_pos (by simpa using hiff.mpr hbi), ih1 hno]
    · have hf : (r :: rows).filter (fun r => Stage b (f r)) = rows.filter (fun r => Stage b (f r)) :=
        List.filter_cons_of_neg (by simpa using fun h => hbi (hiff.mp h))
      rw [hf]
      refine ⟨fun h => ih1 (fun h' => h (List.mem_cons_of_mem _ h')), fun h => ih2 ?_⟩
      rcases List.mem_cons.mp h with h | h
      · exact absurd h hbi
      · exact h

/-- Everything about the merged rows. -/
theorem fixSplit_rows {num : Str → Option Int} {sort : List (Int × Row) → List (Int × Row)} {listing : List Str → List Str}
    {works : List Work} {out : List Row} (hsort : Sorts sort) (hlist : Lists listing) (hp : Proper works)
    (h : fixSplit num sort listing (works.map rowOf) = some out) :
    out.Pairwise (fun a b => rowLe a b) ∧
    (∀ b, Clean b → (∃ w ∈ works, Stage b w.id) → ∃ m, out.filter (fun r => Stage b r.work.id) = [m] ∧
      mergeStages num sort ((works.filter fun w => Stage b w.id).map rowOf) = some m) ∧
    ∀ m ∈ out, ∃ b, Clean b ∧ (∃ w ∈ works, Stage b w.id) ∧ Stage b m.work.id ∧
      mergeStages num sort ((works.filter fun w => Stage b w.id).map rowOf) = some m := by
  obtain ⟨hpw, merged, hperm, hfor⟩ := fixSplit_spec h
  have hids : ∀ b, b ∈ listing ((works.map rowOf).map fun r => head r.taskId).dedup ↔ Clean b ∧ ∃ w ∈ works, Stage b w.id := by
    intro b
    rw [(hlist _).mem_iff]
    exact heads_mem hp
  have hnd : (listing ((works.map rowOf).map fun r => head r.taskId).dedup).Nodup := (hlist _).nodup_iff.mpr (List.nodup_dedup _)
  have hstage : ∀ b, Clean b → ∀ m, mergeStages num sort (stagesOf (works.map rowOf) b) = some m → Stage b m.work.id := by
    intro b hb m hm
    rw [stagesOf_eq works b] at hm
    obtain ⟨r, hr, hw, _⟩ := mergeStages_spec hsort hm
    obtain ⟨w, hw', rfl⟩ := List.mem_map.mp hr
    rw [hw]
    have := (List.mem_filter.mp hw').2
    show Stage b w.id
    simpa using this
  refine ⟨hpw, ?_, ?_⟩
  · intro b hb hex
    obtain ⟨m, hm, hmm⟩ := (forall2_filter (fun r => r.work.id) hfor hnd (fun i hi => ((hids i).mp hi).1)
      (fun i hi r _ hr => hstage i ((hids i).mp hi).1 r hr) b hb).2 ((hids b).mpr ⟨hb, hex⟩)
    rw [stagesOf_eq works b] at hmm
    refine ⟨m, ?_, hmm⟩
    have := hperm.filter (fun r => decide (Stage b r.work.id))
    rw [hm] at this
    exact List.perm_singleton.mp this
  · intro m hm
    have hm := hperm.mem_iff.mp hm
    obtain ⟨i, hi, rfl⟩ := List.mem_iff_getElem.mp hm
    have hi' : i < (listing ((works.map rowOf).map fun r => head r.taskId).dedup).length := by rw [hfor.length_eq]; exact hi
    have h1 := hfor.get hi' hi
    simp only [List.get_eq_getElem] at h1
    obtain ⟨hc, hex⟩ := (hids _).mp (List.getElem_mem hi')
    have h2 := hstage _ hc _ h1
    rw [stagesOf_eq] at h1
    exact ⟨_, hc, hex, h2, h1⟩

theorem fixSplit_exists {num : Str → Option Int} {sort : List (Int × Row) → List (Int × Row)} {listing : List Str → List Str}
    {works : List Work} (hsort : Sorts sort) (hlist : Lists listing) (hp : Proper works)
    (hnum : ∀ w ∈ works, ∃ n, stageNum num w.granular = some n) : ∃ out, fixSplit num sort listing (works.map rowOf) = some out := by
  unfold fixSplit
  have key : ∀ ids : List Str, (∀ b ∈ ids, Clean b ∧ ∃ w ∈ works, Stage b w.id) →
      ∃ merged, (ids.mapM fun id => mergeStages num sort (stagesOf (works.map rowOf) id)) = some merged := by
    intro ids hids
    induction ids with
    | nil => exact ⟨[], rfl⟩
    | cons b ids ih =>
      obtain ⟨ms, h1⟩ := ih (fun s hs => hids s (List.mem_cons_of_mem _ hs))
      obtain ⟨hb, w, hw, hs⟩ := hids b (List.mem_cons_self ..)
      have : ∃ m, mergeStages num sort (stagesOf (works.map rowOf) b) = some m := by
        apply mergeStages_exists hsort
        · rw [stagesOf_eq works b]
          intro h
          have : rowOf w ∈ (works.filter fun w => Stage b w.id).map rowOf :=
            List.mem_map_of_mem (List.mem_filter.mpr ⟨hw, by simpa using hs⟩)
          rw [h] at this
          simp at this
        · intro r hr
          rw [stagesOf_eq works b] at hr
          obtain ⟨v, hv, rfl⟩ := List.mem_map.mp hr
          exact hnum v (List.mem_filter.mp hv).1
      obtain ⟨m, hm⟩ := this
      exact ⟨m :: ms, by rw [List.mapM_cons, h1, hm]; rfl⟩
  obtain ⟨merged, h⟩ := key (listing ((works.map rowOf).map fun r => head r.taskId).dedup) (by
    intro b hb
    rw [(hlist _).mem_iff] at hb
    exact (heads_mem hp).mp hb)
  rw [h]
  exact ⟨_, rfl⟩

end Sampo.Merge
