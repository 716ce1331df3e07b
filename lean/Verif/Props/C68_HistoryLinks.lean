import Verif.Lemmas.History
import Mathlib.Tactic.NormNum
import Mathlib.Data.Rat.Floor

/-!
# C68: links between works from the records of past projects
-/

namespace Sampo.C68

open History

variable {round2 : ℚ → ℚ} {history : List Rec} {works : List (Nat × Nat)}

/-- Whatever the records are, the statistics never raise an exception: the smallest share is never taken of nothing. -/
theorem no_exception (round2 : ℚ → ℚ) (history : List Rec) (works : List (Nat × Nat)) :
    ∃ links, statistics round2 history works = some links := ⟨_, statistics_eq round2 history works⟩

/-- The order of the records does not matter. -/
theorem order_of_records {history' : List Rec} (h : history.Perm history') :
    statistics round2 history works = statistics round2 history' works := by
  rw [statistics_eq, statistics_eq]
  congr 1
  apply List.filterMap_congr
  intro t _
  unfold entryFor
  rw [entryOf_perm (common_perm h _ _)]

private theorem mem_links {links : List (Nat × Entry)} (h : statistics round2 history works = some links) {w : Nat} {e : Entry} :
    (w, e) ∈ links ↔ ∃ t ∈ tasks works, entryFor round2 history t = some (w, e) := by
  rw [statistics_eq, Option.some.injEq] at h
  rw [← h, List.mem_filterMap]

/-- No two works are linked twice or in both directions. -/
theorem linked_once (hn : (works.map (·.1)).Nodup) {links : List (Nat × Entry)} (h : statistics round2 history works = some links) :
    links.Pairwise fun a b => ¬ SameTwo a.1 a.2.pred b.1 b.2.pred := by
  rw [statistics_eq, Option.some.injEq] at h
  rw [← h, List.pairwise_filterMap]
  refine (tasks_distinct hn).imp fun {t u} hs => ?_
  rintro ⟨w, e⟩ he ⟨w', e'⟩ he' h2
  obtain ⟨-, -, -, h3⟩ := entryFor_two he
  obtain ⟨-, -, -, h4⟩ := entryFor_two he'
  apply hs
  unfold SameTwo at h2 ⊢
  dsimp only at h2
  omega

private theorem rounded {x : ℚ} (hr : Rounds round2) (h0 : 0 < x) (h1 : x ≤ 1) : 0 ≤ round2 x ∧ round2 x ≤ 1 := by
  obtain ⟨n, hn, h2, h3⟩ := hr x
  rw [hn]
  have h4 : (-1 : ℚ) < n := by linarith
  have h5 : (n : ℚ) < 101 := by linarith
  have h6 : (-1 : Int) < n := by exact_mod_cast h4
  have h7 : n < (101 : Int) := by exact_mod_cast h5
  have h8 : (0 : ℚ) ≤ n := by exact_mod_cast (by omega : (0 : Int) ≤ n)
  have h9 : (n : ℚ) ≤ 100 := by exact_mod_cast (by omega : n ≤ (100 : Int))
  constructor
  · positivity
  · linarith

/-- Every link is one between two works of the table with different names that were both done at some site; finish-start links have no
lag, the lag of another link is between 0 and 1: a share of the duration of the predecessor. -/
theorem links_are_sound (hr : Rounds round2) (hn : (works.map (·.1)).Nodup) {links : List (Nat × Entry)}
    (h : statistics round2 history works = some links) {w : Nat} {e : Entry} (he : (w, e) ∈ links) :
    e.pred ≠ w ∧ (∃ nv nw, (e.pred, nv) ∈ works ∧ (w, nw) ∈ works ∧ nv ≠ nw ∧ ∃ r1 r2, Meet history nv nw r1 r2) ∧ 0 < e.count ∧
      ((e.type = .finishStart ∧ e.lag = 0) ∨ ((e.type = .lagFinishStart ∨ e.type = .startStart) ∧ 0 ≤ e.lag ∧ e.lag ≤ 1)) := by
  obtain ⟨⟨⟨i, a⟩, ⟨j, b⟩⟩, ht, he⟩ := (mem_links h).mp he
  obtain ⟨hne, hc, hcount, hid⟩ := entryFor_two he
  dsimp only at hne hc hcount hid
  obtain ⟨l, m, r, hw⟩ := mem_tasks.mp ht
  have hij : i ≠ j := by
    rintro rfl
    rw [hw] at hn
    simp [List.nodup_append] at hn
  have hi : (i, a) ∈ works := by rw [hw]; simp
  have hj : (j, b) ∈ works := by rw [hw]; simp
  obtain ⟨p, hp⟩ := List.exists_mem_of_ne_nil _ hc
  obtain ⟨r1, h1, r2, h2, h3, h4, h5, h6, -, -⟩ := mem_common hp
  refine ⟨?_, ?_, ?_, ?_⟩
  · rcases hid with ⟨rfl, rfl⟩ | ⟨rfl, rfl⟩
    · exact hij
    · exact hij.symm
  · rcases hid with ⟨rfl, rfl⟩ | ⟨rfl, rfl⟩
    · exact ⟨a, b, hi, hj, hne, r1, r2, h1, h2, h5, h6, h3, h4⟩
    · exact ⟨b, a, hj, hi, hne.symm, r2, r1, h2, h1, h6, h5, h3.symm, h3 ▸ h4⟩
  · rw [hcount]
    exact List.length_pos_iff.mpr hc
  · have hg := (total_good (common history a b)).bounds
    unfold entryFor at he
    dsimp only at he
    rw [if_pos hne] at he
    have hb : ∀ x ∈ (total (common history a b)).ss12Lags ++ ((total (common history a b)).ss21Lags ++
        ((total (common history a b)).ffs12Lags ++ (total (common history a b)).ffs21Lags)), 0 ≤ round2 x ∧ round2 x ≤ 1 :=
      fun x hx => rounded hr (hg x hx).1 (hg x hx).2
    obtain ⟨k, ⟨-, h7, -, h8⟩ | ⟨-, h7, -, h8⟩⟩ := entryOf_some (round2 := round2) (id1 := i) (id2 := j) hc
    all_goals
      rw [h7, Option.getD_some, Option.some.injEq, Prod.mk.injEq] at he
      obtain ⟨-, rfl⟩ := he
      dsimp only
      rcases h8 with ⟨h8, -, h9⟩ | ⟨h8, x, hx, h9⟩ | ⟨h8, x, hx, h9⟩
      · exact Or.inl ⟨h8, h9⟩
      · rw [h9]
        exact Or.inr ⟨Or.inl h8, hb x (by simp [hx])⟩
      · rw [h9]
        exact Or.inr ⟨Or.inr h8, hb x (by simp [hx])⟩

/-- Two works of the table, the tasks in which they are, and their pairs of dates in either order. -/
private theorem task_of (hn : (works.map (·.1)).Nodup) {v w nv nw : Nat} (hv : (v, nv) ∈ works) (hw : (w, nw) ∈ works) (hne : nv ≠ nw) :
    v ≠ w ∧ (((v, nv), (w, nw)) ∈ tasks works ∨ ((w, nw), (v, nv)) ∈ tasks works) := by
  refine ⟨?_, tasks_of_mem hv hw fun h => hne (congrArg Prod.snd h)⟩
  rintro rfl
  exact hne (congrArg Prod.snd (List.inj_on_of_nodup_map hn hv hw rfl))

/-- Two works of the table with different names that were both done at some site are linked, in one direction or the other. -/
theorem met_works_are_linked (hd : Dated history) (hn : (works.map (·.1)).Nodup) {v w nv nw : Nat} (hv : (v, nv) ∈ works)
    (hw : (w, nw) ∈ works) (hne : nv ≠ nw) {r1 r2 : Rec} (hm : Meet history nv nw r1 r2) {links : List (Nat × Entry)}
    (h : statistics round2 history works = some links) :
    (∃ e, (w, e) ∈ links ∧ e.pred = v) ∨ ∃ e, (v, e) ∈ links ∧ e.pred = w := by
  have key : ∀ {i j a b : Nat} {s t : Rec}, Meet history a b s t → a ≠ b → ((i, a), (j, b)) ∈ tasks works →
      (∃ e, (j, e) ∈ links ∧ e.pred = i) ∨ ∃ e, (i, e) ∈ links ∧ e.pred = j := by
    intro i j a b s t hm hab ht
    have hc : common history a b ≠ [] := by
      have := common_ne_nil hd hm.mem1 hm.mem2 hm.site hm.known
      rwa [hm.name1, hm.name2] at this
    obtain ⟨k, ⟨-, h7, -, -⟩ | ⟨-, h7, -, -⟩⟩ := entryOf_some (round2 := round2) (id1 := i) (id2 := j) hc
    · exact Or.inl ⟨_, (mem_links h).mpr ⟨_, ht, by rw [entryFor, if_pos hab, h7]; rfl⟩, rfl⟩
    · exact Or.inr ⟨_, (mem_links h).mpr ⟨_, ht, by rw [entryFor, if_pos hab, h7]; rfl⟩, rfl⟩
  obtain ⟨-, ht | ht⟩ := task_of hn hv hw hne
  · exact key hm hne ht
  · exact (key ⟨hm.mem2, hm.mem1, hm.name2, hm.name1, hm.site.symm, hm.site ▸ hm.known⟩ hne.symm ht).symm

/-- If all pairs of dates give the same kind of counts, forward for one order of the works and backward for the other, the link is the
one of these counts. -/
private theorem uniform (hd : Dated history) (hn : (works.map (·.1)).Nodup) {v w nv nw : Nat} (hv : (v, nv) ∈ works)
    (hw : (w, nw) ∈ works) (hne : nv ≠ nw) {r1 r2 : Rec} (hm : Meet history nv nw r1 r2) {links : List (Nat × Entry)}
    (h : statistics round2 history works = some links) {fs ss ffs : Nat}
    (hpos : 0 < fs + ffs + ss)
    (hfwd : ∀ p ∈ common history nv nw, (gather p.1 p.2).fs12 = fs ∧ (gather p.1 p.2).ss12 = ss ∧ (gather p.1 p.2).ffs12 = ffs ∧
      (gather p.1 p.2).backward = 0 ∧ (gather p.1 p.2).ss12Lags ⊆ [share p.1 p.2] ∧ (gather p.1 p.2).ffs12Lags ⊆ [share p.1 p.2])
    (hbwd : ∀ p ∈ common history nv nw, (gather p.2 p.1).fs21 = fs ∧ (gather p.2 p.1).ss21 = ss ∧ (gather p.2 p.1).ffs21 = ffs ∧
      (gather p.2 p.1).forward = 0 ∧ (gather p.2 p.1).ss21Lags ⊆ [share p.1 p.2] ∧ (gather p.2 p.1).ffs21Lags ⊆ [share p.1 p.2]) :
    ∃ n k ssLags ffsLags, 0 < n ∧ (w, (⟨v, k.1, k.2, n⟩ : Entry)) ∈ links ∧
      kind round2 (n * fs) (n * ss) (n * ffs) ssLags ffsLags = some (some k) ∧ Kind round2 (n * ffs) ssLags ffsLags k ∧
      ∀ x ∈ ssLags ++ ffsLags, ∃ p ∈ common history nv nw, x = share p.1 p.2 := by
  have hc : common history nv nw ≠ [] := by
    have := common_ne_nil hd hm.mem1 hm.mem2 hm.site hm.known
    rwa [hm.name1, hm.name2] at this
  have hlen : 0 < (common history nv nw).length := List.length_pos_iff.mpr hc
  obtain ⟨hvw, ht | ht⟩ := task_of hn hv hw hne
  · set pairs := common history nv nw with hpairs
    have h1 : (total pairs).fs12 = pairs.length * fs := total_const (f := (·.fs12)) (fun _ _ => rfl) rfl fun p hp => (hfwd p hp).1
    have h2 : (total pairs).ss12 = pairs.length * ss := total_const (f := (·.ss12)) (fun _ _ => rfl) rfl fun p hp => (hfwd p hp).2.1
    have h3 : (total pairs).ffs12 = pairs.length * ffs :=
      total_const (f := (·.ffs12)) (fun _ _ => rfl) rfl fun p hp => (hfwd p hp).2.2.1
    have h4 : (total pairs).backward = 0 := by
      have := total_const (f := Stats.backward) (fun s t => by simp only [Stats.backward, Stats.add]; omega) rfl
        fun p hp => (hfwd p hp).2.2.2.1
      simpa using this
    obtain ⟨k, ⟨-, h7, h8, h9⟩ | ⟨h5, -⟩⟩ := entryOf_some (round2 := round2) (id1 := v) (id2 := w) hc
    · rw [h1, h2, h3] at h8
      rw [h3] at h9
      refine ⟨pairs.length, k, _, _, hlen, (mem_links h).mpr ⟨_, ht, by rw [entryFor, if_pos hne, ← hpairs, h7]; rfl⟩, h8, h9, ?_⟩
      intro x hx
      rcases List.mem_append.mp hx with hx | hx
      · rw [total_flat (f := (·.ss12Lags)) (fun _ _ => rfl) rfl] at hx
        obtain ⟨p, hp, hx⟩ := List.mem_flatMap.mp hx
        exact ⟨p, hp, by simpa using (hfwd p hp).2.2.2.2.1 hx⟩
      · rw [total_flat (f := (·.ffs12Lags)) (fun _ _ => rfl) rfl] at hx
        obtain ⟨p, hp, hx⟩ := List.mem_flatMap.mp hx
        exact ⟨p, hp, by simpa using (hfwd p hp).2.2.2.2.2 hx⟩
    · rw [h4] at h5
      omega
  · have hsw := common_swap history nv nw
    have hc' : common history nw nv ≠ [] := by
      rw [hsw]
      simpa using hc
    have hmem : ∀ p ∈ common history nw nv, p.swap ∈ common history nv nw := by
      intro p hp
      rw [hsw] at hp
      obtain ⟨q, hq, rfl⟩ := List.mem_map.mp hp
      simpa using hq
    set pairs := common history nw nv with hpairs
    have h1 : (total pairs).fs21 = pairs.length * fs :=
      total_const (f := (·.fs21)) (fun _ _ => rfl) rfl fun p hp => (hbwd _ (hmem p hp)).1
    have h2 : (total pairs).ss21 = pairs.length * ss :=
      total_const (f := (·.ss21)) (fun _ _ => rfl) rfl fun p hp => (hbwd _ (hmem p hp)).2.1
    have h3 : (total pairs).ffs21 = pairs.length * ffs :=
      total_const (f := (·.ffs21)) (fun _ _ => rfl) rfl fun p hp => (hbwd _ (hmem p hp)).2.2.1
    have h4 : (total pairs).forward = 0 := by
      have := total_const (f := Stats.forward) (pairs := pairs) (fun s t => by simp only [Stats.forward, Stats.add]; omega) rfl
        fun p hp => (hbwd _ (hmem p hp)).2.2.2.1
      simpa using this
    have hlen' : 0 < pairs.length := List.length_pos_iff.mpr hc'
    obtain ⟨k, ⟨h5, -⟩ | ⟨-, h7, h8, h9⟩⟩ := entryOf_some (round2 := round2) (id1 := w) (id2 := v) hc'
    · exfalso
      have : 0 < (total pairs).backward := by
        unfold Stats.backward
        rw [h1, h2, h3, ← Nat.mul_add, ← Nat.mul_add]
        exact Nat.mul_pos hlen' hpos
      omega
    · rw [h1, h2, h3] at h8
      rw [h3] at h9
      refine ⟨pairs.length, k, _, _, hlen', (mem_links h).mpr ⟨_, ht, by rw [entryFor, if_pos hne.symm, ← hpairs, h7]; rfl⟩, h8, h9, ?_⟩
      intro x hx
      rcases List.mem_append.mp hx with hx | hx
      · rw [total_flat (f := (·.ss21Lags)) (fun _ _ => rfl) rfl] at hx
        obtain ⟨p, hp, hx⟩ := List.mem_flatMap.mp hx
        exact ⟨_, hmem p hp, by simpa using (hbwd _ (hmem p hp)).2.2.2.2.1 hx⟩
      · rw [total_flat (f := (·.ffs21Lags)) (fun _ _ => rfl) rfl] at hx
        obtain ⟨p, hp, hx⟩ := List.mem_flatMap.mp hx
        exact ⟨_, hmem p hp, by simpa using (hbwd _ (hmem p hp)).2.2.2.2.2 hx⟩

/-- If at every site one work ended before the other began, the other gets a finish-start link without a lag. -/
theorem finished_before (hd : Dated history) (hn : (works.map (·.1)).Nodup) {v w nv nw : Nat} (hv : (v, nv) ∈ works)
    (hw : (w, nw) ∈ works) (hne : nv ≠ nw) {r1 r2 : Rec} (hm : Meet history nv nw r1 r2)
    (hall : ∀ r1 r2 p q, Meet history nv nw r1 r2 → r1.Has p → r2.Has q → p.last ≤ q.first ∧ p.first < q.last)
    {links : List (Nat × Entry)} (h : statistics round2 history works = some links) :
    ∃ n, 0 < n ∧ (w, (⟨v, .finishStart, 0, n⟩ : Entry)) ∈ links := by
  have hp : ∀ p ∈ common history nv nw, p.1.last ≤ p.2.first ∧ p.1.first < p.2.last := by
    intro p hp
    obtain ⟨r1, h1, r2, h2, h3, h4, h5, h6, h7, h8⟩ := mem_common hp
    exact hall r1 r2 _ _ ⟨h1, h2, h5, h6, h3, h4⟩ h7 h8
  obtain ⟨n, k, ssL, ffsL, hpos, hmem, hk, -, -⟩ := uniform (fs := 1) (ss := 0) (ffs := 0) hd hn hv hw hne hm h (by omega)
    (fun p hp' => by
      rw [(gather_fs (hp p hp').1 (hp p hp').2).1]
      exact ⟨rfl, rfl, rfl, rfl, by simp [Stats.zero], by simp [Stats.zero]⟩)
    (fun p hp' => by
      rw [(gather_fs (hp p hp').1 (hp p hp').2).2]
      exact ⟨rfl, rfl, rfl, rfl, by simp [Stats.zero], by simp [Stats.zero]⟩)
  unfold kind at hk
  rw [if_pos (by omega), if_pos (by omega), if_neg (by omega), Option.some.injEq, Option.some.injEq] at hk
  subst hk
  exact ⟨n, hpos, hmem⟩

/-- If at every site one work began while the other went on and did not end before it, it gets a link of the type FFS; the lag is the
share of the duration of the other that had passed at one of the sites. -/
theorem overlapped (hd : Dated history) (hn : (works.map (·.1)).Nodup) {v w nv nw : Nat} (hv : (v, nv) ∈ works)
    (hw : (w, nw) ∈ works) (hne : nv ≠ nw) {r1 r2 : Rec} (hm : Meet history nv nw r1 r2)
    (hall : ∀ r1 r2 p q, Meet history nv nw r1 r2 → r1.Has p → r2.Has q → p.first < q.first ∧ q.first < p.last ∧ p.last ≤ q.last)
    {links : List (Nat × Entry)} (h : statistics round2 history works = some links) :
    ∃ n p q r1 r2, 0 < n ∧ Meet history nv nw r1 r2 ∧ r1.Has p ∧ r2.Has q ∧
      (w, (⟨v, .lagFinishStart, round2 (((q.first - p.first : Int) : ℚ) / ((p.last - p.first : Int) : ℚ)), n⟩ : Entry)) ∈ links := by
  have hp : ∀ p ∈ common history nv nw, p.1.first < p.2.first ∧ p.2.first < p.1.last ∧ p.1.last ≤ p.2.last := by
    intro p hp
    obtain ⟨r1, h1, r2, h2, h3, h4, h5, h6, h7, h8⟩ := mem_common hp
    exact hall r1 r2 _ _ ⟨h1, h2, h5, h6, h3, h4⟩ h7 h8
  obtain ⟨n, k, ssL, ffsL, hpos, hmem, hk, hk', hx⟩ := uniform (fs := 0) (ss := 0) (ffs := 1) hd hn hv hw hne hm h (by omega)
    (fun p hp' => by
      rw [(gather_ffs (hp p hp').1 (hp p hp').2.1 (hp p hp').2.2).1]
      exact ⟨rfl, rfl, rfl, rfl, by simp [Stats.zero], by simp⟩)
    (fun p hp' => by
      rw [(gather_ffs (hp p hp').1 (hp p hp').2.1 (hp p hp').2.2).2]
      exact ⟨rfl, rfl, rfl, rfl, by simp [Stats.zero], by simp⟩)
  unfold kind at hk
  rw [if_pos (by omega), if_neg (by omega), if_neg (by omega)] at hk
  have h1 : k.1 = .lagFinishStart := by
    cases hf : findMin round2 ffsL with
    | none => rw [hf] at hk; cases hk
    | some l =>
      rw [hf, Option.map_some, Option.some.injEq, Option.some.injEq] at hk
      rw [← hk]
  rcases hk' with ⟨h2, -⟩ | ⟨-, x, hx', h2⟩ | ⟨h2, -⟩
  · rw [h1] at h2; cases h2
  · obtain ⟨p, hp', rfl⟩ := hx x (List.mem_append_right _ hx')
    obtain ⟨r1, h3, r2, h4, h5, h6, h7, h8, h9, h10⟩ := mem_common hp'
    refine ⟨n, p.1, p.2, r1, r2, hpos, ⟨h3, h4, h7, h8, h5, h6⟩, h9, h10, ?_⟩
    rw [h1, h2, share_eq (hp p hp').1 (hp p hp').2.1] at hmem
    exact hmem
  · rw [h1] at h2; cases h2

/-- If at every site one work was done while the other went on, it gets a link of the type SS; the lag is the share of the duration of
the other that had passed at one of the sites. -/
theorem inside (hd : Dated history) (hn : (works.map (·.1)).Nodup) {v w nv nw : Nat} (hv : (v, nv) ∈ works)
    (hw : (w, nw) ∈ works) (hne : nv ≠ nw) {r1 r2 : Rec} (hm : Meet history nv nw r1 r2)
    (hall : ∀ r1 r2 p q, Meet history nv nw r1 r2 → r1.Has p → r2.Has q →
      p.first < q.first ∧ q.first < p.last ∧ q.last < p.last ∧ q.first ≤ q.last)
    {links : List (Nat × Entry)} (h : statistics round2 history works = some links) :
    ∃ n p q r1 r2, 0 < n ∧ Meet history nv nw r1 r2 ∧ r1.Has p ∧ r2.Has q ∧
      (w, (⟨v, .startStart, round2 (((q.first - p.first : Int) : ℚ) / ((p.last - p.first : Int) : ℚ)), n⟩ : Entry)) ∈ links := by
  have hp : ∀ p ∈ common history nv nw, p.1.first < p.2.first ∧ p.2.first < p.1.last ∧ p.2.last < p.1.last ∧ p.1.first < p.2.last := by
    intro p hp
    obtain ⟨r1, h1, r2, h2, h3, h4, h5, h6, h7, h8⟩ := mem_common hp
    have := hall r1 r2 _ _ ⟨h1, h2, h5, h6, h3, h4⟩ h7 h8
    omega
  obtain ⟨n, k, ssL, ffsL, hpos, hmem, hk, hk', hx⟩ := uniform (fs := 0) (ss := 1) (ffs := 0) hd hn hv hw hne hm h (by omega)
    (fun p hp' => by
      rw [(gather_ss (hp p hp').1 (hp p hp').2.1 (hp p hp').2.2.1 (hp p hp').2.2.2).1]
      exact ⟨rfl, rfl, rfl, rfl, by simp, by simp [Stats.zero]⟩)
    (fun p hp' => by
      rw [(gather_ss (hp p hp').1 (hp p hp').2.1 (hp p hp').2.2.1 (hp p hp').2.2.2).2]
      exact ⟨rfl, rfl, rfl, rfl, by simp, by simp [Stats.zero]⟩)
  unfold kind at hk
  rw [if_pos (by omega), if_neg (by omega), if_pos (by omega)] at hk
  have h1 : k.1 = .startStart := by
    cases hf : findMin round2 ssL with
    | none => rw [hf] at hk; cases hk
    | some l =>
      rw [hf, Option.map_some, Option.some.injEq, Option.some.injEq] at hk
      rw [← hk]
  rcases hk' with ⟨h2, -⟩ | ⟨h2, -⟩ | ⟨-, x, hx', h2⟩
  · rw [h1] at h2; cases h2
  · rw [h1] at h2; cases h2
  · obtain ⟨p, hp', rfl⟩ := hx x (List.mem_append_left _ hx')
    obtain ⟨r1, h3, r2, h4, h5, h6, h7, h8, h9, h10⟩ := mem_common hp'
    refine ⟨n, p.1, p.2, r1, r2, hpos, ⟨h3, h4, h7, h8, h5, h6⟩, h9, h10, ?_⟩
    rw [h1, h2, share_eq (hp p hp').1 (hp p hp').2.1] at hmem
    exact hmem

/-- If no work was done twice at a site and the two works never began on the same day, the link goes from the work that began first at
more sites to the other. -/
theorem majority (ho : OncePerSite history) (hn : (works.map (·.1)).Nodup) {v w nv nw : Nat} (hv : (v, nv) ∈ works)
    (hw : (w, nw) ∈ works) (hne : nv ≠ nw)
    (hall : ∀ p ∈ together history nv nw, p.1.first < p.1.last ∧ p.2.first < p.2.last ∧ p.1.first ≠ p.2.first)
    (hmore : ((together history nv nw).countP fun p => p.2.first < p.1.first) < (together history nv nw).countP fun p => p.1.first < p.2.first)
    {links : List (Nat × Entry)} (h : statistics round2 history works = some links) :
    ∃ e, (w, e) ∈ links ∧ e.pred = v ∧ e.count = (together history nv nw).length := by
  have hperm := common_together ho nv nw
  have hc : common history nv nw ≠ [] := by
    intro hc
    rw [hc] at hperm
    rw [hperm.symm.eq_nil] at hmore
    simp at hmore
  have hall' : ∀ p ∈ common history nv nw, p.1.first < p.1.last ∧ p.2.first < p.2.last ∧ p.1.first ≠ p.2.first :=
    fun p hp => hall p (hperm.mem_iff.mp hp)
  rw [← hperm.countP_eq, ← hperm.countP_eq] at hmore
  obtain ⟨hvw, ht | ht⟩ := task_of hn hv hw hne
  · obtain ⟨hf, hb⟩ := total_vote hall'
    obtain ⟨k, ⟨-, h7, -, -⟩ | ⟨h5, -⟩⟩ := entryOf_some (round2 := round2) (id1 := v) (id2 := w) hc
    · exact ⟨_, (mem_links h).mpr ⟨_, ht, by rw [entryFor, if_pos hne, h7]; rfl⟩, rfl, hperm.length_eq⟩
    · omega
  · have hsw := common_swap history nv nw
    have hc' : common history nw nv ≠ [] := by
      rw [hsw]
      simpa using hc
    have hall'' : ∀ p ∈ common history nw nv, p.1.first < p.1.last ∧ p.2.first < p.2.last ∧ p.1.first ≠ p.2.first := by
      intro p hp
      rw [hsw] at hp
      obtain ⟨q, hq, rfl⟩ := List.mem_map.mp hp
      obtain ⟨h1, h2, h3⟩ := hall' q hq
      exact ⟨h2, h1, h3.symm⟩
    obtain ⟨hf, hb⟩ := total_vote hall''
    rw [hsw, List.countP_map] at hf hb
    rw [← hsw] at hf hb
    obtain ⟨k, ⟨h5, -⟩ | ⟨-, h7, -, -⟩⟩ := entryOf_some (round2 := round2) (id1 := w) (id2 := v) hc'
    · exfalso
      rw [hf, hb] at h5
      exact absurd hmore (not_lt.mpr h5)
    · refine ⟨_, (mem_links h).mpr ⟨_, ht, by rw [entryFor, if_pos hne.symm, h7]; rfl⟩, rfl, ?_⟩
      dsimp only
      rw [hsw, List.length_map]
      exact hperm.length_eq

/-! ### Histories that give other links than one would expect -/

/-- Rounding to two decimals. -/
private def halfUp (x : ℚ) : ℚ := ⌊x * 100 + 1 / 2⌋ / 100

private theorem halfUp_rounds : Rounds halfUp := by
  intro x
  refine ⟨⌊x * 100 + 1 / 2⌋, rfl, ?_, ?_⟩
  · have := Int.lt_floor_add_one (x * 100 + 1 / 2)
    linarith
  · have := Int.floor_le (x * 100 + 1 / 2)
    linarith

private def done (site name : Nat) (first last : Int) : Rec := ⟨some site, name, some first, some last⟩

/-- Work 1 ended before work 2 began at three sites; at the fourth one they overlapped by a day. -/
private def mostly : List Rec := [done 1 1 0 10, done 1 2 12 20, done 2 1 0 10, done 2 2 10 20, done 3 1 5 10, done 3 2 12 20,
  done 4 1 0 10, done 4 2 9 20]

/-- Not proved because false: the type of a link is not the one found at most sites.  One overlap is enough: the second work may then
begin when nine tenths of the first are done. -/
theorem one_overlap_decides : statistics halfUp mostly [(101, 1), (102, 2)] = some [(102, ⟨101, .lagFinishStart, 9 / 10, 4⟩)] := by
  decide +kernel

/-- Work 2 began first at the first site; at the second one both have the same dates. -/
private def equal : List Rec := [done 1 2 0 10, done 1 1 12 20, done 2 1 0 10, done 2 2 0 10]

/-- Not proved because false: works with the same dates count twice for the order of the table.  Work 2 never began later than work 1, but
work 1 becomes its predecessor. -/
theorem equal_dates_count_twice :
    statistics halfUp equal [(101, 1), (102, 2)] = some [(102, ⟨101, .lagFinishStart, 1 / 100, 2⟩)] ∧
      statistics halfUp equal [(102, 2), (101, 1)] = some [(101, ⟨102, .lagFinishStart, 1 / 100, 2⟩)] := by
  decide +kernel

/-! ### The hypotheses can be met -/

private def past : List Rec := [done 1 1 0 10, done 1 2 10 20, done 2 2 30 40, done 2 1 5 25, done 2 3 10 40, done 3 3 6 30, done 3 1 0 9]

example : statistics halfUp (⟨some 1, 3, some 1, none⟩ :: ⟨none, 3, some 1, some 2⟩ :: past) [(101, 1), (102, 2), (103, 3), (104, 4)] =
    some [(102, ⟨101, .finishStart, 0, 2⟩), (103, ⟨101, .lagFinishStart, 1 / 4, 2⟩), (102, ⟨103, .lagFinishStart, 67 / 100, 1⟩)] := by
  decide +kernel

example : OncePerSite past := by unfold OncePerSite; decide

example : (∀ p ∈ together past 1 2, p.1.first < p.1.last ∧ p.2.first < p.2.last ∧ p.1.first ≠ p.2.first) ∧
    ((together past 1 2).countP fun p => p.2.first < p.1.first) < (together past 1 2).countP fun p => p.1.first < p.2.first := by decide

example : Dated past := by unfold Dated; decide

private theorem meets {h : List Rec} {a b : Nat} {P : Span → Span → Prop}
    (hp : ∀ r1 ∈ h, ∀ r2 ∈ h, r1.name = a → r2.name = b → r1.site = r2.site → ∀ s1 ∈ r1.first, ∀ f1 ∈ r1.last, ∀ s2 ∈ r2.first,
      ∀ f2 ∈ r2.last, P ⟨s1, f1⟩ ⟨s2, f2⟩) :
    ∀ r1 r2 p q, Meet h a b r1 r2 → r1.Has p → r2.Has q → P p q :=
  fun r1 r2 p q hm hp1 hq => hp r1 hm.mem1 r2 hm.mem2 hm.name1 hm.name2 hm.site _ hp1.1 _ hp1.2 _ hq.1 _ hq.2

/-- In `past` the work 1 ended before the work 2 began. -/
example : ∀ r1 r2 p q, Meet past 1 2 r1 r2 → r1.Has p → r2.Has q → p.last ≤ q.first ∧ p.first < q.last :=
  meets (P := fun p q => p.last ≤ q.first ∧ p.first < q.last) (by decide)

example : ∃ r1 r2, Meet past 1 2 r1 r2 := ⟨done 1 1 0 10, done 1 2 10 20, by decide, by decide, rfl, rfl, rfl, by decide⟩

example : ∀ r1 r2 p q, Meet past 1 3 r1 r2 → r1.Has p → r2.Has q → p.first < q.first ∧ q.first < p.last ∧ p.last ≤ q.last :=
  meets (P := fun p q => p.first < q.first ∧ q.first < p.last ∧ p.last ≤ q.last) (by decide)

example : ∀ r1 r2 p q, Meet [done 1 1 0 10, done 1 2 3 8, done 2 1 4 9, done 2 2 5 6] 1 2 r1 r2 → r1.Has p → r2.Has q →
    p.first < q.first ∧ q.first < p.last ∧ q.last < p.last ∧ q.first ≤ q.last :=
  meets (P := fun p q => p.first < q.first ∧ q.first < p.last ∧ q.last < p.last ∧ q.first ≤ q.last) (by decide)

example : Rounds halfUp := halfUp_rounds

end Sampo.C68
