import Verif.Prelude
import Verif.Model.Validate
import Verif.Spec.Capacity
import Mathlib.Algebra.BigOperators.Group.List.Basic
import Mathlib.Algebra.Order.BigOperators.Group.List

namespace Sampo.Validate

/-! ### The dictionary of a class -/

/-- Value of a key. -/
def val (mp : List (AgentId × Int)) (k : AgentId) : Int := ((mp.filter fun e => e.1 = k).map (·.2)).sum

theorem charge_keys (mp : List (AgentId × Int)) (k : AgentId) (d : Int) (h : (mp.map (·.1)).Nodup) :
    ((charge mp k d).map (·.1)).Nodup ∧ ∀ x, x ∈ (charge mp k d).map (·.1) ↔ x ∈ mp.map (·.1) ∨ x = k := by
  induction mp with
  | nil => simp [charge]
  | cons e rest ih =>
    obtain ⟨k', y⟩ := e
    rw [List.map_cons, List.nodup_cons] at h
    obtain ⟨i1, i2⟩ := ih h.2
    unfold charge
    by_cases hk : k' = k
    · rw [if_pos hk]
      refine ⟨by rw [List.map_cons, List.nodup_cons]; exact h, fun x => ?_⟩
      simp only [List.map_cons, List.mem_cons]
      constructor
      · exact fun hx => Or.inl hx
      · rintro (hx | hx)
        · exact hx
        · left; rw [hx, hk]
    · rw [if_neg hk]
      refine ⟨?_, fun x => ?_⟩
      · rw [List.map_cons, List.nodup_cons, i2]
        exact ⟨fun hh => hh.elim h.1 hk, i1⟩
      · rw [List.map_cons, List.mem_cons, i2, List.map_cons, List.mem_cons]
        tauto

theorem charge_val (mp : List (AgentId × Int)) (k : AgentId) (d : Int) (x : AgentId) :
    val (charge mp k d) x = val mp x + if k = x then d else 0 := by
  induction mp with
  | nil =>
    by_cases h : k = x <;> simp [charge, val, h]
  | cons e rest ih =>
    obtain ⟨k', y⟩ := e
    unfold charge
    by_cases hk : k' = k
    · subst hk
      rw [if_pos rfl]
      unfold val
      by_cases h : k' = x
      · simp [h]; ring
      · simp [h]
    · rw [if_neg hk]
      unfold val at ih ⊢
      by_cases h : k' = x
      · simp only [List.filter_cons, h, decide_true, if_true, List.map_cons, List.sum_cons]
        rw [ih]; ring
      · simp only [List.filter_cons, h, decide_false, Bool.false_eq_true, if_false]
        rw [ih]

/-- The team as it is charged. -/
def charged (team : List Worker) : List Worker :=
  match team with
  | [] => []
  | w :: ws => (w :: ws).map fun x => { x with contractor := w.contractor }

/-- Change of the free workers by an event. -/
def delta (e : Event) (k : AgentId) : Int :=
  if e.isStart then - teamCount (charged e.work.workers) k else teamCount (charged e.work.workers) k

theorem foldl_charge (c : Nat) (s : Bool) : ∀ (ws : List Worker) (mp : List (AgentId × Int)), (mp.map (·.1)).Nodup →
    let out := ws.foldl (fun mp x => charge mp (c, x.name) (if s then - x.count else x.count)) mp
    (out.map (·.1)).Nodup ∧
      (∀ k, val out k = val mp k + (if s then -1 else 1) * teamCount (ws.map fun x => { x with contractor := c }) k)
  | [], mp, h => ⟨h, fun k => by simp [teamCount]⟩
  | w :: ws, mp, h => by
    obtain ⟨h1, h2⟩ := foldl_charge c s ws (charge mp (c, w.name) (if s then - w.count else w.count))
      (charge_keys mp _ _ h).1
    refine ⟨h1, fun k => ?_⟩
    rw [List.foldl_cons, h2 k, charge_val]
    unfold teamCount Worker.agent
    rw [List.map_cons, List.filter_cons]
    by_cases hk : (c, w.name) = k
    · simp only [hk, if_true, decide_true, List.map_cons, List.sum_cons]
      cases s <;> simp <;> ring
    · simp only [hk, if_false, decide_false, Bool.false_eq_true]
      ring

theorem grab_spec (mp : List (AgentId × Int)) (e : Event) (h : (mp.map (·.1)).Nodup) :
    ((grab mp e).map (·.1)).Nodup ∧ ∀ k, val (grab mp e) k = val mp k + delta e k := by
  unfold grab delta charged
  cases hw : e.work.workers with
  | nil => exact ⟨h, fun k => by simp [teamCount]⟩
  | cons w ws =>
    obtain ⟨h1, h2⟩ := foldl_charge w.contractor e.isStart (w :: ws) mp h
    refine ⟨h1, fun k => ?_⟩
    simp only
    rw [h2 k]
    cases e.isStart <;> simp

theorem val_of_not_mem {mp : List (AgentId × Int)} {k : AgentId} (h : k ∉ mp.map (·.1)) : val mp k = 0 := by
  unfold val
  have : (mp.filter fun e => decide (e.1 = k)) = [] := by
    rw [List.filter_eq_nil_iff]
    intro e he
    have : e.1 ≠ k := fun hh => h (List.mem_map.2 ⟨e, he, hh⟩)
    simpa using this
  rw [this]
  rfl

/-- A state of the pool: number of free workers, known exactly for the keys of `init`. -/
def Fits (init cur : AgentId → Option Int) (used : AgentId → Int) : Prop :=
  ∀ k, (∃ i, init k = some i ∧ cur k = some (i + used k) ∧ 0 ≤ i + used k) ∨ (init k = none ∧ cur k = none ∧ used k = 0)

theorem flush_spec {init : AgentId → Option Int} : ∀ (mp : List (AgentId × Int)) (cur cur' : AgentId → Option Int)
    (used : AgentId → Int), (mp.map (·.1)).Nodup → Fits init cur used → flush init mp cur = some cur' →
    Fits init cur' fun k => used k + val mp k
  | [], cur, cur', used, _, hf, h => by
    unfold flush at h
    rw [Option.some.injEq] at h
    subst h
    intro k
    simpa [val] using hf k
  | (k, d) :: rest, cur, cur', used, hn, hf, h => by
    rw [List.map_cons, List.nodup_cons] at hn
    unfold flush at h
    rcases hf k with ⟨i, h1, h2, -⟩ | ⟨h1, h2, -⟩
    · rw [h1, h2] at h
      simp only at h
      split at h
      · rename_i hc
        have := flush_spec rest _ cur' (fun x => used x + if x = k then d else 0) hn.2 (by
          intro x
          by_cases hx : x = k
          · subst hx
            left
            refine ⟨i, h1, ?_, ?_⟩
            · simp only [if_true]
              rw [add_assoc]
            · simp only [if_true]
              omega
          · simp only [hx, if_false]
            simpa using hf x) h
        intro x
        have hx := this x
        have hv : val ((k, d) :: rest) x = val rest x + if x = k then d else 0 := by
          unfold val
          by_cases hxk : x = k
          · subst hxk
            simp
            ring
          · have : ¬ k = x := fun hh => hxk hh.symm
            simp [hxk, this]
        simp only at hx ⊢
        have e : used x + (if x = k then d else 0) + val rest x = used x + val ((k, d) :: rest) x := by rw [hv]; ring
        rw [e] at hx
        exact hx
      · simp at h
    · rw [h1, h2] at h
      simp at h

/-- Sum of the changes. -/
def total (es : List Event) (k : AgentId) : Int := (es.map fun e => delta e k).sum

/-- No more workers are taken than there are. -/
def Valid (init : AgentId → Option Int) (es : List Event) : Prop :=
  ∀ k, (∃ i, init k = some i ∧ 0 ≤ i + total es k) ∨ (init k = none ∧ total es k = 0)

theorem total_append (a b : List Event) (k : AgentId) : total (a ++ b) k = total a k + total b k := by
  unfold total
  rw [List.map_append, List.sum_append]

theorem filter_split {P rest : List Event} {t : Int} (hP : ∀ e ∈ P, e.time ≤ t) (hr : ∀ e ∈ rest, t < e.time) :
    ((P ++ rest).filter fun e => decide (e.time ≤ t)) = P := by
  rw [List.filter_append]
  have h1 : (P.filter fun e => decide (e.time ≤ t)) = P := List.filter_eq_self.2 fun e he => by simpa using hP e he
  have h2 : (rest.filter fun e => decide (e.time ≤ t)) = [] := by
    rw [List.filter_eq_nil_iff]
    intro e he
    have := hr e he
    simpa using this
  rw [h1, h2, List.append_nil]

theorem sweep_sound {init : AgentId → Option Int} : ∀ (rest F C : List Event) (m : Int) (mp : List (AgentId × Int))
    (cur : AgentId → Option Int), (∀ e ∈ rest, e.work.workers ≠ []) → rest.Pairwise (fun a b => a.time ≤ b.time) →
    (∀ e ∈ C, e.time = m) → (mp.map (·.1)).Nodup → (∀ k, val mp k = total C k) → Fits init cur (total F) →
    sweep init rest m mp cur = true →
    ∀ t, (∀ e ∈ F ++ C, e.time ≤ t) → (∃ e ∈ rest, t < e.time) →
      Valid init ((F ++ C ++ rest).filter fun e => decide (e.time ≤ t))
  | [], F, C, m, mp, cur, _, _, _, _, _, _, _, t, _, ⟨e, he, _⟩ => absurd he List.not_mem_nil
  | e :: es, F, C, m, mp, cur, hne, hs, hC, hn, hv, hf, h, t, hP, hex => by
    rw [List.pairwise_cons] at hs
    unfold sweep at h
    have hemp : e.work.workers.isEmpty = false := by
      have := hne e List.mem_cons_self
      simpa using this
    rw [hemp] at h
    simp only [Bool.false_eq_true, if_false] at h
    have later : t < e.time → ∀ x ∈ e :: es, t < x.time := by
      intro ht x hx
      rw [List.mem_cons] at hx
      rcases hx with rfl | hx
      · exact ht
      · exact lt_of_lt_of_le ht (hs.1 x hx)
    have fitsValid : ∀ {cur : AgentId → Option Int} {L : List Event}, Fits init cur (total L) → Valid init L := by
      intro cur L hfit k
      rcases hfit k with ⟨i, h1, -, h2⟩ | ⟨h1, -, h2⟩
      · exact Or.inl ⟨i, h1, h2⟩
      · exact Or.inr ⟨h1, h2⟩
    have hex' : e.time ≤ t → ∃ x ∈ es, t < x.time := by
      intro hle
      obtain ⟨x, hx, hlt⟩ := hex
      rw [List.mem_cons] at hx
      rcases hx with rfl | hx
      · omega
      · exact ⟨x, hx, hlt⟩
    by_cases hm : e.time ≠ m
    · rw [if_pos hm] at h
      split at h
      · simp at h
      · rename_i cur' hfl
        have hfit := flush_spec mp cur cur' (total F) hn hf hfl
        have hfit' : Fits init cur' (total (F ++ C)) := by
          intro k
          have := hfit k
          simp only at this
          rw [hv k, ← total_append] at this
          exact this
        by_cases ht : e.time ≤ t
        · obtain ⟨g1, g2⟩ := grab_spec [] e (by simp)
          have := sweep_sound es (F ++ C) [e] e.time (grab [] e) cur' (fun x hx => hne x (List.mem_cons_of_mem _ hx)) hs.2
            (by simp) g1 (fun k => by rw [g2 k]; simp [val, total]) hfit' h t
            (by
              intro x hx
              rw [List.mem_append, List.mem_singleton] at hx
              rcases hx with hx | rfl
              · exact hP x hx
              · exact ht) (hex' ht)
          simpa using this
        · rw [filter_split hP (later (not_le.1 ht))]
          exact fitsValid hfit'
    · rw [if_neg hm] at h
      push Not at hm
      by_cases ht : e.time ≤ t
      · obtain ⟨g1, g2⟩ := grab_spec mp e hn
        have := sweep_sound es F (C ++ [e]) m (grab mp e) cur (fun x hx => hne x (List.mem_cons_of_mem _ hx)) hs.2
          (by
            intro x hx
            rw [List.mem_append, List.mem_singleton] at hx
            rcases hx with hx | rfl
            · exact hC x hx
            · exact hm) g1 (fun k => by rw [g2 k, hv k, total_append]; simp [total]) hf h t
          (by
            intro x hx
            rw [← List.append_assoc, List.mem_append, List.mem_singleton] at hx
            rcases hx with hx | rfl
            · exact hP x hx
            · exact ht) (hex' ht)
        simpa using this
      · have hCn : C = [] := by
          rw [List.eq_nil_iff_forall_not_mem]
          intro x hx
          have h1 := hC x hx
          have h2 := hP x (List.mem_append_right _ hx)
          omega
        rw [filter_split hP (later (not_le.1 ht)), hCn, List.append_nil]
        exact fitsValid hf

theorem sweep_filter {init : AgentId → Option Int} : ∀ (es : List Event) (m : Int) (mp : List (AgentId × Int))
    (cur : AgentId → Option Int),
    sweep init es m mp cur = sweep init (es.filter fun e => !e.work.workers.isEmpty) m mp cur
  | [], _, _, _ => rfl
  | e :: es, m, mp, cur => by
    by_cases h : e.work.workers.isEmpty
    · rw [List.filter_cons_of_neg (by simpa using h)]
      conv_lhs => unfold sweep
      rw [if_pos h]
      exact sweep_filter es m mp cur
    · rw [List.filter_cons_of_pos (by simpa using h)]
      unfold sweep
      rw [if_neg h, if_neg h]
      split
      · split
        · rfl
        · exact sweep_filter es _ _ _
      · exact sweep_filter es _ _ _

/-! ### From events to busy workers -/

/-- Scheduled works as intervals in which the charged teams are busy. -/
def asPlacements (works : List SWork) : List Placement := works.map fun w => ⟨charged w.workers, w.start, w.finish, false⟩

theorem total_perm {a b : List Event} (h : a.Perm b) (k : AgentId) : total a k = total b k :=
  (h.map _).sum_eq

theorem total_filter_events (works : List SWork) (hle : ∀ w ∈ works, w.start ≤ w.finish) (t : Int) (k : AgentId) :
    total ((works.flatMap fun w => [(⟨true, w.start, w⟩ : Event), ⟨false, w.finish, w⟩]).filter
      fun e => decide (e.time ≤ t)) k = - busy (asPlacements works) k t := by
  induction works with
  | nil => simp [total, busy, asPlacements]
  | cons w ws ih =>
    have ih := ih fun x hx => hle x (List.mem_cons_of_mem _ hx)
    rw [List.flatMap_cons, List.filter_append, total_append, ih]
    have hw := hle w List.mem_cons_self
    have hb : busy (asPlacements (w :: ws)) k t
        = (if w.start ≤ t ∧ t < w.finish then teamCount (charged w.workers) k else 0) + busy (asPlacements ws) k t := by
      unfold busy asPlacements
      rw [List.map_cons, List.filter_cons]
      by_cases hr : w.start ≤ t ∧ t < w.finish
      · have hr' : (⟨charged w.workers, w.start, w.finish, false⟩ : Placement).runs t := hr
        rw [if_pos hr, if_pos (decide_eq_true hr'), List.map_cons, List.sum_cons]
      · have hr' : ¬ (⟨charged w.workers, w.start, w.finish, false⟩ : Placement).runs t := hr
        rw [if_neg hr, if_neg (fun hh => hr' (of_decide_eq_true hh)), zero_add]
    rw [hb]
    unfold total
    by_cases h1 : w.start ≤ t
    · by_cases h2 : w.finish ≤ t
      · rw [if_neg (by omega)]
        simp [h1, h2, delta]
      · rw [if_pos (by omega)]
        simp [h1, h2, delta]
        ring
    · have h2 : ¬ w.finish ≤ t := by omega
      rw [if_neg (by omega)]
      simp [h1, h2]

theorem delta_of_empty {e : Event} (h : e.work.workers = []) (k : AgentId) : delta e k = 0 := by
  unfold delta charged
  rw [h]
  simp [teamCount]

theorem total_nonempty (es : List Event) (k : AgentId) :
    total (es.filter fun e => !e.work.workers.isEmpty) k = total es k := by
  induction es with
  | nil => rfl
  | cons e es ih =>
    by_cases h : e.work.workers = []
    · rw [List.filter_cons_of_neg (by simp [h]), ih]
      unfold total
      rw [List.map_cons, List.sum_cons, delta_of_empty h, zero_add]
    · rw [List.filter_cons_of_pos (by simpa using h)]
      unfold total at ih ⊢
      rw [List.map_cons, List.sum_cons, List.map_cons, List.sum_cons, ih]

instance : Std.Total (fun a b : Event => a.time ≤ b.time) := ⟨fun a b => le_total a.time b.time⟩
instance : IsTrans Event (fun a b : Event => a.time ≤ b.time) := ⟨fun _ _ _ => le_trans⟩

/-- The sweep accepts only if at no moment more workers are charged than there are. -/
theorem withinCapacity_sound {contractors : List (Nat × List (Nat × Int))} {works : List SWork}
    (hpool : ∀ k i, pool contractors k = some i → 0 ≤ i) (hle : ∀ w ∈ works, w.start ≤ w.finish)
    (h : withinCapacity contractors works = true) (t : Int) (k : AgentId) :
    busy (asPlacements works) k t ≤ (pool contractors k).getD 0 := by
  unfold withinCapacity at h
  rw [sweep_filter] at h
  have hperm : (events works).Perm (works.flatMap fun w => [(⟨true, w.start, w⟩ : Event), ⟨false, w.finish, w⟩]) :=
    List.perm_insertionSort _ _
  have hsorted : (events works).Pairwise fun a b => a.time ≤ b.time := List.pairwise_insertionSort _ _
  have htot : total (((events works).filter fun e => !e.work.workers.isEmpty).filter fun e => decide (e.time ≤ t)) k
      = - busy (asPlacements works) k t := by
    rw [List.filter_comm, total_nonempty, total_perm (hperm.filter _) k, total_filter_events works hle]
  by_cases hex : ∃ e ∈ (events works).filter fun e => !e.work.workers.isEmpty, t < e.time
  · have := sweep_sound _ [] [] 0 [] _ (by
      intro e he
      have := (List.mem_filter.1 he).2
      simpa using this) (List.Pairwise.sublist List.filter_sublist hsorted) (by simp) (by simp) (by simp [val, total]) (by
      intro k
      cases hk : pool contractors k with
      | none => exact Or.inr ⟨rfl, rfl, by simp [total]⟩
      | some i => exact Or.inl ⟨i, rfl, by simp [total], by simpa [total] using hpool k i hk⟩) h t (by simp) hex k
    simp only [List.nil_append] at this
    rw [htot] at this
    rcases this with ⟨i, h1, h2⟩ | ⟨h1, h2⟩
    · rw [h1, Option.getD_some]
      omega
    · rw [h1, Option.getD_none]
      omega
  · push Not at hex
    have hb : busy (asPlacements works) k t = 0 := by
      unfold busy
      apply List.sum_eq_zero
      intro x hx
      obtain ⟨p, hp, rfl⟩ := List.mem_map.1 hx
      rw [List.mem_filter] at hp
      obtain ⟨w, hw, rfl⟩ := List.mem_map.1 hp.1
      by_cases he : w.workers = []
      · simp [he, charged, teamCount]
      · exfalso
        have hr : w.start ≤ t ∧ t < w.finish := of_decide_eq_true hp.2
        have hmem : (⟨false, w.finish, w⟩ : Event) ∈ (events works).filter fun e => !e.work.workers.isEmpty := by
          rw [List.mem_filter]
          refine ⟨hperm.mem_iff.2 (List.mem_flatMap.2 ⟨w, hw, by simp⟩), by simpa using he⟩
        have := hex _ hmem
        simp only at this
        omega
    rw [hb]
    cases hk : pool contractors k with
    | none => simp
    | some i => simpa using hpool k i hk

theorem charged_of_one {team : List Worker} {c : Nat} (h : ∀ w ∈ team, w.contractor = c) : charged team = team := by
  unfold charged
  cases team with
  | nil => rfl
  | cons w ws =>
    have : ∀ x ∈ w :: ws, ({ x with contractor := w.contractor } : Worker) = x := by
      intro x hx
      rw [h w List.mem_cons_self, ← h x hx]
    simp only
    exact (List.map_congr_left this).trans (List.map_id _)

/-! ### Completeness -/

theorem val_cons (k : AgentId) (d : Int) (rest : List (AgentId × Int)) (x : AgentId) :
    val ((k, d) :: rest) x = val rest x + if x = k then d else 0 := by
  unfold val
  by_cases hxk : x = k
  · subst hxk
    simp
    ring
  · have : ¬ k = x := fun hh => hxk hh.symm
    simp [hxk, this]

/-- A class that fits passes. -/
theorem flush_complete {init : AgentId → Option Int} : ∀ (mp : List (AgentId × Int)) (cur : AgentId → Option Int)
    (used : AgentId → Int), (mp.map (·.1)).Nodup →
    (∀ k ∈ mp.map (·.1), ∃ i, init k = some i ∧ cur k = some (i + used k) ∧ 0 ≤ i + used k + val mp k ∧ used k + val mp k ≤ 0) →
    ∃ cur', flush init mp cur = some cur'
  | [], cur, _, _, _ => ⟨cur, rfl⟩
  | (k, d) :: rest, cur, used, hn, h => by
    rw [List.map_cons, List.nodup_cons] at hn
    obtain ⟨i, h1, h2, h3, h4⟩ := h k (by simp)
    have hv : val ((k, d) :: rest) k = d := by rw [val_cons, val_of_not_mem hn.1]; simp
    rw [hv] at h3 h4
    unfold flush
    rw [h1, h2]
    simp only
    rw [if_pos ⟨by omega, by omega⟩]
    apply flush_complete rest _ used hn.2
    intro x hx
    obtain ⟨j, g1, g2, g3, g4⟩ := h x (by simp [hx])
    have hxk : x ≠ k := fun e => hn.1 (e ▸ hx)
    rw [val_cons, if_neg hxk, add_zero] at g3 g4
    exact ⟨j, g1, by simp [hxk, g2], g3, g4⟩

theorem foldl_charge_keys (c : Nat) (s : Bool) : ∀ (ws : List Worker) (mp : List (AgentId × Int)), (mp.map (·.1)).Nodup →
    ∀ x ∈ (ws.foldl (fun mp x => charge mp (c, x.name) (if s then - x.count else x.count)) mp).map (·.1),
      x ∈ mp.map (·.1) ∨ ∃ w ∈ ws, x = (c, w.name)
  | [], mp, _, x, hx => Or.inl hx
  | w :: ws, mp, h, x, hx => by
    obtain ⟨k1, k2⟩ := charge_keys mp (c, w.name) (if s then - w.count else w.count) h
    rcases foldl_charge_keys c s ws _ k1 x hx with h' | ⟨y, hy, rfl⟩
    · rcases (k2 x).1 h' with h'' | rfl
      · exact Or.inl h''
      · exact Or.inr ⟨w, by simp, rfl⟩
    · exact Or.inr ⟨y, by simp [hy], rfl⟩

theorem grab_keys (mp : List (AgentId × Int)) (e : Event) (h : (mp.map (·.1)).Nodup) :
    ∀ x ∈ (grab mp e).map (·.1), x ∈ mp.map (·.1) ∨ ∃ w ∈ charged e.work.workers, x = w.agent := by
  intro x hx
  unfold grab at hx
  unfold charged
  cases hw : e.work.workers with
  | nil => rw [hw] at hx; exact Or.inl hx
  | cons w ws =>
    rw [hw] at hx
    rcases foldl_charge_keys w.contractor e.isStart (w :: ws) mp h x hx with h' | ⟨y, hy, rfl⟩
    · exact Or.inl h'
    · exact Or.inr ⟨{ y with contractor := w.contractor }, List.mem_map.2 ⟨y, hy, rfl⟩, rfl⟩

theorem sweep_complete {init : AgentId → Option Int} : ∀ (rest F C : List Event) (m : Int) (mp : List (AgentId × Int))
    (cur : AgentId → Option Int), (∀ e ∈ rest, e.work.workers ≠ []) → rest.Pairwise (fun a b => a.time ≤ b.time) →
    (∀ e ∈ rest, ∀ w ∈ charged e.work.workers, ∃ i, init w.agent = some i) →
    (∀ e ∈ C, e.time = m) → (C ≠ [] → (∀ e ∈ F, e.time ≤ m) ∧ ∀ e ∈ rest, m ≤ e.time) → (C = [] → mp = []) →
    (mp.map (·.1)).Nodup → (∀ k ∈ mp.map (·.1), ∃ i, init k = some i) →
    (∀ k, val mp k = total C k) → Fits init cur (total F) →
    (∀ t k i, init k = some i → 0 ≤ i + total ((F ++ C ++ rest).filter fun e => decide (e.time ≤ t)) k ∧
      total ((F ++ C ++ rest).filter fun e => decide (e.time ≤ t)) k ≤ 0) →
    (∀ e ∈ F, ∀ x ∈ C ++ rest, e.time ≤ x.time) →
    sweep init rest m mp cur = true
  | [], _, _, _, _, _, _, _, _, _, _, _, _, _, _, _, _, _ => rfl
  | e :: es, F, C, m, mp, cur, hne, hs, hkey, hC, hm0, hmp, hn, hmk, hv, hf, hfit, hF => by
    rw [List.pairwise_cons] at hs
    unfold sweep
    have hemp : e.work.workers.isEmpty = false := by
      have := hne e List.mem_cons_self
      simpa using this
    rw [hemp]
    simp only [Bool.false_eq_true, if_false]
    by_cases hm : e.time ≠ m
    · rw [if_pos hm]
      have hflush : ∃ cur', flush init mp cur = some cur' := by
        by_cases hCn : C = []
        · rw [hmp hCn]; exact ⟨cur, rfl⟩
        · obtain ⟨hF', hrest⟩ := hm0 hCn
          apply flush_complete mp cur (total F) hn
          intro k hk
          obtain ⟨i, hi⟩ := hmk k hk
          have hsplit := filter_split (P := F ++ C) (rest := e :: es) (t := m)
            (by
              intro x hx
              rcases List.mem_append.1 hx with hx | hx
              · exact hF' x hx
              · exact le_of_eq (hC x hx))
            (by
              have he : m < e.time := lt_of_le_of_ne (hrest e (by simp)) (Ne.symm hm)
              intro x hx
              rcases List.mem_cons.1 hx with rfl | hx
              · exact he
              · exact lt_of_lt_of_le he (hs.1 x hx))
          have := hfit m k i hi
          rw [hsplit, total_append] at this
          rcases hf k with ⟨j, g1, g2, _⟩ | ⟨g1, _, _⟩
          · rw [hi, Option.some.injEq] at g1
            subst g1
            rw [hv k]
            exact ⟨i, hi, g2, by omega, this.2⟩
          · rw [hi] at g1; simp at g1
      obtain ⟨cur', hfl⟩ := hflush
      rw [hfl]
      simp only
      have hfit0 := flush_spec mp cur cur' (total F) hn hf hfl
      have hfit' : Fits init cur' (total (F ++ C)) := by
        intro k
        have := hfit0 k
        simp only at this
        rw [hv k, ← total_append] at this
        exact this
      obtain ⟨g1, g2⟩ := grab_spec [] e (by simp)
      have hFC : ∀ x ∈ F ++ C, x.time ≤ e.time := by
        intro x hx
        rcases List.mem_append.1 hx with hx | hx
        · exact hF x hx e (by simp)
        · rw [hC x hx]
          exact (hm0 (List.ne_nil_of_mem hx)).2 e (by simp)
      refine sweep_complete es (F ++ C) [e] e.time (grab [] e) cur' (fun x hx => hne x (List.mem_cons_of_mem _ hx)) hs.2
        (fun x hx => hkey x (List.mem_cons_of_mem _ hx)) (by simp) (fun _ => ⟨hFC, hs.1⟩) (by simp) g1 ?_
        (fun k => by rw [g2 k]; simp [val, total]) hfit' ?_ ?_
      · intro k hk
        rcases grab_keys [] e (by simp) k hk with h | ⟨w, hw, rfl⟩
        · simp at h
        · exact hkey e (by simp) w hw
      · intro t k i hi
        simpa using hfit t k i hi
      · intro x hx y hy
        have hy' : y = e ∨ y ∈ es := by simpa using hy
        rcases hy' with rfl | hy'
        · exact hFC x hx
        · exact le_trans (hFC x hx) (hs.1 y hy')
    · rw [if_neg hm]
      push Not at hm
      obtain ⟨g1, g2⟩ := grab_spec mp e hn
      have hFe : ∀ x ∈ F, x.time ≤ e.time := fun x hx => hF x hx e (by simp)
      refine sweep_complete es F (C ++ [e]) m (grab mp e) cur (fun x hx => hne x (List.mem_cons_of_mem _ hx)) hs.2
        (fun x hx => hkey x (List.mem_cons_of_mem _ hx)) ?_ (fun _ => ⟨fun x hx => hm ▸ hFe x hx, fun x hx => hm ▸ hs.1 x hx⟩)
        (by simp) g1 ?_ (fun k => by rw [g2 k, hv k, total_append]; simp [total]) hf ?_ ?_
      · intro x hx
        rw [List.mem_append, List.mem_singleton] at hx
        rcases hx with hx | rfl
        · exact hC x hx
        · exact hm
      · intro k hk
        rcases grab_keys mp e hn k hk with h | ⟨w, hw, rfl⟩
        · exact hmk k h
        · exact hkey e (by simp) w hw
      · intro t k i hi
        simpa using hfit t k i hi
      · intro x hx y hy
        exact hF x hx y (by simpa using hy)

/-- The sweep accepts if at every moment the charged workers do not exceed the pool. -/
theorem withinCapacity_complete {contractors : List (Nat × List (Nat × Int))} {works : List SWork}
    (hle : ∀ w ∈ works, w.start ≤ w.finish) (hcount : ∀ w ∈ works, ∀ x ∈ w.workers, 0 ≤ x.count)
    (hkey : ∀ w ∈ works, ∀ x ∈ charged w.workers, ∃ i, pool contractors x.agent = some i)
    (hpool : ∀ k i, pool contractors k = some i → 0 ≤ i)
    (h : ∀ t k, busy (asPlacements works) k t ≤ (pool contractors k).getD 0) : withinCapacity contractors works = true := by
  unfold withinCapacity
  rw [sweep_filter]
  have hperm : (events works).Perm (works.flatMap fun w => [(⟨true, w.start, w⟩ : Event), ⟨false, w.finish, w⟩]) :=
    List.perm_insertionSort _ _
  have hsorted : (events works).Pairwise fun a b => a.time ≤ b.time := List.pairwise_insertionSort _ _
  have hev : ∀ e ∈ events works, e.work ∈ works := by
    intro e he
    obtain ⟨w, hw, h'⟩ := List.mem_flatMap.1 (hperm.mem_iff.1 he)
    have : e = ⟨true, w.start, w⟩ ∨ e = ⟨false, w.finish, w⟩ := by simpa using h'
    rcases this with rfl | rfl <;> exact hw
  apply sweep_complete _ [] [] 0 [] _ (by
      intro e he
      have := (List.mem_filter.1 he).2
      simpa using this) (List.Pairwise.sublist List.filter_sublist hsorted)
    (fun e he => hkey e.work (hev e (List.mem_filter.1 he).1)) (by simp) (by simp) (by simp) (by simp) (by simp)
    (by simp [val, total])
  · intro k
    cases hk : pool contractors k with
    | none => exact Or.inr ⟨rfl, rfl, by simp [total]⟩
    | some i => exact Or.inl ⟨i, rfl, by simp [total], by simpa [total] using hpool k i hk⟩
  · intro t k i hi
    simp only [List.nil_append]
    have htot : total (((events works).filter fun e => !e.work.workers.isEmpty).filter fun e => decide (e.time ≤ t)) k
        = - busy (asPlacements works) k t := by
      rw [List.filter_comm, total_nonempty, total_perm (hperm.filter _) k, total_filter_events works hle]
    rw [htot]
    have h1 := h t k
    rw [hi, Option.getD_some] at h1
    have h2 : 0 ≤ busy (asPlacements works) k t := by
      unfold busy
      apply List.sum_nonneg
      intro x hx
      obtain ⟨p, hp, rfl⟩ := List.mem_map.1 hx
      obtain ⟨w, hw, rfl⟩ := List.mem_map.1 (List.mem_filter.1 hp).1
      unfold teamCount
      apply List.sum_nonneg
      intro y hy
      obtain ⟨v, hv, rfl⟩ := List.mem_map.1 hy
      have hv' := (List.mem_filter.1 hv).1
      simp only at hv'
      unfold charged at hv'
      cases hws : w.workers with
      | nil => rw [hws] at hv'; simp at hv'
      | cons a as =>
        rw [hws] at hv'
        obtain ⟨u, hu, rfl⟩ := List.mem_map.1 hv'
        exact hcount w hw u (hws ▸ hu)
    omega
  · simp

end Sampo.Validate
