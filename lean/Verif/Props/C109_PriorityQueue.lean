import Verif.Spec.PriorityQueue
import Mathlib.Tactic.Linarith

/-!
# C109: the priority queue, after every history of calls

`extract_extremum` gives the extremum of what was added and not yet taken, as long as the keys of the values do not change; `decrease_key`
with a changed key puts the value in a second time.
-/

namespace Sampo.C109
open PQueue

variable {α : Type} [DecidableEq α] {key : α → Int} {descending : Bool}

/-- The entry of a value. -/
private def ent (descending : Bool) (key : α → Int) (v : α) : Entry α := ⟨comparator descending key v, key v, v⟩

/-- The queue holds the waiting values, sorted, equal ones in the order in which they came. -/
private structure Holds (key : α → Int) (q : Queue α) (l : List α) : Prop where
  sorted : q.entries.Pairwise fun x y => x.pos ≤ y.pos
  filter : ∀ k : Int, q.entries.filter (fun e => decide (e.pos = k)) =
    (l.map (ent q.descending key)).filter (fun e => decide (e.pos = k))

private theorem Holds.mem {q : Queue α} {l : List α} (h : Holds key q l) (e : Entry α) : e ∈ q.entries ↔ e ∈ l.map (ent q.descending key) := by
  have := h.filter e.pos
  have h1 : e ∈ q.entries ↔ e ∈ q.entries.filter (fun x => decide (x.pos = e.pos)) := by simp
  have h2 : e ∈ l.map (ent q.descending key) ↔ e ∈ (l.map (ent q.descending key)).filter (fun x => decide (x.pos = e.pos)) := by simp
  rw [h1, h2, this]

private theorem Holds.perm {q : Queue α} {l : List α} (h : Holds key q l) : q.entries.Perm (l.map (ent q.descending key)) := by
  rw [List.perm_iff_count]
  intro e
  have hc : ∀ m : List (Entry α), m.count e = (m.filter fun x => decide (x.pos = e.pos)).count e := by
    intro m
    rw [List.count_filter (by simp)]
  rw [hc, h.filter, ← hc]

private theorem takeWhile_sorted {l : List (Entry α)} (hl : l.Pairwise fun x y => x.pos ≤ y.pos) (k : Int) :
    l.takeWhile (fun x => decide (x.pos ≤ k)) = l.filter (fun x => decide (x.pos ≤ k)) ∧
      l.dropWhile (fun x => decide (x.pos ≤ k)) = l.filter (fun x => decide (k < x.pos)) := by
  induction l with
  | nil => simp
  | cons x l ih =>
    obtain ⟨hx, hl⟩ := List.pairwise_cons.1 hl
    by_cases h : x.pos ≤ k
    · simp [List.takeWhile_cons, List.dropWhile_cons, h, ih hl, Int.not_lt.2 h]
    · have h1 : ∀ y ∈ l, k < y.pos := fun y hy => by have := hx y hy; omega
      have h2 : l.filter (fun x => decide (x.pos ≤ k)) = [] := by
        rw [List.filter_eq_nil_iff]
        intro y hy
        have := h1 y hy
        simp; omega
      have h3 : l.filter (fun x => decide (k < x.pos)) = l := by
        rw [List.filter_eq_self]
        intro y hy
        simpa using h1 y hy
      simp [List.takeWhile_cons, List.dropWhile_cons, h, h2, h3, Int.not_le.1 h]

private theorem Holds.add {q : Queue α} {l : List α} (h : Holds key q l) (v : α) : Holds key (add key q v) (l ++ [v]) := by
  have ht := takeWhile_sorted h.sorted (comparator q.descending key v)
  constructor
  · unfold PQueue.add PQueue.insert
    dsimp only
    rw [ht.1, ht.2, List.pairwise_append, List.pairwise_cons]
    refine ⟨h.sorted.filter _, ⟨?_, h.sorted.filter _⟩, ?_⟩
    · intro y hy
      have := (List.mem_filter.1 hy).2
      simp at this
      exact Int.le_of_lt this
    · intro x hx y hy
      have hx' := (List.mem_filter.1 hx).2
      simp at hx'
      rcases List.mem_cons.1 hy with rfl | hy
      · exact hx'
      · have := (List.mem_filter.1 hy).2
        simp at this
        omega
  · intro k
    unfold PQueue.add PQueue.insert
    dsimp only
    rw [ht.1, ht.2, List.map_append, List.filter_append, List.filter_append, ← h.filter, List.filter_filter, List.filter_cons,
      List.filter_filter]
    rcases lt_trichotomy k (comparator q.descending key v) with hk | hk | hk
    · have e1 : q.entries.filter (fun a => decide (a.pos = k) && decide (a.pos ≤ comparator q.descending key v)) =
          q.entries.filter (fun a => decide (a.pos = k)) := by
        apply List.filter_congr; intro x _; by_cases hx : x.pos = k <;> simp [hx]; omega
      have e2 : q.entries.filter (fun a => decide (a.pos = k) && decide (comparator q.descending key v < a.pos)) = [] := by
        rw [List.filter_eq_nil_iff]; intro x _; simp; omega
      have e3 : ¬ comparator q.descending key v = k := by omega
      simp [e1, e2, e3, ent]
    · have e1 : q.entries.filter (fun a => decide (a.pos = k) && decide (a.pos ≤ comparator q.descending key v)) =
          q.entries.filter (fun a => decide (a.pos = k)) := by
        apply List.filter_congr; intro x _; by_cases hx : x.pos = k <;> simp [hx]; omega
      have e2 : q.entries.filter (fun a => decide (a.pos = k) && decide (comparator q.descending key v < a.pos)) = [] := by
        rw [List.filter_eq_nil_iff]; intro x _; simp; omega
      rw [e1, e2, if_pos (by simp [hk])]
      simp [hk, ent]
    · have e1 : q.entries.filter (fun a => decide (a.pos = k) && decide (a.pos ≤ comparator q.descending key v)) = [] := by
        rw [List.filter_eq_nil_iff]; intro x _; simp; omega
      have e2 : q.entries.filter (fun a => decide (a.pos = k) && decide (comparator q.descending key v < a.pos)) =
          q.entries.filter (fun a => decide (a.pos = k)) := by
        apply List.filter_congr; intro x _; by_cases hx : x.pos = k <;> simp [hx]; omega
      have e3 : ¬ comparator q.descending key v = k := by omega
      simp [e1, e2, e3, ent]

private theorem filter_eraseP {β : Type} (p r : β → Bool) (h : ∀ x, p x = true → r x = true) (l : List β) :
    (l.eraseP p).filter r = (l.filter r).eraseP p := by
  induction l with
  | nil => rfl
  | cons x l ih =>
    by_cases hp : p x = true
    · rw [List.eraseP_cons_of_pos hp, List.filter_cons_of_pos (h x hp), List.eraseP_cons_of_pos hp]
    · rw [List.eraseP_cons_of_neg hp, List.filter_cons, List.filter_cons]
      split
      · rw [List.eraseP_cons_of_neg hp, ih]
      · exact ih

private theorem filter_eraseP_other {β : Type} (p r : β → Bool) (h : ∀ x, p x = true → r x = false) (l : List β) :
    (l.eraseP p).filter r = l.filter r := by
  induction l with
  | nil => rfl
  | cons x l ih =>
    by_cases hp : p x = true
    · rw [List.eraseP_cons_of_pos hp, List.filter_cons_of_neg (by simp [h x hp])]
    · rw [List.eraseP_cons_of_neg hp, List.filter_cons, List.filter_cons, ih]

private theorem Holds.discard {q : Queue α} {l : List α} (h : Holds key q l) (v : α) : Holds key (discard key q v) (l.erase v) := by
  have hm : (l.erase v).map (ent q.descending key) = (l.map (ent q.descending key)).eraseP
      fun x => decide (x.pos = comparator q.descending key v ∧ x.key = key v ∧ x.value = v) := by
    clear h
    induction l with
    | nil => rfl
    | cons x l ih =>
      by_cases hx : x = v
      · subst hx
        rw [List.erase_cons_head, List.map_cons, List.eraseP_cons_of_pos (by simp [ent])]
      · rw [List.erase_cons_tail (by simpa using hx), List.map_cons, List.map_cons, List.eraseP_cons_of_neg (by simp [ent, hx]), ih]
  constructor
  · exact h.sorted.sublist (List.eraseP_sublist)
  · intro k
    show (q.entries.eraseP _).filter _ = ((l.erase v).map (ent q.descending key)).filter _
    rw [hm]
    by_cases hk : comparator q.descending key v = k
    · have hp : ∀ x : Entry α, decide (x.pos = comparator q.descending key v ∧ x.key = key v ∧ x.value = v) = true →
          decide (x.pos = k) = true := by
        intro x hx
        simp only [decide_eq_true_eq] at hx ⊢
        exact hx.1.trans hk
      rw [filter_eraseP _ _ hp, filter_eraseP _ _ hp, h.filter]
    · have hp : ∀ x : Entry α, decide (x.pos = comparator q.descending key v ∧ x.key = key v ∧ x.value = v) = true →
          decide (x.pos = k) = false := by
        intro x hx
        simp only [decide_eq_true_eq, decide_eq_false_iff_not] at hx ⊢
        intro h'
        exact hk (hx.1.symm.trans h')
      rw [filter_eraseP_other _ _ hp, filter_eraseP_other _ _ hp, h.filter]

private theorem last_split {β : Type} (p : β → Bool) : ∀ {m : List β} {a : List β} {x : β}, m.filter p = a ++ [x] →
    ∃ m1 m2, m = m1 ++ x :: m2 ∧ m1.filter p = a ∧ m2.filter p = [] := by
  intro m a x h
  obtain ⟨m1, m2, h1, h2, h3⟩ := List.filter_eq_append_iff.1 h
  obtain ⟨n1, n2, h4, h5, h6, h7⟩ := List.filter_eq_cons_iff.1 h3
  refine ⟨m1 ++ n1, n2, by rw [h1, h4, List.append_assoc], ?_, h7⟩
  rw [List.filter_append, h2, List.filter_eq_nil_iff.2 (fun b hb => h5 b hb), List.append_nil]

private theorem Holds.extract {q q' : Queue α} {l : List α} {v : α} (h : Holds key q l) (hq : extract q = some (v, q')) :
    ∃ l', Out q.descending key l v l' ∧ Holds key q' l' ∧ q'.descending = q.descending := by
  unfold PQueue.extract at hq
  rw [Option.map_eq_some_iff] at hq
  obtain ⟨e, he, heq⟩ := hq
  obtain ⟨rfl, rfl⟩ := Prod.mk.inj heq
  obtain ⟨es, hes⟩ : ∃ es, q.entries = es ++ [e] := ⟨q.entries.dropLast, by
    rw [List.getLast?_eq_some_iff] at he
    obtain ⟨ys, hy⟩ := he
    rw [hy]; simp⟩
  have hs := h.sorted
  rw [hes, List.pairwise_append] at hs
  have hf := h.filter e.pos
  rw [hes, List.filter_append, List.filter_cons_of_pos (by simp), List.filter_nil] at hf
  obtain ⟨m1, m2, h1, h2, h3⟩ := last_split _ hf.symm
  obtain ⟨a, b', rfl, ha, hb'⟩ := List.map_eq_append_iff.1 h1
  obtain ⟨w, b, rfl, hw, hb⟩ := List.map_eq_cons_iff.1 hb'
  have hwe : e = ent q.descending key w := hw.symm
  have hv : e.value = w := by rw [hwe]; rfl
  have hp : e.pos = comparator q.descending key w := by rw [hwe]; rfl
  have hmax : ∀ x ∈ a ++ w :: b, comparator q.descending key x ≤ e.pos := by
    intro x hx
    have : ent q.descending key x ∈ q.entries := (h.mem _).2 (List.mem_map_of_mem hx)
    rw [hes, List.mem_append, List.mem_singleton] at this
    rcases this with h' | h'
    · exact hs.2.2 _ h' e (by simp)
    · rw [← h']; exact Int.le_refl _
  have hstrict : ∀ x ∈ b, comparator q.descending key x < e.pos := by
    intro x hx
    have h4 := hmax x (by simp [hx])
    have h5 : ¬ comparator q.descending key x = e.pos := by
      intro h'
      have := List.filter_eq_nil_iff.1 h3 (ent q.descending key x) (hb ▸ List.mem_map_of_mem hx)
      exact this (decide_eq_true h')
    omega
  refine ⟨a ++ b, ⟨a, b, by rw [hv], rfl, ?_⟩, ⟨?_, ?_⟩, rfl⟩
  · rw [hv]
    have c1 : ∀ x ∈ a, comparator q.descending key x ≤ comparator q.descending key w := fun x hx => hp ▸ hmax x (by simp [hx])
    have c2 : ∀ x ∈ b, comparator q.descending key x < comparator q.descending key w := fun x hx => hp ▸ hstrict x hx
    unfold comparator at c1 c2
    split
    · rename_i hd
      simp only [hd, if_true] at c1 c2
      exact ⟨fun x hx => by have := c1 x hx; omega, fun x hx => by have := c2 x hx; omega⟩
    · rename_i hd
      simp only [hd] at c1 c2
      exact ⟨c1, c2⟩
  · show q.entries.dropLast.Pairwise _
    rw [hes, List.dropLast_concat]
    exact hs.1
  · intro k
    show q.entries.dropLast.filter _ = ((a ++ b).map (ent q.descending key)).filter _
    have hk := h.filter k
    rw [hes] at hk
    rw [hes, List.dropLast_concat, List.map_append, List.filter_append]
    rw [List.map_append, List.map_cons, List.filter_append, List.filter_append, List.filter_cons] at hk
    by_cases hek : e.pos = k
    · subst hek
      rw [ha, h2, hb, h3, List.append_nil]
    · have : ¬ (ent q.descending key w).pos = k := by rw [← hwe]; exact hek
      simpa [hek, this] using hk

private theorem holds_new (l : List α) : Holds key (new descending key l) l ∧ (new descending key l).descending = descending := by
  have : ∀ (m pre : List α) (q : Queue α), Holds key q pre → Holds key (m.foldl (add key) q) (pre ++ m) ∧
      (m.foldl (add key) q).descending = q.descending := by
    intro m
    induction m with
    | nil => intro pre q h; simpa using h
    | cons v m ih =>
      intro pre q h
      have := ih (pre ++ [v]) (add key q v) (h.add v)
      rw [List.append_assoc] at this
      exact this
  exact this l [] ⟨descending, []⟩ ⟨by simp, by simp⟩

private theorem holds_run (ops : List (Op α)) : ∀ (q : Queue α) (l : List α), Holds key q l →
    ∃ r, Waiting q.descending key l ops (run key q ops).2 r ∧ Holds key (run key q ops).1 r := by
  induction ops with
  | nil => intro q l h; exact ⟨l, .done l, h⟩
  | cons op ops ih =>
    intro q l h
    cases op with
    | add v =>
      obtain ⟨r, h1, h2⟩ := ih (add key q v) _ (h.add v)
      exact ⟨r, .add v h1, h2⟩
    | replace old new =>
      obtain ⟨r, h1, h2⟩ := ih (replace key q old new) _ ((h.discard old).add new)
      exact ⟨r, .replace old new h1, h2⟩
    | decrease v =>
      obtain ⟨r, h1, h2⟩ := ih (decreaseKey key q v) _ ((h.discard v).add v)
      exact ⟨r, .decrease v h1, h2⟩
    | extract =>
      cases hx : PQueue.extract q with
      | none =>
        have he : q.entries = [] := by
          unfold PQueue.extract at hx
          simpa using hx
        have hl : l = [] := by
          have := h.perm
          rw [he] at this
          simpa using this.symm.eq_nil
        obtain ⟨r, h1, h2⟩ := ih q l h
        subst hl
        refine ⟨r, ?_, ?_⟩
        · have := Waiting.exception (descending := q.descending) h1
          simpa [run, step, hx] using this
        · simpa [run, step, hx] using h2
      | some p =>
        obtain ⟨v, q'⟩ := p
        obtain ⟨l', h1, h2, h3⟩ := h.extract hx
        obtain ⟨r, h4, h5⟩ := ih q' l' h2
        rw [h3] at h4
        refine ⟨r, ?_, ?_⟩
        · have := Waiting.extract v h1 h4
          simpa [run, step, hx] using this
        · simpa [run, step, hx] using h5

/-- For every list of values put in at the beginning and every history of calls: what comes out is, each time, the extremum of the values
that are waiting, of equal ones the one that came last, and an exception exactly if none is waiting; the queue holds the waiting values. -/
theorem extremum_after_history (init : List α) (ops : List (Op α)) :
    ∃ l, Waiting descending key init ops (run key (new descending key init) ops).2 l ∧
      (run key (new descending key init) ops).1.values.Perm l ∧ len (run key (new descending key init) ops).1 = l.length := by
  obtain ⟨h, hd⟩ := holds_new (key := key) (descending := descending) init
  obtain ⟨r, h1, h2⟩ := holds_run ops _ _ h
  rw [hd] at h1
  have hp := h2.perm
  refine ⟨r, h1, ?_, ?_⟩
  · have := hp.map (fun e : Entry α => e.value)
    rwa [List.map_map, show (fun e : Entry α => e.value) ∘ ent _ key = id from rfl, List.map_id] at this
  · have := hp.length_eq
    rwa [List.length_map] at this

/-- Taking all values out of a queue gives them in descending order of keys, in ascending order if the queue is "descending". -/
theorem drains_in_order (init : List α) :
    ∃ outs : List α, (run key (new descending key init) (List.replicate init.length .extract)).2 = outs.map some ∧ outs.Perm init ∧
      outs.Pairwise fun x y => if descending then key x ≤ key y else key y ≤ key x := by
  obtain ⟨l, h, -, -⟩ := extremum_after_history (key := key) (descending := descending) init (List.replicate init.length .extract)
  generalize (run key (new descending key init) (List.replicate init.length .extract)).2 = o at h
  have : ∀ (n : Nat) (init : List α) (o : List (Option α)), init.length = n →
      Waiting descending key init (List.replicate n .extract) o l → ∃ outs : List α, o = outs.map some ∧ outs.Perm init ∧
      outs.Pairwise fun x y => if descending then key x ≤ key y else key y ≤ key x := by
    intro n
    induction n with
    | zero =>
      intro init o hn h
      cases h
      exact ⟨[], rfl, by rw [List.length_eq_zero_iff] at hn; rw [hn], List.Pairwise.nil⟩
    | succ n ih =>
      intro init o hn h
      rw [List.replicate_succ] at h
      cases h with
      | exception h => simp at hn
      | extract v hout h =>
        obtain ⟨a, b, rfl, rfl, hab⟩ := hout
        obtain ⟨outs, rfl, hp, hs⟩ := ih _ _ (by simp at hn ⊢; omega) h
        refine ⟨v :: outs, rfl, (hp.cons v).trans List.perm_middle.symm, List.pairwise_cons.2 ⟨fun y hy => ?_, hs⟩⟩
        have hy' := hp.subset hy
        rw [List.mem_append] at hy'
        split at hab
        · rename_i hd
          rw [if_pos hd]
          rcases hy' with h' | h'
          · exact hab.1 y h'
          · exact Int.le_of_lt (hab.2 y h')
        · rename_i hd
          rw [if_neg hd]
          rcases hy' with h' | h'
          · exact hab.1 y h'
          · exact Int.le_of_lt (hab.2 y h')
  exact this _ init o rfl h

-- a queue with equal keys: of 12 and 32, with key 2, the last comes out first
example : (run (fun v : Nat => ((v % 10 : Nat) : Int)) (new false (fun v : Nat => ((v % 10 : Nat) : Int)) [12, 5, 32])
    [.extract, .extract, .add 7, .replace 12 13, .extract, .extract, .extract]).2 =
    [some 5, some 32, some 7, some 13, none] := by decide +kernel
example : (run (fun v : Nat => ((v % 10 : Nat) : Int)) (new true (fun v : Nat => ((v % 10 : Nat) : Int)) [12, 5, 32])
    [.extract, .extract, .extract]).2 = [some 32, some 12, some 5] := by decide +kernel

/-- `decrease_key` with a key that has not changed since the value came: the number of values stays the same. -/
theorem decrease_unchanged (init : List α) (ops : List (Op α)) (v : α) (hv : v ∈ (run key (new descending key init) ops).1.values) :
    len (decreaseKey key (run key (new descending key init) ops).1 v) = len (run key (new descending key init) ops).1 := by
  obtain ⟨h, -⟩ := holds_new (key := key) (descending := descending) init
  obtain ⟨r, -, h2⟩ := holds_run ops _ _ h
  have hp := (h2.discard v).add v |>.perm.length_eq
  have hq := h2.perm.length_eq
  have hr : v ∈ r := by
    unfold Queue.values at hv
    obtain ⟨e, he, rfl⟩ := List.mem_map.1 hv
    obtain ⟨w, hw, rfl⟩ := List.mem_map.1 ((h2.mem e).1 he)
    exact hw
  have hlen : 0 < r.length := List.length_pos_of_mem hr
  rw [List.length_map, List.length_append, List.length_erase_of_mem hr, List.length_singleton] at hp
  rw [List.length_map] at hq
  unfold len decreaseKey replace
  rw [hp, hq]
  omega

/-- Not proved because false: "decrease_key moves a value to its new place".  After every history, if the key of a value has changed, in
whatever direction, `decrease_key` does not find the value and puts it in a second time: one value more is in the queue, and the old item
stays where it was. -/
theorem decrease_changed_duplicates (init : List α) (ops : List (Op α)) (key' : α → Int) (v : α) (hk : key' v ≠ key v) :
    len (decreaseKey key' (run key (new descending key init) ops).1 v) = len (run key (new descending key init) ops).1 + 1 ∧
      ∀ e ∈ (run key (new descending key init) ops).1.entries, e ∈ (decreaseKey key' (run key (new descending key init) ops).1 v).entries := by
  obtain ⟨h, -⟩ := holds_new (key := key) (descending := descending) init
  obtain ⟨r, -, h2⟩ := holds_run ops _ _ h
  generalize (run key (new descending key init) ops).1 = q at h2 ⊢
  have hd : PQueue.discard key' q v = q := by
    unfold PQueue.discard
    rw [List.eraseP_of_forall_not]
    intro e he
    obtain ⟨w, -, rfl⟩ := List.mem_map.1 ((h2.mem e).1 he)
    simp only [decide_eq_true_eq]
    rintro ⟨-, hw, hv⟩
    change w = v at hv
    subst hv
    exact hk hw.symm
  unfold decreaseKey replace
  rw [hd]
  unfold PQueue.add PQueue.insert len
  dsimp only
  constructor
  · have := congrArg List.length (List.takeWhile_append_dropWhile
      (p := fun x : Entry α => decide (x.pos ≤ comparator q.descending key' v)) (l := q.entries))
    rw [List.length_append] at this
    simp only [List.length_append, List.length_cons]
    omega
  · intro e he
    rw [← List.takeWhile_append_dropWhile (p := fun x : Entry α => decide (x.pos ≤ comparator q.descending key' v)) (l := q.entries),
      List.mem_append] at he
    rcases he with he | he
    · exact List.mem_append_left _ he
    · exact List.mem_append_right _ (List.mem_cons_of_mem _ he)

/-- A value that is taken twice: its key falls from 5 to 3. -/
theorem taken_twice : ∃ q : Queue Nat, q = decreaseKey (fun _ => 3) (new true (fun v => if v = 1 then 5 else 9) [1]) 1 ∧
    (run (fun _ => 3) q [.extract, .extract]).2 = [some 1, some 1] := by
  refine ⟨_, rfl, by decide +kernel⟩

end Sampo.C109
