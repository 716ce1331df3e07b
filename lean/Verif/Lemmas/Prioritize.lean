import Verif.Model.Prioritize
import Verif.Lemmas.Priority
import Mathlib.Tactic.NormNum

namespace Sampo

/-! ### Orders and stable sorting -/

theorem pairwise_of_idxOf_lt {R : Nat → Nat → Prop} {l : List Nat} (h : l.Pairwise R) {x y : Nat} (hx : x ∈ l)
    (hy : y ∈ l) (hlt : l.idxOf x < l.idxOf y) : R x y := by
  rw [List.pairwise_iff_getElem] at h
  have h1 := List.idxOf_lt_length_iff.2 hx
  have h2 := List.idxOf_lt_length_iff.2 hy
  have := h _ _ h1 h2 hlt
  rwa [List.getElem_idxOf, List.getElem_idxOf] at this

theorem idxOf_ne {l : List Nat} {x y : Nat} (hx : x ∈ l) (hne : x ≠ y) : l.idxOf x ≠ l.idxOf y := by
  intro h
  exact hne ((List.idxOf_inj hx).1 h)

/-- In an order that respects `r`, what `x` depends on stands before `x`. -/
theorem idxOf_lt_of_respects {r : Nat → Nat → Prop} {l : List Nat} (h : OrderRespects r l) {x y : Nat} (hx : x ∈ l)
    (hy : y ∈ l) (hne : y ≠ x) (hr : r x y) : l.idxOf y < l.idxOf x := by
  rcases Nat.lt_trichotomy (l.idxOf y) (l.idxOf x) with h' | h' | h'
  · exact h'
  · exact absurd h' (idxOf_ne hy hne)
  · exact absurd hr (pairwise_of_idxOf_lt h hx hy h')

/-- Sorting (stably) by a key that never contradicts the dependencies keeps the order valid. -/
theorem insertionSort_respects {α : Type} [LinearOrder α] {r : Nat → Nat → Prop} (key : Nat → α) :
    ∀ l : List Nat, OrderRespects r l → (∀ x ∈ l, ∀ y ∈ l, r x y → key y ≤ key x) →
      OrderRespects r (l.insertionSort fun u v => key u ≤ key v)
  | [], _, _ => List.Pairwise.nil
  | a :: l, h, hk => by
    unfold OrderRespects at h
    rw [List.pairwise_cons] at h
    have ih := insertionSort_respects key l h.2
      (fun x hx y hy => hk x (List.mem_cons_of_mem _ hx) y (List.mem_cons_of_mem _ hy))
    have hmem : ∀ x, x ∈ l.insertionSort (fun u v => key u ≤ key v) → x ∈ l := fun x hx =>
      (List.perm_insertionSort _ l).mem_iff.1 hx
    rw [List.insertionSort_cons]
    generalize l.insertionSort (fun u v => key u ≤ key v) = s at ih hmem
    induction s with
    | nil => simp [OrderRespects, List.orderedInsert]
    | cons b s ihs =>
      unfold OrderRespects at ih ihs ⊢
      rw [List.orderedInsert]
      split
      · rw [List.pairwise_cons]
        exact ⟨fun x hx => h.1 x (hmem x hx), ih⟩
      · rename_i hlt
        rw [List.pairwise_cons] at ih ⊢
        refine ⟨?_, ihs ih.2 (fun x hx => hmem x (List.mem_cons_of_mem _ hx))⟩
        intro x hx
        have hx' := (List.perm_orderedInsert _ a s).mem_iff.1 hx
        rw [List.mem_cons] at hx'
        rcases hx' with rfl | hx'
        · intro hr
          exact hlt (hk b (List.mem_cons_of_mem _ (hmem b List.mem_cons_self)) x List.mem_cons_self hr)
        · exact ih.1 x hx'

namespace Priority

variable {prio : Nat → Int}

theorem mem_groups {nodes g : List Nat} (hg : g ∈ groups prio nodes) :
    ∃ p, g = nodes.filter fun v => prio v = p := by
  unfold groups at hg
  obtain ⟨p, -, rfl⟩ := List.mem_map.1 hg
  exact ⟨p, rfl⟩

theorem groups_sublist {nodes g : List Nat} (hg : g ∈ groups prio nodes) : g.Sublist nodes := by
  obtain ⟨p, rfl⟩ := mem_groups hg
  exact List.filter_sublist

/-- Distributing a list over distinct keys that cover it permutes it. -/
theorem flatten_filter_perm (ps : List Int) : ∀ (nodes : List Nat), ps.Nodup → (∀ v ∈ nodes, prio v ∈ ps) →
    ((ps.map fun p => nodes.filter fun v => prio v = p).flatten).Perm nodes := by
  induction ps with
  | nil =>
    intro nodes _ h
    cases nodes with
    | nil => simp
    | cons v vs => exact absurd (h v List.mem_cons_self) (List.not_mem_nil)
  | cons p ps ih =>
    intro nodes hn h
    rw [List.nodup_cons] at hn
    rw [List.map_cons, List.flatten_cons]
    have h1 : ((ps.map fun q => nodes.filter fun v => prio v = q)) =
        ps.map fun q => (nodes.filter fun v => ¬ prio v = p).filter fun v => prio v = q := by
      apply List.map_congr_left
      intro q hq
      rw [List.filter_filter]
      apply List.filter_congr
      intro v _
      by_cases hv : prio v = q
      · have : prio v ≠ p := by rintro rfl; exact hn.1 (hv ▸ hq)
        simp [hv]
        rintro rfl
        exact hn.1 hq
      · simp [hv]
    rw [h1]
    have h2 := ih (nodes.filter fun v => ¬ prio v = p) hn.2 (by
      intro v hv
      rw [List.mem_filter] at hv
      have := h v hv.1
      rw [List.mem_cons] at this
      rcases this with h' | h'
      · simp [h'] at hv
      · exact h')
    refine ((List.Perm.refl _).append h2).trans ?_
    have := List.filter_append_perm (fun v => decide (prio v = p)) nodes
    simpa using this

theorem groups_perm (nodes : List Nat) : (groups prio nodes).flatten.Perm nodes := by
  unfold groups
  have hp := List.perm_insertionSort (· ≤ ·) (nodes.map prio).dedup
  apply flatten_filter_perm
  · exact hp.nodup_iff.2 (List.nodup_dedup _)
  · intro v hv
    rw [hp.mem_iff, List.mem_dedup]
    exact List.mem_map.2 ⟨v, hv, rfl⟩

/-- If every group is ordered validly and priorities agree with the dependencies then the concatenated order is valid. -/
theorem groups_respect {r : Nat → Nat → Prop} {f : List Nat → List Nat} {nodes : List Nat}
    (hperm : ∀ g ∈ groups prio nodes, (f g).Perm g) (hord : ∀ g ∈ groups prio nodes, OrderRespects r (f g))
    (hprio : ∀ x ∈ nodes, ∀ y ∈ nodes, r x y → prio y ≤ prio x) :
    ((groups prio nodes).flatMap f).Perm nodes ∧ OrderRespects r ((groups prio nodes).flatMap f) := by
  constructor
  · refine List.Perm.trans ?_ (groups_perm (prio := prio) nodes)
    have : ∀ gs : List (List Nat), (∀ g ∈ gs, (f g).Perm g) → (gs.flatMap f).Perm gs.flatten := by
      intro gs
      induction gs with
      | nil => intro _; simp
      | cons g gs ih =>
        intro h
        rw [List.flatMap_cons, List.flatten_cons]
        exact (h g List.mem_cons_self).append (ih fun x hx => h x (List.mem_cons_of_mem _ hx))
    exact this _ hperm
  · unfold groups at hperm hord ⊢
    have hsorted : ((nodes.map prio).dedup.insertionSort (· ≤ ·)).Pairwise (· < ·) := by
      have h1 := List.pairwise_insertionSort (· ≤ ·) (nodes.map prio).dedup
      have h2 : ((nodes.map prio).dedup.insertionSort (· ≤ ·)).Nodup :=
        (List.perm_insertionSort _ _).nodup_iff.2 (List.nodup_dedup _)
      exact (h1.and h2).imp fun h => lt_of_le_of_ne h.1 h.2
    generalize (nodes.map prio).dedup.insertionSort (· ≤ ·) = ps at hperm hord hsorted
    have hmem : ∀ p ∈ ps, ∀ x ∈ f (nodes.filter fun v => prio v = p), x ∈ nodes ∧ prio x = p := by
      intro p hp x hx
      have := (hperm _ (List.mem_map.2 ⟨p, hp, rfl⟩)).mem_iff.1 hx
      rw [List.mem_filter] at this
      exact ⟨this.1, by simpa using this.2⟩
    induction ps with
    | nil => exact List.Pairwise.nil
    | cons p ps ih =>
      rw [List.pairwise_cons] at hsorted
      rw [List.map_cons, List.flatMap_cons]
      unfold OrderRespects at ih hord ⊢
      rw [List.pairwise_append]
      refine ⟨hord _ (by simp), ih (fun g hg => hperm g (by simp only [List.map_cons, List.mem_cons]; exact Or.inr hg))
        (fun g hg => hord g (by simp only [List.map_cons, List.mem_cons]; exact Or.inr hg)) hsorted.2
        (fun q hq => hmem q (List.mem_cons_of_mem _ hq)), ?_⟩
      intro x hx y hy hr
      obtain ⟨hxn, hxp⟩ := hmem p List.mem_cons_self x hx
      rw [List.mem_flatMap] at hy
      obtain ⟨g, hg, hy⟩ := hy
      obtain ⟨q, hq, rfl⟩ := List.mem_map.1 hg
      obtain ⟨hyn, hyp⟩ := hmem q (List.mem_cons_of_mem _ hq) y hy
      have := hprio x hxn y hyn hr
      have := hsorted.1 q hq
      omega

end Priority

/-! ### HEFT -/

namespace Heft

variable {α : Type} [AddCommGroup α] [LinearOrder α] [IsOrderedAddMonoid α]

/-- The path weights with the pending weight of the current class written back. -/
def FB.view (s : FB α) : Nat → α := set s.pw s.cur s.weight

/-- Immediate relaxation of one edge. -/
def step (f : Nat → α) (e : Nat × Nat × α) : Nat → α := set f e.1 (min (f e.1) (f e.2.1 + e.2.2))

def sweep (edges : List (Nat × Nat × α)) (f : Nat → α) : Nat → α := edges.foldl step f

omit [IsOrderedAddMonoid α] in
theorem relax_view (s : FB α) (e : Nat × Nat × α) (he : e.2.1 ≠ e.1) :
    (relax s e).view = step s.view e ∧
      ((relax s e).changed = false → s.changed = false ∧ s.view e.1 ≤ s.view e.2.1 + e.2.2) ∧
      ((s.changed = false → s.weight = s.pw s.cur) → (relax s e).changed = false → (relax s e).weight = (relax s e).pw (relax s e).cur) := by
  obtain ⟨pw, cur, weight, changed⟩ := s
  obtain ⟨f, st, w⟩ := e
  simp only at he
  unfold relax FB.view step
  by_cases hc : cur = f
  · subst hc
    simp only [ne_eq, not_true_eq_false, if_false]
    have hst : set pw cur weight st = pw st := by unfold set; rw [if_neg he]
    have hcur : set pw cur weight cur = weight := by unfold set; rw [if_pos rfl]
    rw [hst, hcur]
    split
    · rename_i hlt
      refine ⟨?_, by simp, by simp⟩
      rw [min_eq_right (le_of_lt hlt)]
      funext v; unfold set; split <;> rfl
    · rename_i hlt
      refine ⟨?_, fun h => ⟨h, not_lt.1 hlt⟩, fun h h' => h h'⟩
      rw [min_eq_left (not_lt.1 hlt)]
      funext v; unfold set; split <;> rfl
  · simp only [ne_eq, hc, not_false_eq_true, if_true]
    split
    · rename_i hlt
      refine ⟨?_, by simp, by simp⟩
      rw [min_eq_right (le_of_lt hlt)]
    · rename_i hlt
      refine ⟨?_, fun h => ⟨h, not_lt.1 hlt⟩, fun _ _ => rfl⟩
      rw [min_eq_left (not_lt.1 hlt)]

omit [IsOrderedAddMonoid α] in
theorem step_le (f : Nat → α) (e : Nat × Nat × α) (v : Nat) : step f e v ≤ f v := by
  unfold step set
  split
  · rename_i h; rw [h]; exact min_le_left _ _
  · exact le_refl _

theorem sweep_le (edges : List (Nat × Nat × α)) : ∀ (f : Nat → α) (v : Nat), sweep edges f v ≤ f v := by
  unfold sweep
  induction edges with
  | nil => intro f v; exact le_refl _
  | cons e es ih => intro f v; exact le_trans (ih (step f e) v) (step_le f e v)

theorem sweep_edge (edges : List (Nat × Nat × α)) : ∀ (f : Nat → α), ∀ e ∈ edges, sweep edges f e.1 ≤ f e.2.1 + e.2.2 := by
  induction edges with
  | nil => intro f e he; exact absurd he (List.not_mem_nil)
  | cons a es ih =>
    intro f e he
    rw [List.mem_cons] at he
    rcases he with rfl | he
    · refine le_trans (sweep_le es (step f e) e.1) ?_
      unfold step set
      rw [if_pos rfl]
      exact min_le_right _ _
    · refine le_trans (ih (step f a) e he) ?_
      exact add_le_add_left (step_le f a e.2.1) _

theorem sweep_const (edges : List (Nat × Nat × α)) (v : Nat) : ∀ (f : Nat → α),
    (∀ e ∈ edges, e.1 = v → sweep edges f e.2.1 = f e.2.1 ∧ f v ≤ f e.2.1 + e.2.2) → sweep edges f v = f v := by
  induction edges with
  | nil => intro f _; rfl
  | cons a es ih =>
    intro f h
    have hs : sweep (a :: es) f = sweep es (step f a) := rfl
    have hfv : step f a v = f v := by
      unfold step set
      split
      · rename_i hva
        obtain ⟨-, h2⟩ := h a List.mem_cons_self hva.symm
        rw [← hva]
        exact min_eq_left h2
      · rfl
    rw [hs, ih (step f a), hfv]
    intro e he hev
    obtain ⟨h1, h2⟩ := h e (List.mem_cons_of_mem _ he) hev
    rw [hs] at h1
    have h3 : step f a e.2.1 = f e.2.1 := le_antisymm (step_le _ _ _) (by rw [← h1]; exact sweep_le es _ _)
    exact ⟨by rw [h1, h3], by rw [hfv, h3]; exact h2⟩

/-- `n` sweeps. -/
def sweeps (edges : List (Nat × Nat × α)) : Nat → (Nat → α)
  | 0 => fun _ => 0
  | n + 1 => sweep edges (sweeps edges n)

/-- A node of rank at most `k` does not change after `k` sweeps. -/
theorem settled {edges : List (Nat × Nat × α)} {rank : Nat → Nat} (hr : ∀ e ∈ edges, rank e.2.1 < rank e.1) :
    ∀ (v k : Nat), rank v ≤ k → sweeps edges (k + 1) v = sweeps edges k v := by
  intro v
  induction hrv : rank v using Nat.strong_induction_on generalizing v with
  | _ m ih =>
    subst hrv
    intro k hk
    apply sweep_const
    intro e he hev
    have hlt := hr e he
    rw [hev] at hlt
    cases k with
    | zero => omega
    | succ k =>
      refine ⟨ih _ hlt e.2.1 rfl (k + 1) (by omega), ?_⟩
      have h1 := ih _ hlt e.2.1 rfl k (by omega)
      rw [h1, ← hev]
      exact sweep_edge edges (sweeps edges k) e he

theorem foldl_view {edges : List (Nat × Nat × α)} (hs : ∀ e ∈ edges, e.2.1 ≠ e.1) : ∀ (s : FB α),
    (s.changed = false → s.weight = s.pw s.cur) →
    (edges.foldl relax s).view = sweep edges s.view ∧
      ((edges.foldl relax s).changed = false →
        (edges.foldl relax s).weight = (edges.foldl relax s).pw (edges.foldl relax s).cur) ∧
      ((edges.foldl relax s).changed = false → s.changed = false ∧ (edges.foldl relax s).view = s.view ∧
        ∀ e ∈ edges, s.view e.1 ≤ s.view e.2.1 + e.2.2) := by
  induction edges with
  | nil => intro s h; exact ⟨rfl, h, fun h' => ⟨h', rfl, by simp⟩⟩
  | cons a es ih =>
    intro s h
    obtain ⟨r1, r2, r3⟩ := relax_view s a (hs a List.mem_cons_self)
    obtain ⟨i1, i2, i3⟩ := ih (fun e he => hs e (List.mem_cons_of_mem _ he)) (relax s a) (r3 h)
    rw [List.foldl_cons]
    refine ⟨by rw [i1, r1]; rfl, i2, ?_⟩
    intro hc
    obtain ⟨c1, c2, c3⟩ := i3 hc
    obtain ⟨d1, d2⟩ := r2 c1
    have hv : (relax s a).view = s.view := by
      rw [r1]
      funext v
      unfold step set
      split
      · rename_i hva
        rw [hva]
        exact min_eq_left d2
      · rfl
    refine ⟨d1, by rw [c2, hv], ?_⟩
    intro e he
    rw [List.mem_cons] at he
    rcases he with rfl | he
    · exact d2
    · have := c3 e he
      rwa [hv] at this

/-- All edges are relaxed. -/
def Relaxed (edges : List (Nat × Nat × α)) (f : Nat → α) : Prop := ∀ e ∈ edges, f e.1 ≤ f e.2.1 + e.2.2

/-- Every weight is zero or supported by an edge. -/
def Supported (edges : List (Nat × Nat × α)) (f : Nat → α) : Prop :=
  ∀ v, f v = 0 ∨ ∃ e ∈ edges, e.1 = v ∧ f e.2.1 + e.2.2 ≤ f v

theorem sweep_supported {edges : List (Nat × Nat × α)} : ∀ (es : List (Nat × Nat × α)) (f : Nat → α),
    (∀ e ∈ es, e ∈ edges) → Supported edges f → Supported edges (sweep es f) := by
  intro es
  induction es with
  | nil => intro f _ h; exact h
  | cons a es ih =>
    intro f hsub h
    apply ih (step f a) (fun e he => hsub e (List.mem_cons_of_mem _ he))
    intro v
    by_cases hva : v = a.1
    · have hv : step f a v = min (f a.1) (f a.2.1 + a.2.2) := by unfold step set; rw [if_pos hva]
      rcases le_total (f a.1) (f a.2.1 + a.2.2) with hle | hle
      · rw [min_eq_left hle] at hv
        rcases h v with h0 | ⟨e, he, hev, hes⟩
        · left; rw [hv, ← hva, h0]
        · right
          refine ⟨e, he, hev, ?_⟩
          rw [hv, ← hva]
          exact le_trans (add_le_add_left (step_le f a e.2.1) _) hes
      · rw [min_eq_right hle] at hv
        right
        refine ⟨a, hsub a List.mem_cons_self, hva.symm, ?_⟩
        rw [hv]
        exact add_le_add_left (step_le f a a.2.1) _
    · have hv : step f a v = f v := by unfold step set; rw [if_neg hva]
      rw [hv]
      rcases h v with h0 | ⟨e, he, hev, hes⟩
      · exact Or.inl h0
      · right
        exact ⟨e, he, hev, le_trans (add_le_add_left (step_le f a e.2.1) _) hes⟩

theorem rounds_relaxed {edges : List (Nat × Nat × α)} {first : Nat} (hs : ∀ e ∈ edges, e.2.1 ≠ e.1) {rank : Nat → Nat}
    (hr : ∀ e ∈ edges, rank e.2.1 < rank e.1) :
    ∀ (n k : Nat), (∀ e ∈ edges, rank e.1 ≤ n + k) → Supported edges (sweeps edges k) →
      Relaxed edges (rounds edges first n (sweeps edges k)) ∧ Supported edges (rounds edges first n (sweeps edges k))
  | 0, k, hk, hsup => by
    refine ⟨?_, hsup⟩
    intro e he
    unfold rounds
    cases k with
    | zero => have h1 := hk e he; have h2 := hr e he; omega
    | succ k =>
      have h1 : rank e.2.1 ≤ k := by have h1 := hk e he; have h2 := hr e he; omega
      rw [settled hr e.2.1 k h1]
      exact sweep_edge edges _ e he
  | n + 1, k, hk, hsup => by
    obtain ⟨f1, f2, f3⟩ := foldl_view (edges := edges) hs ⟨sweeps edges k, first, sweeps edges k first, false⟩ (fun _ => rfl)
    have hv0 : FB.view (α := α) ⟨sweeps edges k, first, sweeps edges k first, false⟩ = sweeps edges k := by
      funext v; unfold FB.view set; simp only; split
      · rename_i h; rw [h]
      · rfl
    rw [hv0] at f1 f3
    unfold rounds
    simp only
    generalize edges.foldl relax ⟨sweeps edges k, first, sweeps edges k first, false⟩ = s at f1 f2 f3
    split
    · have : set s.pw s.cur s.weight = sweeps edges (k + 1) := f1
      rw [this]
      exact rounds_relaxed hs hr n (k + 1) (fun e he => by have := hk e he; omega)
        (sweep_supported edges _ (fun _ h => h) hsup)
    · rename_i hch
      rw [Bool.not_eq_true] at hch
      obtain ⟨-, c2, c3⟩ := f3 hch
      have hw := f2 hch
      have : s.pw = sweeps edges k := by
        rw [← c2]
        funext v
        unfold FB.view set
        split
        · rename_i h; rw [h, hw]
        · rfl
      rw [this]
      exact ⟨c3, hsup⟩

omit [AddCommGroup α] [LinearOrder α] [IsOrderedAddMonoid α] in
theorem mem_edges {nodes : List Nat} {weights : Nat → α} {par : Nat → List Nat} {e : Nat × Nat × α} :
    e ∈ edges nodes weights par ↔ e.2.1 ∈ nodes ∧ e.1 ∈ par e.2.1 ∧ e.1 ∈ nodes ∧ e.2.2 = weights e.1 := by
  unfold edges
  rw [(List.perm_insertionSort _ _).mem_iff, List.mem_flatMap]
  obtain ⟨f, s, w⟩ := e
  constructor
  · rintro ⟨s', hs', hm⟩
    rw [List.mem_map] at hm
    obtain ⟨f', hf', heq⟩ := hm
    simp only [Prod.mk.injEq] at heq
    obtain ⟨rfl, rfl, rfl⟩ := heq
    rw [List.mem_filter] at hf'
    exact ⟨hs', hf'.1, by simpa using hf'.2, rfl⟩
  · rintro ⟨h1, h2, h3, h4⟩
    simp only at h1 h2 h3 h4
    refine ⟨s, h1, List.mem_map.2 ⟨f, List.mem_filter.2 ⟨h2, by simpa using h3⟩, by rw [h4]⟩⟩

omit [IsOrderedAddMonoid α] in
theorem supported_zero (edges : List (Nat × Nat × α)) : Supported edges (sweeps edges 0) := fun _ => Or.inl rfl

theorem fordBellman_spec {nodes : List Nat} {par : Nat → List Nat} (hself : ∀ v ∈ nodes, v ∉ par v)
    (hord : OrderRespects (fun x y => y ∈ par x) nodes) (weights : Nat → α) :
    Relaxed (edges nodes weights par) (fordBellman nodes weights par) ∧
      Supported (edges nodes weights par) (fordBellman nodes weights par) := by
  unfold fordBellman
  cases he : edges nodes weights par with
  | nil => exact ⟨by intro e h; exact absurd h (List.not_mem_nil), fun _ => Or.inl rfl⟩
  | cons a es =>
    simp only
    have hm : ∀ e ∈ a :: es, e.2.1 ∈ nodes ∧ e.1 ∈ par e.2.1 ∧ e.1 ∈ nodes ∧ e.2.2 = weights e.1 := by
      intro e h
      rw [← he] at h
      exact mem_edges.1 h
    have hne : ∀ e ∈ a :: es, e.2.1 ≠ e.1 := by
      intro e h heq
      obtain ⟨h1, h2, -, -⟩ := hm e h
      rw [← heq] at h2
      exact hself _ h1 h2
    have hr : ∀ e ∈ a :: es, nodes.length - nodes.idxOf e.2.1 < nodes.length - nodes.idxOf e.1 := by
      intro e h
      obtain ⟨h1, h2, h3, -⟩ := hm e h
      have := idxOf_lt_of_respects hord h1 h3 (fun h' => hne e h h'.symm) h2
      have := List.idxOf_lt_length_iff.2 h1
      omega
    exact rounds_relaxed (rank := fun v => nodes.length - nodes.idxOf v) hne hr nodes.length 0
      (fun e _ => by simp) (supported_zero _)

theorem prioritizeNodes_spec {nodes : List Nat} {par : Nat → List Nat}
    (hself : ∀ v ∈ nodes, v ∉ par v) (hord : OrderRespects (fun x y => y ∈ par x) nodes) {cost : Nat → α}
    (hcost : ∀ v ∈ nodes, 0 ≤ cost v) :
    (prioritizeNodes cost par nodes).Perm nodes ∧ OrderRespects (fun x y => y ∈ par x) (prioritizeNodes cost par nodes) := by
  unfold prioritizeNodes
  split
  · exact ⟨List.Perm.refl _, hord⟩
  · refine ⟨List.perm_insertionSort _ _, insertionSort_respects _ nodes hord ?_⟩
    intro x hx y hy hxy
    have h := (fordBellman_spec hself hord (fun v => - cost v)).1 (y, x, - cost y)
      (mem_edges.2 ⟨hx, hxy, hy, rfl⟩)
    simp only at h
    refine le_trans h ?_
    rw [add_neg_le_iff_le_add]
    exact le_add_of_nonneg_right (hcost y hy)

end Heft

/-! ### LFT -/

namespace LFT

theorem foldl_min_le (l : List Int) : ∀ (a : Int), l.foldl min a ≤ a ∧ ∀ x ∈ l, l.foldl min a ≤ x := by
  induction l with
  | nil => intro a; exact ⟨le_refl _, by simp⟩
  | cons b l ih =>
    intro a
    obtain ⟨h1, h2⟩ := ih (min a b)
    rw [List.foldl_cons]
    refine ⟨by omega, ?_⟩
    intro x hx
    rw [List.mem_cons] at hx
    rcases hx with rfl | hx
    · omega
    · exact h2 x hx

theorem minDefault_le {l : List Int} {x : Int} (h : x ∈ l) : minDefault l ≤ x := by
  cases l with
  | nil => exact absurd h (List.not_mem_nil)
  | cons a l =>
    unfold minDefault
    obtain ⟨h1, h2⟩ := foldl_min_le l a
    rw [List.mem_cons] at h
    rcases h with rfl | h
    · exact h1
    · exact h2 x h

theorem latest_keys (chi : Nat → List Nat) (dur : Nat → Int) (total : Int) : ∀ l : List Nat,
    (latest chi dur total l).map (·.1) = l
  | [] => rfl
  | [v] => rfl
  | v :: w :: vs => by
    unfold latest
    simp only [List.map_cons]
    rw [latest_keys chi dur total (w :: vs)]

theorem lookup_cons_eq {β : Type} (m : List (Nat × β)) (v : Nat) (x : β) : ((v, x) :: m).lookup v = some x := by
  rw [List.lookup_cons]; simp

theorem lookup_cons_ne {β : Type} (m : List (Nat × β)) {u v : Nat} (x : β) (h : u ≠ v) :
    ((v, x) :: m).lookup u = m.lookup u := by
  have : (u == v) = false := by simpa using h
  rw [List.lookup_cons, this]

theorem lookup_isSome_of_mem {β : Type} {m : List (Nat × β)} {v : Nat} (h : v ∈ m.map (·.1)) : ∃ x, m.lookup v = some x := by
  induction m with
  | nil => simp at h
  | cons a m ih =>
    obtain ⟨k, x⟩ := a
    by_cases hk : v = k
    · subst hk; exact ⟨x, lookup_cons_eq _ _ _⟩
    · rw [List.map_cons, List.mem_cons] at h
      rcases h with h | h
      · exact absurd h hk
      · rw [lookup_cons_ne _ _ hk]; exact ih h

/-- Latest start is latest finish minus duration, and a work finishes not later than its children start. -/
theorem latest_spec {chi : Nat → List Nat} {dur : Nat → Int} (total : Int) : ∀ l : List Nat, l.Nodup →
    (∀ v p, (latest chi dur total l).lookup v = some p → p.2 = p.1 - dur v) ∧
    (∀ y x p q, l.idxOf y < l.idxOf x → x ∈ chi y → (latest chi dur total l).lookup y = some p →
      (latest chi dur total l).lookup x = some q → p.1 ≤ q.2)
  | [], _ => by simp [latest]
  | [v], _ => by
    constructor
    · intro u p h
      unfold latest at h
      by_cases hu : u = v
      · subst hu
        rw [lookup_cons_eq, Option.some.injEq] at h
        rw [← h]
      · rw [lookup_cons_ne _ _ hu] at h
        simp at h
    · intro y x p q hlt hx hy hx'
      unfold latest at hy hx'
      by_cases hyv : y = v
      · by_cases hxv : x = v
        · subst hyv; subst hxv; omega
        · rw [lookup_cons_ne _ _ hxv] at hx'
          simp at hx'
      · rw [lookup_cons_ne _ _ hyv] at hy
        simp at hy
  | v :: w :: vs, hn => by
    rw [List.nodup_cons] at hn
    obtain ⟨ih1, ih2⟩ := latest_spec (chi := chi) (dur := dur) total (w :: vs) hn.2
    unfold latest
    simp only
    constructor
    · intro u p h
      by_cases hu : u = v
      · subst hu
        rw [lookup_cons_eq, Option.some.injEq] at h
        rw [← h]
      · rw [lookup_cons_ne _ _ hu] at h
        exact ih1 u p h
    · intro y x p q hlt hx hy hx'
      have hxv : x ≠ v := by
        rintro rfl
        rw [List.idxOf_cons_self] at hlt
        omega
      rw [lookup_cons_ne _ _ hxv] at hx'
      by_cases hyv : y = v
      · subst hyv
        rw [lookup_cons_eq, Option.some.injEq] at hy
        rw [← hy]
        apply minDefault_le
        rw [List.mem_filterMap]
        exact ⟨x, hx, by rw [hx']; rfl⟩
      · rw [lookup_cons_ne _ _ hyv] at hy
        have hlt' : (w :: vs).idxOf y < (w :: vs).idxOf x := by
          rw [List.idxOf_cons_ne _ (Ne.symm hyv), List.idxOf_cons_ne _ (Ne.symm hxv)] at hlt
          omega
        exact ih2 y x p q hlt' hx hy hx'

theorem lft_le {chi par : Nat → List Nat} {dur : Nat → Int} {heads : List Nat} (hn : heads.Nodup)
    (hord : OrderRespects (fun x y => y ∈ par x) heads) (hself : ∀ v ∈ heads, v ∉ par v)
    (hinv : ∀ x ∈ heads, ∀ y ∈ heads, y ∈ par x → x ∈ chi y) (hdur : ∀ v ∈ heads, 0 ≤ dur v) {x y : Nat}
    (hx : x ∈ heads) (hy : y ∈ heads) (hxy : y ∈ par x) : lft chi dur heads y ≤ lft chi dur heads x := by
  have hne : y ≠ x := by rintro rfl; exact hself _ hx hxy
  have hlt := idxOf_lt_of_respects hord hx hy hne hxy
  obtain ⟨h1, h2⟩ := latest_spec (chi := chi) (dur := dur) ((heads.map dur).sum) heads hn
  obtain ⟨p, hp⟩ := lookup_isSome_of_mem (m := latest chi dur ((heads.map dur).sum) heads) (v := y)
    (by rw [latest_keys]; exact hy)
  obtain ⟨q, hq⟩ := lookup_isSome_of_mem (m := latest chi dur ((heads.map dur).sum) heads) (v := x)
    (by rw [latest_keys]; exact hx)
  have h3 := h2 y x p q hlt (hinv x hx y hy hxy) hp hq
  have h4 := h1 x q hq
  have h5 := hdur x hx
  unfold lft
  rw [hp, hq]
  simp only [Option.map_some, Option.getD_some]
  omega

/-! #### The randomized loop -/

theorem eligible_spec {par : Nat → List Nat} {prio : Nat → Int} {candidates selected el : List Nat}
    (h : eligible par prio candidates selected = some el) :
    (∀ v ∈ el, v ∈ candidates ∧ ∀ p ∈ par v, p ∈ selected) ∧
      ∀ v ∈ el, ∀ u ∈ candidates, (∀ p ∈ par u, p ∈ selected) → prio v ≤ prio u := by
  unfold eligible at h
  split at h
  · simp at h
  · rename_i v vs heq
    rw [Option.some.injEq] at h
    subst h
    have hmem : ∀ u, u ∈ v :: vs ↔ u ∈ candidates ∧ ∀ p ∈ par u, p ∈ selected := by
      intro u
      rw [← heq, List.mem_filter]
      simp
    constructor
    · intro u hu
      rw [List.mem_filter] at hu
      exact (hmem u).1 hu.1
    · intro u hu w hw hpw
      rw [List.mem_filter] at hu
      have hup : prio u = (vs.map prio).foldl min (prio v) := by simpa using hu.2
      have hw' := (hmem w).2 ⟨hw, hpw⟩
      obtain ⟨h1, h2⟩ := foldl_min_le (vs.map prio) (prio v)
      rw [hup]
      rw [List.mem_cons] at hw'
      rcases hw' with rfl | hw'
      · exact h1
      · exact h2 _ (List.mem_map.2 ⟨w, hw', rfl⟩)

theorem randomLoop_spec {par chi : Nat → List Nat} {prio : Nat → Int} {pick : Nat → Nat} :
    ∀ (fuel : Nat) (candidates order r : List Nat), randomLoop par chi prio pick fuel candidates order = some (some r) →
      (∀ l₁ v l₂, order = l₁ ++ v :: l₂ → ∀ p ∈ par v, p ∈ l₁) → ∀ l₁ v l₂, r = l₁ ++ v :: l₂ → ∀ p ∈ par v, p ∈ l₁
  | 0, candidates, order, r, h, ho => by
    unfold randomLoop at h
    split at h
    · simp only [Option.some.injEq] at h
      rw [← h]
      exact ho
    · simp at h
  | fuel + 1, candidates, order, r, h, ho => by
    unfold randomLoop at h
    split at h
    · simp only [Option.some.injEq] at h
      rw [← h]
      exact ho
    · split at h
      · simp at h
      · rename_i el hel
        split at h
        · simp at h
        · rename_i sel hsel
          refine randomLoop_spec fuel _ _ r h ?_
          intro l₁ v l₂ heq p hp
          obtain ⟨h1, -⟩ := eligible_spec hel
          have hs := (h1 sel (List.mem_of_getElem? hsel)).2
          rcases List.append_eq_append_iff.1 heq with ⟨as, h2, h3⟩ | ⟨as, h2, h3⟩
          · cases as with
            | nil =>
              simp only [List.nil_append, List.cons.injEq] at h3
              rw [List.append_nil] at h2
              rw [h2]
              rw [← h3.1] at hp
              exact hs p hp
            | cons a as =>
              have := congrArg List.length h3
              simp at this
          · cases as with
            | nil =>
              simp only [List.nil_append, List.cons.injEq] at h3
              rw [List.append_nil] at h2
              rw [← h2]
              rw [h3.1] at hp
              exact hs p hp
            | cons a as =>
              rw [List.cons_append, List.cons.injEq] at h3
              refine ho l₁ v as ?_ p hp
              rw [h2, h3.1]

theorem idxOf_lt_of_topo {par : Nat → List Nat} {order : List Nat}
    (ho : ∀ l₁ v l₂, order = l₁ ++ v :: l₂ → ∀ p ∈ par v, p ∈ l₁) {x y : Nat} (hx : x ∈ order) (hy : y ∈ par x) :
    order.idxOf y < order.idxOf x := by
  obtain ⟨as, bs, heq, hxa⟩ := List.eq_append_cons_of_mem hx
  have hya := ho as x bs heq y hy
  rw [heq, List.idxOf_append_of_mem hya, List.idxOf_append_of_notMem hxa]
  have := List.idxOf_lt_length_iff.2 hya
  omega

/-- What holds in every round of the randomized loop. -/
structure RandomInv (par : Nat → List Nat) (h : Nat) (heads candidates order : List Nat) : Prop where
  nodup : order.Nodup
  sub : ∀ v ∈ order, v ∈ heads
  cand : ∀ c ∈ candidates, c ∈ heads ∧ c ∉ order
  candNodup : candidates.Nodup
  complete : ∀ v ∈ heads, v ∉ order → (v = h ∨ ∃ p ∈ par v, p ∈ order) → v ∈ candidates
  topo : ∀ l₁ v l₂, order = l₁ ++ v :: l₂ → ∀ p ∈ par v, p ∈ l₁

section

variable {par chi : Nat → List Nat} {prio : Nat → Int} {h : Nat} {hs : List Nat}

/-- While something is not selected there is an eligible candidate. -/
theorem exists_eligible (hord : OrderRespects (fun x y => y ∈ par x) (h :: hs)) (hself : ∀ v ∈ h :: hs, v ∉ par v)
    (hpar : ∀ v ∈ h :: hs, ∀ p ∈ par v, p ∈ h :: hs) (hsrc : ∀ v ∈ hs, par v ≠ []) {candidates order : List Nat}
    (inv : RandomInv par h (h :: hs) candidates order) (hrest : ∃ v ∈ h :: hs, v ∉ order) :
    ∃ v ∈ candidates, ∀ p ∈ par v, p ∈ order := by
  have hmin : ∃ v ∈ h :: hs, v ∉ order ∧ ∀ u ∈ h :: hs, u ∉ order → (h :: hs).idxOf v ≤ (h :: hs).idxOf u := by
    by_contra hc
    push Not at hc
    have : ∀ n v, v ∈ h :: hs → v ∉ order → (h :: hs).idxOf v = n → False := by
      intro n
      induction n using Nat.strong_induction_on with
      | _ n ih =>
        intro v hv hvo hn
        obtain ⟨u, hu, huo, hlt⟩ := hc v hv hvo
        exact ih _ (by omega) u hu huo rfl
    obtain ⟨v, hv, hvo⟩ := hrest
    exact this _ v hv hvo rfl
  obtain ⟨v, hv, hvo, hm⟩ := hmin
  have hall : ∀ p ∈ par v, p ∈ order := by
    intro p hp
    by_contra hpo
    have h1 := hm p (hpar v hv p hp) hpo
    have h2 := idxOf_lt_of_respects hord hv (hpar v hv p hp) (by rintro rfl; exact hself _ hv hp) hp
    omega
  refine ⟨v, inv.complete v hv hvo ?_, hall⟩
  rw [List.mem_cons] at hv
  rcases hv with rfl | hv
  · exact Or.inl rfl
  · obtain ⟨p, hp⟩ := List.exists_mem_of_ne_nil _ (hsrc v hv)
    exact Or.inr ⟨p, hp, hall p hp⟩

theorem eligible_isSome {candidates order : List Nat} (he : ∃ v ∈ candidates, ∀ p ∈ par v, p ∈ order) :
    ∃ el, eligible par prio candidates order = some el ∧ el ≠ [] := by
  obtain ⟨v, hv, hp⟩ := he
  unfold eligible
  split
  · rename_i heq
    have : v ∈ candidates.filter fun v => (par v).all fun p => order.contains p := by
      rw [List.mem_filter]
      exact ⟨hv, by simpa using hp⟩
    rw [heq] at this
    exact absurd this (List.not_mem_nil)
  · rename_i a as heq
    refine ⟨_, rfl, ?_⟩
    have hex : ∃ u ∈ a :: as, prio u = (as.map prio).foldl min (prio a) := by
      have : ∀ (l : List Nat) (x : Nat), ∃ u ∈ x :: l, prio u = (l.map prio).foldl min (prio x) := by
        intro l
        induction l with
        | nil => intro x; exact ⟨x, List.mem_cons_self, rfl⟩
        | cons b l ih =>
          intro x
          rw [List.map_cons, List.foldl_cons]
          rcases le_total (prio x) (prio b) with hle | hle
          · rw [min_eq_left hle]
            obtain ⟨u, hu, he⟩ := ih x
            refine ⟨u, ?_, he⟩
            rw [List.mem_cons] at hu
            rcases hu with rfl | hu
            · exact List.mem_cons_self
            · exact List.mem_cons_of_mem _ (List.mem_cons_of_mem _ hu)
          · rw [min_eq_right hle]
            obtain ⟨u, hu, he⟩ := ih b
            exact ⟨u, List.mem_cons_of_mem _ hu, he⟩
      exact this as a
    obtain ⟨u, hu, he⟩ := hex
    exact List.ne_nil_of_mem (List.mem_filter.2 ⟨hu, by simpa using he⟩)

theorem RandomInv.select (hself : ∀ v ∈ h :: hs, v ∉ par v)
    (hchi : ∀ y ∈ h :: hs, ∀ x, x ∈ chi y ↔ x ∈ h :: hs ∧ y ∈ par x) {candidates order : List Nat}
    (inv : RandomInv par h (h :: hs) candidates order) {sel : Nat} (hsel : sel ∈ candidates)
    (hp : ∀ p ∈ par sel, p ∈ order) :
    RandomInv par h (h :: hs) (nextCandidates chi candidates sel) (order ++ [sel]) := by
  obtain ⟨hselh, hselo⟩ := inv.cand sel hsel
  have hmem : ∀ c, c ∈ nextCandidates chi candidates sel ↔ (c ≠ sel ∧ c ∈ candidates) ∨ c ∈ chi sel := by
    intro c
    unfold nextCandidates
    simp only [List.mem_append, List.mem_filter, List.mem_dedup, inv.candNodup.mem_erase_iff, decide_not,
      Bool.not_eq_eq_eq_not, Bool.not_true, decide_eq_false_iff_not]
    tauto
  constructor
  · rw [List.nodup_append]
    refine ⟨inv.nodup, by simp, ?_⟩
    intro a ha b hb
    rw [List.mem_singleton] at hb
    rintro rfl
    rw [hb] at ha
    exact hselo ha
  · intro v hv
    rw [List.mem_append, List.mem_singleton] at hv
    rcases hv with hv | rfl
    · exact inv.sub v hv
    · exact hselh
  · intro c hc
    rw [hmem] at hc
    rcases hc with ⟨hne, hc⟩ | hc
    · refine ⟨(inv.cand c hc).1, ?_⟩
      rw [List.mem_append, List.mem_singleton]
      rintro (h' | h')
      · exact (inv.cand c hc).2 h'
      · exact hne h'
    · obtain ⟨hch, hcp⟩ := (hchi sel hselh c).1 hc
      refine ⟨hch, ?_⟩
      rw [List.mem_append, List.mem_singleton]
      rintro (h' | rfl)
      · obtain ⟨as, bs, heq⟩ := List.append_of_mem h'
        have := inv.topo as c bs heq sel hcp
        apply hselo
        rw [heq]
        exact List.mem_append_left _ this
      · exact hself _ hch hcp
  · unfold nextCandidates
    simp only
    rw [List.nodup_append]
    refine ⟨inv.candNodup.erase _, (List.nodup_dedup _).filter _, ?_⟩
    intro a ha b hb hab
    rw [List.mem_filter] at hb
    have := hb.2
    simp only [decide_not, Bool.not_eq_eq_eq_not, Bool.not_true, decide_eq_false_iff_not] at this
    rw [hab] at ha
    exact this ha
  · intro v hv hvo hor
    rw [List.mem_append, List.mem_singleton, not_or] at hvo
    rw [hmem]
    rcases hor with rfl | ⟨p, hpv, hpo⟩
    · exact Or.inl ⟨hvo.2, inv.complete _ hv hvo.1 (Or.inl rfl)⟩
    · rw [List.mem_append, List.mem_singleton] at hpo
      rcases hpo with hpo | rfl
      · exact Or.inl ⟨hvo.2, inv.complete v hv hvo.1 (Or.inr ⟨p, hpv, hpo⟩)⟩
      · exact Or.inr ((hchi p hselh v).2 ⟨hv, hpv⟩)
  · intro l₁ v l₂ heq p hpv
    rcases List.append_eq_append_iff.1 heq with ⟨as, h2, h3⟩ | ⟨as, h2, h3⟩
    · cases as with
      | nil =>
        simp only [List.nil_append, List.cons.injEq] at h3
        rw [List.append_nil] at h2
        rw [h2]
        rw [← h3.1] at hpv
        exact hp p hpv
      | cons a as =>
        have := congrArg List.length h3
        simp at this
    · cases as with
      | nil =>
        simp only [List.nil_append, List.cons.injEq] at h3
        rw [List.append_nil] at h2
        rw [← h2]
        rw [h3.1] at hpv
        exact hp p hpv
      | cons a as =>
        rw [List.cons_append, List.cons.injEq] at h3
        refine inv.topo l₁ v as ?_ p hpv
        rw [h2, h3.1]

theorem randomLoop_total (hord : OrderRespects (fun x y => y ∈ par x) (h :: hs))
    (hself : ∀ v ∈ h :: hs, v ∉ par v) (hpar : ∀ v ∈ h :: hs, ∀ p ∈ par v, p ∈ h :: hs) (hsrc : ∀ v ∈ hs, par v ≠ [])
    (hchi : ∀ y ∈ h :: hs, ∀ x, x ∈ chi y ↔ x ∈ h :: hs ∧ y ∈ par x) (pick : Nat → Nat) :
    ∀ (fuel : Nat) (candidates order : List Nat), RandomInv par h (h :: hs) candidates order →
      (h :: hs).length ≤ fuel + order.length →
      ∃ r, randomLoop par chi prio pick fuel candidates order = some (some r) ∧ ∀ v ∈ h :: hs, v ∈ r := by
  have hdone : ∀ {candidates order : List Nat}, RandomInv par h (h :: hs) candidates order → candidates = [] →
      ∀ v ∈ h :: hs, v ∈ order := by
    intro candidates order inv hc v hv
    by_contra hvo
    obtain ⟨u, hu, -⟩ := exists_eligible hord hself hpar hsrc inv ⟨v, hv, hvo⟩
    rw [hc] at hu
    exact absurd hu (List.not_mem_nil)
  intro fuel
  induction fuel with
  | zero =>
    intro candidates order inv hlen
    have hc : candidates = [] := by
      by_contra hne
      obtain ⟨c, hc⟩ := List.exists_mem_of_ne_nil _ hne
      have hsub : (c :: order).Subperm (h :: hs) := by
        apply List.Nodup.subperm
        · rw [List.nodup_cons]
          exact ⟨(inv.cand c hc).2, inv.nodup⟩
        · intro x hx
          rw [List.mem_cons] at hx
          rcases hx with rfl | hx
          · exact (inv.cand x hc).1
          · exact inv.sub x hx
      have := hsub.length_le
      rw [List.length_cons] at this
      omega
    refine ⟨order, ?_, hdone inv hc⟩
    unfold randomLoop
    rw [hc]
    rfl
  | succ fuel ih =>
    intro candidates order inv hlen
    unfold randomLoop
    split
    · rename_i hc
      exact ⟨order, rfl, hdone inv (by simpa using hc)⟩
    · rename_i hc
      have hne : candidates ≠ [] := by simpa using hc
      obtain ⟨c, hcm⟩ := List.exists_mem_of_ne_nil _ hne
      obtain ⟨el, hel, hne'⟩ := eligible_isSome (prio := prio)
        (exists_eligible hord hself hpar hsrc inv ⟨c, inv.cand c hcm⟩)
      rw [hel]
      simp only
      have hlt : pick fuel % el.length < el.length := Nat.mod_lt _ (List.length_pos_iff.2 hne')
      rw [List.getElem?_eq_getElem hlt]
      simp only
      obtain ⟨h1, -⟩ := eligible_spec hel
      obtain ⟨hsc, hsp⟩ := h1 _ (List.getElem_mem hlt)
      exact ih _ _ (inv.select hself hchi hsc hsp) (by rw [List.length_append, List.length_singleton]; omega)

end

end LFT

end Sampo
