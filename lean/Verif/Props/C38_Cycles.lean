import Verif.Lemmas.CyclesWalk
import Verif.Spec.Cycles

/-!
# C38: elimination of cycles in the input
-/

namespace Sampo.C38

open Cycles

variable {edges : List (Nat × Nat × Option Int)} {fuel : Nat}

private theorem zip_tail_iff : ∀ (c : List Nat) (x y : Nat), (x, y) ∈ c.zip c.tail ↔ ∃ a b, c = a ++ x :: y :: b
  | [], x, y => by simp
  | [z], x, y => by
    simp only [List.tail_cons, List.zip_nil_right, List.not_mem_nil, false_iff, not_exists]
    intro a b h
    have := congrArg List.length h
    simp at this
    omega
  | z :: z' :: c, x, y => by
    rw [List.tail_cons, List.zip_cons_cons, List.mem_cons]
    have ih := zip_tail_iff (z' :: c) x y
    rw [List.tail_cons] at ih
    rw [ih]
    constructor
    · rintro (h | ⟨a, b, h⟩)
      · obtain ⟨rfl, rfl⟩ := Prod.mk.inj h
        exact ⟨[], c, rfl⟩
      · exact ⟨z :: a, b, by rw [h]; rfl⟩
    · rintro ⟨a, b, h⟩
      cases a with
      | nil =>
        obtain ⟨h1, h2⟩ := List.cons.inj h
        obtain ⟨h3, _⟩ := List.cons.inj h2
        exact Or.inl (by rw [h1, h3])
      | cons a0 a => exact Or.inr ⟨a, b, (List.cons.inj h).2⟩

private theorem closedWalk {c : List Nat} (h : Closed (build edges).adj c) : ClosedWalk edges c := by
  refine ⟨h.long, h.closed, fun a x y b hc => ?_⟩
  obtain ⟨w, hw⟩ := h.adj (x, y) ((zip_tail_iff c x y).mpr ⟨a, b, hc⟩)
  exact ⟨w, mem_build.mp hw⟩

private theorem lightest_of {g : Graph} {keep : Nat → Nat → Bool} (h : Keeps (build edges) g keep) {u v : Nat}
    (huv : EdgeTo edges u v) (hk : keep u v = false) : LightestOnCycle edges u v := by
  obtain ⟨w0, hw0⟩ := huv
  obtain ⟨c, c1, c2, w, c3, c4⟩ := h.2 u v ⟨w0, mem_build.mpr hw0⟩ hk
  exact ⟨c, w, closedWalk c1, (zip_tail_iff c u v).mp c2, mem_build.mp c3, fun a x y b w' hc hw' =>
    c4 (x, y) ((zip_tail_iff c x y).mpr ⟨a, b, hc⟩) w' (mem_build.mpr hw')⟩

private theorem run (hf : 5 * edges.length + 1 ≤ fuel) {cycles : List (List Nat)} {g : Graph}
    (h : eliminateCycles fuel (build edges) = some (some (cycles, g))) : ∃ keep, Keeps (build edges) g keep ∧
      (∀ x, ¬ Relation.TransGen (Adj g.adj) x x) ∧ ∀ x ∈ (build edges).keys, x ∈ g.keys := by
  obtain ⟨c', g', keep, h1, h2, h3, h4⟩ := eliminate_build edges hf
  rw [h1] at h
  obtain ⟨_, rfl⟩ := Prod.mk.inj (Option.some.inj (Option.some.inj h))
  exact ⟨keep, h3, h2, h4⟩

/-! ### The graph -/

/-- The elimination ends without an exception; the number of steps of each search is at most five for every edge and one. -/
theorem elimination_succeeds (edges : List (Nat × Nat × Option Int)) (hf : 5 * edges.length + 1 ≤ fuel) :
    ∃ cycles g, eliminateCycles fuel (build edges) = some (some (cycles, g)) := by
  obtain ⟨c, g, _, h, _⟩ := eliminate_build edges hf
  exact ⟨c, g, h⟩

/-- There is no cycle afterwards. -/
theorem result_acyclic (hf : 5 * edges.length + 1 ≤ fuel) {cycles : List (List Nat)} {g : Graph}
    (h : eliminateCycles fuel (build edges) = some (some (cycles, g))) :
    ∀ x, ¬ Relation.TransGen (fun u v => ∃ w, (v, w) ∈ g.adj u) x x := by
  obtain ⟨_, _, h2, _⟩ := run hf h
  exact h2

/-- The result is a part of the input: the neighbours of a vertex are, in the order in which they were given, those of the
edges that were not removed.  Edges are removed together with all others of the same direction between the same vertexes. -/
theorem result_is_part (hf : 5 * edges.length + 1 ≤ fuel) {cycles : List (List Nat)} {g : Graph}
    (h : eliminateCycles fuel (build edges) = some (some (cycles, g))) :
    ∃ kept : Nat → Nat → Bool, ∀ u, g.adj u = (edges.filter fun e => e.1 = u ∧ kept u e.2.1).map (·.2) := by
  obtain ⟨keep, h1, _, _⟩ := run hf h
  refine ⟨keep, fun u => ?_⟩
  rw [h1.1 u, build_adj, List.filter_map, List.filter_filter]
  congr 1
  apply List.filter_congr
  intro e _
  simp [Function.comp, Bool.and_comm]

/-- Whatever is removed was an edge of the smallest weight of a closed walk in the input. -/
theorem removed_on_cycle (hf : 5 * edges.length + 1 ≤ fuel) {cycles : List (List Nat)} {g : Graph}
    (h : eliminateCycles fuel (build edges) = some (some (cycles, g))) {u v : Nat} {w : Option Int}
    (he : (u, v, w) ∈ edges) (hr : (v, w) ∉ g.adj u) : LightestOnCycle edges u v := by
  obtain ⟨keep, h1, _, _⟩ := run hf h
  refine lightest_of h1 ⟨w, he⟩ ?_
  cases hk : keep u v with
  | false => rfl
  | true => exact absurd (h1.mem.mpr ⟨mem_build.mpr he, hk⟩) hr

private theorem closed_trans {c : List Nat} (h : ClosedWalk edges c) : ∃ x, Relation.TransGen (EdgeTo edges) x x := by
  obtain ⟨h1, h2, h3⟩ := h
  have key : ∀ (c : List Nat) (x : Nat), (∀ a x y b, c = a ++ x :: y :: b → EdgeTo edges x y) → c ≠ [] →
      ∀ z, EdgeTo edges x z → c.head? = some z → ∀ l, c.getLast? = some l → Relation.TransGen (EdgeTo edges) x l := by
    intro c
    induction c with
    | nil => intro _ _ h; exact absurd rfl h
    | cons y c ih =>
      intro x hc _ z hxz hz l hl
      obtain rfl : y = z := by simpa using hz
      cases c with
      | nil =>
        obtain rfl : y = l := by simpa using hl
        exact Relation.TransGen.single hxz
      | cons y' c =>
        refine Relation.TransGen.head hxz (ih y (fun a x z b he => hc (y :: a) x z b (by rw [he]; rfl)) (by simp) y'
          (hc [] y y' c rfl) rfl l ?_)
        rwa [List.getLast?_cons_cons] at hl
  match c, h1 with
  | x :: y :: c, _ =>
    refine ⟨x, key (y :: c) x (fun a u z b he => h3 (x :: a) u z b (by rw [he]; rfl)) (by simp) y (h3 [] x y c rfl) rfl x ?_⟩
    rw [List.getLast?_cons_cons] at h2
    rw [← h2]; rfl

/-- A graph without a cycle is not changed. -/
theorem acyclic_unchanged (hf : 5 * edges.length + 1 ≤ fuel) {cycles : List (List Nat)} {g : Graph}
    (h : eliminateCycles fuel (build edges) = some (some (cycles, g)))
    (hac : ∀ x, ¬ Relation.TransGen (EdgeTo edges) x x) (u : Nat) :
    g.adj u = (edges.filter fun e => e.1 = u).map (·.2) := by
  obtain ⟨keep, h1, _, _⟩ := run hf h
  rw [h1.1 u, ← build_adj, List.filter_eq_self]
  intro n hn
  by_contra hk
  obtain ⟨c, _, hc, _⟩ := lightest_of h1 (u := u) (v := n.1) ⟨n.2, mem_build.mp hn⟩ (by simpa using hk)
  obtain ⟨x, hx⟩ := closed_trans hc
  exact hac x hx

/-! ### The table -/

variable {α : Type}

private theorem mem_rowEdges {rows : List (Row α)} {u v : Nat} {w : Option Int} :
    (u, v, w) ∈ rowEdges rows ↔ ∃ r ∈ rows, r.id = v ∧ ∃ p ∈ r.preds, p.1 = some u ∧ p.2.2 = w := by
  unfold rowEdges
  simp only [List.mem_flatMap, List.mem_filterMap, Option.map_eq_some_iff, Prod.mk.injEq]
  constructor
  · rintro ⟨r, hr, p, hp, x, hx, rfl, rfl, rfl⟩
    exact ⟨r, hr, rfl, p, hp, hx, rfl⟩
  · rintro ⟨r, hr, rfl, p, hp, hx, rfl⟩
    exact ⟨r, hr, p, hp, u, hx, rfl, rfl, rfl⟩

private theorem break_run {rows : List (Row α)} (hf : 5 * (rowEdges rows).length + 1 ≤ fuel) :
    ∃ g keep, Keeps (build (rowEdges rows)) g keep ∧ (∀ x, ¬ Relation.TransGen (Adj g.adj) x x) ∧
      breakLoops fuel rows = some (some (rows.map fun r => ⟨r.id, r.preds.filter fun p => match p.1 with
        | none => true
        | some pred => keep pred r.id⟩)) := by
  obtain ⟨c, g, keep, h1, h2, h3, h4⟩ := eliminate_build (rowEdges rows) hf
  refine ⟨g, keep, h3, h2, ?_⟩
  unfold breakLoops
  rw [h1]
  simp only [Option.map_some, Option.some.injEq]
  apply List.map_congr_left
  intro r hr
  simp only [Row.mk.injEq, true_and]
  apply List.filter_congr
  intro p hp
  cases hpp : p.1 with
  | none => rfl
  | some pred =>
    dsimp only
    have he : (pred, r.id, p.2.2) ∈ rowEdges rows := mem_rowEdges.mpr ⟨r, hr, rfl, p, hp, hpp, rfl⟩
    have hk : pred ∈ g.keys := h4 _ ((build_keys _ _).mpr ⟨_, he, rfl⟩)
    rw [Bool.eq_iff_iff]
    simp only [hk, not_true_eq_false, decide_false, Bool.false_or, List.any_eq_true, decide_eq_true_eq]
    constructor
    · rintro ⟨n, hn, hne⟩
      have := (h3.mem (w := n.2)).mp hn
      rw [hne] at this
      exact this.2
    · intro hkp
      exact ⟨(r.id, p.2.2), h3.mem.mpr ⟨mem_build.mpr he, hkp⟩, rfl⟩

/-- The work `v` has the predecessor `u` in the table. -/
def Precedes (rows : List (Row α)) (u v : Nat) : Prop := ∃ r ∈ rows, r.id = v ∧ ∃ p ∈ r.preds, p.1 = some u

/-- The table keeps its rows and in every row the order of the predecessors; between two works either all links given in the
table stay or none; '-1' stays; and no work precedes itself afterwards. -/
theorem table_acyclic (rows : List (Row α)) (hf : 5 * (rowEdges rows).length + 1 ≤ fuel) :
    ∃ rows', breakLoops fuel rows = some (some rows') ∧ (∀ x, ¬ Relation.TransGen (Precedes rows') x x) ∧
      ∃ kept : Nat → Nat → Bool, rows' = rows.map fun r => ⟨r.id, r.preds.filter fun p => p.1.all fun u => kept u r.id⟩ := by
  obtain ⟨g, keep, h1, h2, h3⟩ := break_run hf
  refine ⟨_, h3, fun x hx => h2 x (Relation.TransGen.mono (fun u v => ?_) x x hx), keep, ?_⟩
  · rintro ⟨r', hr', rfl, p, hp, hpu⟩
    obtain ⟨r, hr, rfl⟩ := List.mem_map.mp hr'
    obtain ⟨hp1, hp2⟩ := List.mem_filter.mp hp
    rw [hpu] at hp2
    exact ⟨p.2.2, h1.mem.mpr ⟨mem_build.mpr (mem_rowEdges.mpr ⟨r, hr, rfl, p, hp1, hpu, rfl⟩), hp2⟩⟩
  · apply List.map_congr_left
    intro r _
    simp only [Row.mk.injEq, true_and]
    apply List.filter_congr
    intro p _
    cases p.1 <;> rfl

/-- A link that disappears from a row was a link of the smallest count on a cycle of the table. -/
theorem table_removed_on_cycle {rows rows' : List (Row α)} (hf : 5 * (rowEdges rows).length + 1 ≤ fuel)
    (h : breakLoops fuel rows = some (some rows')) {u v : Nat} (huv : Precedes rows u v) (hr : ¬ Precedes rows' u v) :
    LightestOnCycle (rows.flatMap fun r => r.preds.filterMap fun p => p.1.map fun pred => (pred, r.id, p.2.2)) u v := by
  obtain ⟨g, keep, h1, _, h3⟩ := break_run hf
  rw [h3] at h
  obtain rfl := Option.some.inj (Option.some.inj h)
  obtain ⟨r, hrm, rfl, p, hp, hpu⟩ := huv
  refine lightest_of (edges := rowEdges rows) h1 ⟨p.2.2, mem_rowEdges.mpr ⟨r, hrm, rfl, p, hp, hpu, rfl⟩⟩ ?_
  cases hk : keep u r.id with
  | false => rfl
  | true =>
    exact absurd ⟨_, List.mem_map.mpr ⟨r, hrm, rfl⟩, rfl, p, List.mem_filter.mpr ⟨hp, by rw [hpu]; exact hk⟩, hpu⟩ hr

/-- A table without a cycle is not changed. -/
theorem acyclic_table_unchanged (rows : List (Row α)) (hf : 5 * (rowEdges rows).length + 1 ≤ fuel)
    (hac : ∀ x, ¬ Relation.TransGen (Precedes rows) x x) : breakLoops fuel rows = some (some rows) := by
  obtain ⟨g, keep, h1, _, h3⟩ := break_run hf
  rw [h3, Option.some.injEq, Option.some.injEq]
  conv_rhs => rw [← List.map_id rows]
  apply List.map_congr_left
  intro r hr
  rw [id]
  have : (r.preds.filter fun p => match p.1 with
        | none => true
        | some pred => keep pred r.id) = r.preds := by
    rw [List.filter_eq_self]
    intro p hp
    cases hpp : p.1 with
    | none => rfl
    | some u =>
      dsimp only
      by_contra hk
      obtain ⟨c, _, hc, _⟩ := lightest_of h1 (u := u) (v := r.id)
        ⟨p.2.2, mem_rowEdges.mpr ⟨r, hr, rfl, p, hp, hpp, rfl⟩⟩ (by simpa using hk)
      obtain ⟨x, hx⟩ := closed_trans hc
      refine hac x (Relation.TransGen.mono (fun a b hab => ?_) x x hx)
      obtain ⟨w, hw⟩ := hab
      obtain ⟨r', hr', e1, p', hp', e2, _⟩ := mem_rowEdges.mp hw
      exact ⟨r', hr', e1, p', hp', e2⟩
  rw [this]

/-! ### A concrete case: two cycles through vertex 2, the edge without a weight counts as 1 -/

private def sampleEdges : List (Nat × Nat × Option Int) :=
  [(1, 2, some 5), (2, 3, none), (3, 1, some 4), (2, 4, some 7), (4, 2, some 3), (4, 2, some 9), (5, 1, some 1)]

private def sample : Option (List (List Nat) × List (Nat × List Nat)) :=
  ((eliminateCycles 40 (build sampleEdges)).bind id).map fun r => (r.1, r.2.keys.map fun k => (k, (r.2.adj k).map (·.1)))

example : 5 * sampleEdges.length + 1 ≤ 40 := by decide

example : sample = some ([[2, 4, 2], [2, 3, 1, 2]], [(1, [2]), (2, [4]), (3, [1]), (4, []), (5, [1])]) := by decide +kernel

private def sampleRows : List (Row String) :=
  [⟨1, [(none, "FS", none)]⟩, ⟨2, [(some 1, "FS", some 3), (some 3, "SS", some 2)]⟩, ⟨3, [(some 2, "FF", none), (some 1, "FS", some 1)]⟩]

example : (((breakLoops 40 sampleRows).bind id).map fun rows => rows.map fun r => (r.id, r.preds.map (·.1))) =
    some [(1, [none]), (2, [some 1, some 3]), (3, [some 1])] := by decide +kernel

end Sampo.C38
