import Verif.Model.Cycles
import Verif.Spec.Order
import Mathlib.Algebra.BigOperators.Group.List.Basic
import Mathlib.Algebra.Order.BigOperators.Group.List

/-!
# Lemmas about the elimination of cycles
-/

namespace Sampo.Cycles

/-- There is an edge. -/
def Adj (adj : Nat → List (Nat × Option Int)) (u v : Nat) : Prop := ∃ w, (v, w) ∈ adj u

variable {adj : Nat → List (Nat × Option Int)}

/-! ### The search for a cycle

The stack is considered with marks: `true` for a vertex that is grey and waits for its end. -/

/-- The grey vertex next to the top. -/
def near : List (Bool × Nat) → Option Nat
  | [] => none
  | (true, v) :: _ => some v
  | (false, _) :: st => near st

/-- Every vertex on the stack is a neighbour of the grey one next below it. -/
def Chained (adj : Nat → List (Nat × Option Int)) : List (Bool × Nat) → Prop
  | [] => True
  | e :: st => (∀ u, near st = some u → Adj adj u e.2) ∧ Chained adj st

/-- The neighbours of a grey vertex are black or above it; it is itself not above. -/
def Marked (adj : Nat → List (Nat × Option Int)) (vis : Nat → Nat) : List Nat → List (Bool × Nat) → Prop
  | _, [] => True
  | above, (false, v) :: st => Marked adj vis (v :: above) st
  | above, (true, v) :: st => v ∉ above ∧ (∀ n, Adj adj v n → vis n = 2 ∨ n ∈ above) ∧ Marked adj vis (v :: above) st

theorem Marked.change {vis vis' : Nat → Nat} (hv : ∀ x, vis x = 2 → vis' x = 2) : ∀ {st : List (Bool × Nat)} {A B : List Nat},
    Marked adj vis A st → (∀ x ∈ A, x ∈ B ∨ vis' x = 2) → (∀ x ∈ B, x ∈ A ∨ (true, x) ∉ st) → Marked adj vis' B st
  | [], _, _, _, _, _ => trivial
  | (false, v) :: st, A, B, h, h1, h2 => by
    unfold Marked at h ⊢
    refine h.change hv ?_ ?_
    · intro x hx
      rcases List.mem_cons.mp hx with rfl | hx
      · exact Or.inl List.mem_cons_self
      · exact (h1 x hx).imp (List.mem_cons_of_mem _) id
    · intro x hx
      rcases List.mem_cons.mp hx with rfl | hx
      · exact Or.inl List.mem_cons_self
      · exact (h2 x hx).imp (List.mem_cons_of_mem _) fun h k => h (List.mem_cons_of_mem _ k)
  | (true, v) :: st, A, B, h, h1, h2 => by
    unfold Marked at h ⊢
    refine ⟨fun hb => ?_, fun n hn => ?_, h.2.2.change hv ?_ ?_⟩
    · rcases h2 v hb with h3 | h3
      · exact h.1 h3
      · exact h3 List.mem_cons_self
    · rcases h.2.1 n hn with h3 | h3
      · exact Or.inl (hv n h3)
      · rcases h1 n h3 with h4 | h4
        · exact Or.inr h4
        · exact Or.inl h4
    · intro x hx
      rcases List.mem_cons.mp hx with rfl | hx
      · exact Or.inl List.mem_cons_self
      · exact (h1 x hx).imp (List.mem_cons_of_mem _) id
    · intro x hx
      rcases List.mem_cons.mp hx with rfl | hx
      · exact Or.inl List.mem_cons_self
      · exact (h2 x hx).imp (List.mem_cons_of_mem _) fun h k => h (List.mem_cons_of_mem _ k)

theorem Marked.not_above {vis : Nat → Nat} {v : Nat} : ∀ {st : List (Bool × Nat)} {A : List Nat},
    Marked adj vis A st → (true, v) ∈ st → v ∉ A
  | (false, u) :: st, A, h, hm => by
    unfold Marked at h
    rcases List.mem_cons.mp hm with hm | hm
    · cases hm
    · exact fun ha => h.not_above hm (List.mem_cons_of_mem _ ha)
  | (true, u) :: st, A, h, hm => by
    unfold Marked at h
    rcases List.mem_cons.mp hm with hm | hm
    · cases hm; exact h.1
    · exact fun ha => h.2.2.not_above hm (List.mem_cons_of_mem _ ha)

theorem Marked.push {vis : Nat → Nat} {st : List (Bool × Nat)} : ∀ {P A : List Nat}, Marked adj vis (P.reverse ++ A) st →
    Marked adj vis A (P.map (fun v => (false, v)) ++ st)
  | [], _, h => h
  | v :: P, A, h => by
    rw [List.map_cons, List.cons_append]
    unfold Marked
    apply Marked.push
    simpa using h

/-- The invariant of the search. -/
structure DInv (adj : Nat → List (Nat × Option Int)) (vis : Nat → Nat) (st : List (Bool × Nat)) : Prop where
  range : ∀ v, vis v ≤ 2
  grey : ∀ v, vis v = 1 ↔ (true, v) ∈ st
  marked : Marked adj vis [] st
  chained : Chained adj st
  black : ∀ v, vis v = 2 → ∀ n, Adj adj v n → vis n = 2
  acyclic : ∀ v, vis v = 2 → ¬ Relation.TransGen (Adj adj) v v

theorem push_some {vis : Nat → Nat} : ∀ {ns : List (Nat × Option Int)} {stack stack' : List Nat},
    push vis ns stack = some stack' → ∃ P, stack' = P ++ stack ∧ P.length ≤ ns.length ∧ (∀ v ∈ P, vis v = 0 ∧ ∃ w, (v, w) ∈ ns) ∧
      ∀ n ∈ ns, vis n.1 ≠ 1 ∧ (vis n.1 = 0 → n.1 ∈ P)
  | [], stack, stack', h => ⟨[], by rw [← Option.some.inj h]; rfl, le_refl _, by simp, by simp⟩
  | (n, w) :: ns, stack, stack', h => by
    unfold push at h
    by_cases h0 : vis n = 0
    · rw [if_pos h0] at h
      obtain ⟨P, rfl, h1, h2, h3⟩ := push_some h
      refine ⟨P ++ [n], by simp, by simp; omega, ?_, ?_⟩
      · intro v hv
        rcases List.mem_append.mp hv with hv | hv
        · obtain ⟨h4, w', h5⟩ := h2 v hv
          exact ⟨h4, w', List.mem_cons_of_mem _ h5⟩
        · rw [List.mem_singleton.mp hv]; exact ⟨h0, w, List.mem_cons_self⟩
      · intro x hx
        rcases List.mem_cons.mp hx with rfl | hx
        · exact ⟨by dsimp only; omega, fun _ => by simp⟩
        · exact ⟨(h3 x hx).1, fun h => List.mem_append_left _ ((h3 x hx).2 h)⟩
    · rw [if_neg h0] at h
      by_cases h1 : vis n = 1
      · rw [if_pos h1] at h; cases h
      · rw [if_neg h1] at h
        obtain ⟨P, rfl, h4, h2, h3⟩ := push_some h
        refine ⟨P, rfl, by simp; omega, ?_, ?_⟩
        · intro v hv
          obtain ⟨h4, w', h5⟩ := h2 v hv
          exact ⟨h4, w', List.mem_cons_of_mem _ h5⟩
        · intro x hx
          rcases List.mem_cons.mp hx with rfl | hx
          · exact ⟨h1, fun h => absurd h h0⟩
          · exact h3 x hx

theorem push_none {vis : Nat → Nat} : ∀ {ns : List (Nat × Option Int)} {stack : List Nat},
    push vis ns stack = none → ∃ n ∈ ns, vis n.1 = 1
  | (n, w) :: ns, stack, h => by
    unfold push at h
    by_cases h0 : vis n = 0
    · rw [if_pos h0] at h
      obtain ⟨x, h1, h2⟩ := push_none h
      exact ⟨x, List.mem_cons_of_mem _ h1, h2⟩
    · rw [if_neg h0] at h
      by_cases h1 : vis n = 1
      · exact ⟨(n, w), List.mem_cons_self, h1⟩
      · rw [if_neg h1] at h
        obtain ⟨x, h2, h3⟩ := push_none h
        exact ⟨x, List.mem_cons_of_mem _ h2, h3⟩

theorem Chained.push {t : Nat} {st : List (Bool × Nat)} (h : Chained adj ((true, t) :: st)) : ∀ {P : List Nat},
    (∀ v ∈ P, Adj adj t v) → Chained adj (P.map (fun v => (false, v)) ++ (true, t) :: st)
  | [], _ => h
  | v :: P, hP => by
    rw [List.map_cons, List.cons_append]
    unfold Chained
    refine ⟨fun u hu => ?_, h.push fun x hx => hP x (List.mem_cons_of_mem _ hx)⟩
    have hn : ∀ Q : List Nat, near (Q.map (fun v => (false, v)) ++ (true, t) :: st) = some t := by
      intro Q
      induction Q with
      | nil => rfl
      | cons q Q ih => exact ih
    rw [hn] at hu
    obtain rfl := Option.some.inj hu
    exact hP v List.mem_cons_self

/-- Below a grey vertex: every grey vertex has a grey neighbour. -/
theorem Chained.succ {vis : Nat → Nat} : ∀ {st : List (Bool × Nat)} {t : Nat}, Chained adj ((true, t) :: st) →
    vis t = 1 → (∀ v, (true, v) ∈ st → vis v = 1) → ∀ v, (true, v) ∈ st → ∃ n, Adj adj v n ∧ vis n = 1
  | st, t, h, ht, hg, v, hv => by
    induction st generalizing t with
    | nil => cases hv
    | cons e st ih =>
      obtain ⟨b, x⟩ := e
      cases b with
      | true =>
        have hx := hg x List.mem_cons_self
        have htx : Adj adj x t := h.1 x rfl
        rcases List.mem_cons.mp hv with hv | hv
        · cases hv; exact ⟨t, htx, ht⟩
        · exact ih x h.2 hx (fun y hy => hg y (List.mem_cons_of_mem _ hy)) hv
      | false =>
        rcases List.mem_cons.mp hv with hv | hv
        · cases hv
        · exact ih t ⟨h.1, h.2.2⟩ ht (fun y hy => hg y (List.mem_cons_of_mem _ hy)) hv

/-- The end of a grey vertex on top of the stack. -/
theorem DInv.pop_grey {vis : Nat → Nat} {st : List (Bool × Nat)} {t : Nat} (h : DInv adj vis ((true, t) :: st)) :
    DInv adj (Function.update vis t 2) st := by
  have ht : vis t = 1 := (h.grey t).mpr List.mem_cons_self
  have hm := h.marked
  unfold Marked at hm
  have hne : (true, t) ∉ st := fun hc => hm.2.2.not_above hc List.mem_cons_self
  have hkids : ∀ n, Adj adj t n → vis n = 2 := fun n hn => (hm.2.1 n hn).resolve_right (by simp)
  have hup : ∀ x, vis x = 2 → Function.update vis t 2 x = 2 := by
    intro x hx
    by_cases he : x = t
    · rw [he, Function.update_self]
    · rw [Function.update_of_ne he]; exact hx
  have hback : ∀ x, Function.update vis t 2 x = 2 → x = t ∨ vis x = 2 := by
    intro x hx
    by_cases he : x = t
    · exact Or.inl he
    · rw [Function.update_of_ne he] at hx; exact Or.inr hx
  have hstay : ∀ x y, Relation.ReflTransGen (Adj adj) x y → vis x = 2 → vis y = 2 := by
    intro x y hxy hx
    induction hxy with
    | refl => exact hx
    | tail _ hbc ih => exact h.black _ ih _ hbc
  constructor
  · intro v
    by_cases he : v = t
    · rw [he, Function.update_self]
    · rw [Function.update_of_ne he]; exact h.range v
  · intro v
    by_cases he : v = t
    · rw [he, Function.update_self]
      exact ⟨fun h => by omega, fun h => absurd h hne⟩
    · rw [Function.update_of_ne he, h.grey v, List.mem_cons]
      simp [he]
  · refine hm.2.2.change hup ?_ (by simp)
    intro x hx
    rw [List.mem_singleton.mp hx, Function.update_self]; exact Or.inr rfl
  · exact h.chained.2
  · intro v hv n hn
    rcases hback v hv with rfl | hv
    · exact hup n (hkids n hn)
    · exact hup n (h.black v hv n hn)
  · intro v hv hc
    rcases hback v hv with rfl | hv
    · obtain ⟨n, hn, hnv⟩ := Relation.TransGen.head'_iff.mp hc
      have := hstay n v hnv (hkids n hn)
      omega
    · exact h.acyclic v hv hc

/-- A vertex on top that is not grey and is dropped because it is black. -/
theorem DInv.pop_black {vis : Nat → Nat} {st : List (Bool × Nat)} {t : Nat} (h : DInv adj vis ((false, t) :: st))
    (ht : vis t = 2) : DInv adj vis st where
  range := h.range
  grey v := by rw [h.grey v, List.mem_cons]; simp
  marked := by
    have hm := h.marked
    unfold Marked at hm
    refine hm.change (fun _ h => h) ?_ (by simp)
    intro x hx
    rw [List.mem_singleton.mp hx]; exact Or.inr ht
  chained := h.chained.2
  black := h.black
  acyclic := h.acyclic

theorem DInv.top_enter {vis : Nat → Nat} {st : List (Bool × Nat)} {t : Nat} (h : DInv adj vis ((false, t) :: st)) : vis t ≠ 1 := by
  intro ht
  rcases List.mem_cons.mp ((h.grey t).mp ht) with h1 | h1
  · cases h1
  · have hm := h.marked
    unfold Marked at hm
    exact hm.not_above h1 List.mem_cons_self

/-- A white vertex becomes grey; its white neighbours are put on the stack. -/
theorem DInv.enter {vis : Nat → Nat} {st : List (Bool × Nat)} {t : Nat} (h : DInv adj vis ((false, t) :: st)) (ht : vis t = 0)
    {P : List Nat} (hP : ∀ v ∈ P, Function.update vis t 1 v = 0 ∧ Adj adj t v)
    (hn : ∀ n, Adj adj t n → Function.update vis t 1 n ≠ 1 ∧ (Function.update vis t 1 n = 0 → n ∈ P)) :
    DInv adj (Function.update vis t 1) (P.map (fun v => (false, v)) ++ (true, t) :: st) := by
  have hm := h.marked
  unfold Marked at hm
  have htP : t ∉ P := fun hc => by
    have := (hP t hc).1
    rw [Function.update_self] at this
    omega
  have hto : ∀ x, vis x = 2 → Function.update vis t 1 x = 2 := by
    intro x hx
    rw [Function.update_of_ne (by rintro rfl; omega)]; exact hx
  have hback : ∀ x, Function.update vis t 1 x = 2 → vis x = 2 := by
    intro x hx
    by_cases he : x = t
    · rw [he, Function.update_self] at hx; omega
    · rwa [Function.update_of_ne he] at hx
  have hgrey : ∀ v, Function.update vis t 1 v = 1 ↔ v = t ∨ (true, v) ∈ st := by
    intro v
    by_cases he : v = t
    · rw [he, Function.update_self]; simp
    · rw [Function.update_of_ne he, h.grey v, List.mem_cons]; simp [he]
  have hrange : ∀ v, Function.update vis t 1 v ≤ 2 := by
    intro v
    by_cases he : v = t
    · rw [he, Function.update_self]; omega
    · rw [Function.update_of_ne he]; exact h.range v
  refine ⟨hrange, ?_, ?_, ?_, ?_, ?_⟩
  · intro v
    rw [hgrey v, List.mem_append, List.mem_cons]
    simp
  · apply Marked.push
    rw [List.append_nil]
    unfold Marked
    refine ⟨by simpa using htP, fun n hn' => ?_, hm.change hto ?_ ?_⟩
    · obtain ⟨h1, h2⟩ := hn n hn'
      have := hrange n
      rcases Nat.lt_or_ge (Function.update vis t 1 n) 1 with h3 | h3
      · exact Or.inr (List.mem_reverse.mpr (h2 (by omega)))
      · exact Or.inl (by omega)
    · intro x hx
      rw [List.mem_singleton.mp hx]; exact Or.inl List.mem_cons_self
    · intro x hx
      rcases List.mem_cons.mp hx with rfl | hx
      · exact Or.inl List.mem_cons_self
      · right
        intro hc
        have h1 := (hP x (List.mem_reverse.mp hx)).1
        have h2 := (hgrey x).mpr (Or.inr hc)
        omega
  · exact Chained.push ⟨h.chained.1, h.chained.2⟩ fun v hv => (hP v hv).2
  · intro v hv n hn'
    exact hto n (h.black v (hback v hv) n hn')
  · intro v hv
    exact h.acyclic v (hback v hv)

theorem Graph.touch_adj (g : Graph) (v : Nat) : (g.touch v).adj = g.adj := by
  unfold Graph.touch; split <;> rfl

theorem Graph.touch_keys (g : Graph) (v x : Nat) : x ∈ (g.touch v).keys ↔ x ∈ g.keys ∨ x = v := by
  unfold Graph.touch
  split
  · rename_i h
    exact ⟨Or.inl, fun hx => hx.elim id fun he => he ▸ h⟩
  · simp

/-- The result of a search that starts with the invariant. -/
theorem dfs_spec : ∀ (fuel : Nat) (st : List (Bool × Nat)) (vis vis' : Nat → Nat) (g g' : Graph) (b : Bool),
    DInv g.adj vis st → dfsCycle fuel (st.map (·.2)) vis g = some (b, vis', g') →
    g'.adj = g.adj ∧ (∀ x ∈ g.keys, x ∈ g'.keys) ∧ (∀ v, vis v = 2 → vis' v = 2) ∧
      (b = true → (∀ v, vis' v = 1 → ∃ n, Adj g.adj v n ∧ vis' n = 1) ∧
        ∀ c k, st.getLast? = some (c, k) → (c = true ∨ st = [(false, k)] ∧ vis k = 0) → vis' k = 1) ∧
      (b = false → DInv g.adj vis' [] ∧ ∀ e ∈ st, vis' e.2 = 2)
  | fuel, [], vis, vis', g, g', b, hI, h => by
    have : some (false, vis, g) = some (b, vis', g') := by
      cases fuel <;> exact h
    obtain ⟨rfl, h1⟩ := Prod.mk.inj (Option.some.inj this)
    obtain ⟨rfl, rfl⟩ := Prod.mk.inj h1
    exact ⟨rfl, fun _ h => h, fun _ h => h, fun h => by (cases h), fun _ => ⟨hI, by simp⟩⟩
  | 0, _ :: _, _, _, _, _, _, _, h => by cases h
  | fuel + 1, (c, v) :: st, vis, vis', g, g', b, hI, h => by
    rw [List.map_cons] at h
    unfold dfsCycle at h
    dsimp only at h
    cases c with
    | true =>
      have hv : vis v = 1 := (hI.grey v).mpr List.mem_cons_self
      rw [if_pos hv] at h
      obtain ⟨h1, h2, h3, h4, h5⟩ := dfs_spec fuel st _ vis' g g' b hI.pop_grey h
      have hv2 : vis' v = 2 := h3 v (Function.update_self ..)
      refine ⟨h1, h2, fun x hx => h3 x ?_, fun hb => ⟨(h4 hb).1, ?_⟩, fun hb => ⟨(h5 hb).1, ?_⟩⟩
      · by_cases he : x = v
        · rw [he, Function.update_self]
        · rw [Function.update_of_ne he]; exact hx
      · intro c k hl hor
        cases st with
        | nil =>
          exfalso
          have : b = false := by
            have : some (false, Function.update vis v 2, g) = some (b, vis', g') := by cases fuel <;> exact h
            exact (Prod.mk.inj (Option.some.inj this)).1.symm
          rw [this] at hb; cases hb
        | cons e st' =>
          rw [List.getLast?_cons_cons] at hl
          refine (h4 hb).2 c k hl (Or.inl ?_)
          rcases hor with hor | ⟨hor, _⟩
          · exact hor
          · simp at hor
      · intro e he
        rcases List.mem_cons.mp he with rfl | he
        · exact hv2
        · exact (h5 hb).2 e he
    | false =>
      have hv1 : vis v ≠ 1 := hI.top_enter
      rw [if_neg hv1] at h
      by_cases hv2 : vis v = 2
      · rw [if_pos hv2] at h
        obtain ⟨h1, h2, h3, h4, h5⟩ := dfs_spec fuel st _ vis' g g' b (hI.pop_black hv2) h
        refine ⟨h1, h2, h3, fun hb => ⟨(h4 hb).1, ?_⟩, fun hb => ⟨(h5 hb).1, ?_⟩⟩
        · intro c k hl hor
          cases st with
          | nil =>
            obtain ⟨rfl, rfl⟩ := Prod.mk.inj (Option.some.inj hl)
            rcases hor with hor | ⟨_, hor⟩
            · cases hor
            · omega
          | cons e st' =>
            rw [List.getLast?_cons_cons] at hl
            refine (h4 hb).2 c k hl (Or.inl ?_)
            rcases hor with hor | ⟨hor, _⟩
            · exact hor
            · simp at hor
        · intro e he
          rcases List.mem_cons.mp he with rfl | he
          · exact h3 _ hv2
          · exact (h5 hb).2 e he
      · rw [if_neg hv2] at h
        have hv0 : vis v = 0 := by have := hI.range v; omega
        cases hp : push (Function.update vis v 1) (g.adj v) (v :: st.map (·.2)) with
        | none =>
          rw [hp] at h
          dsimp only at h
          obtain ⟨rfl, h1⟩ := Prod.mk.inj (Option.some.inj h)
          obtain ⟨rfl, rfl⟩ := Prod.mk.inj h1
          obtain ⟨n, hn, hn1⟩ := push_none hp
          have hgrey : ∀ x, Function.update vis v 1 x = 1 ↔ x = v ∨ (true, x) ∈ st := by
            intro x
            by_cases he : x = v
            · rw [he, Function.update_self]; simp
            · rw [Function.update_of_ne he, hI.grey x, List.mem_cons]; simp [he]
          refine ⟨g.touch_adj v, fun x hx => (g.touch_keys v x).mpr (Or.inl hx), ?_, fun _ => ⟨?_, ?_⟩, fun hb => by (cases hb)⟩
          · intro x hx
            rw [Function.update_of_ne (by rintro rfl; omega)]; exact hx
          · intro x hx
            rcases (hgrey x).mp hx with rfl | hx
            · exact ⟨n.1, ⟨n.2, hn⟩, hn1⟩
            · exact Chained.succ (t := v) ⟨hI.chained.1, hI.chained.2⟩ (Function.update_self ..)
                (fun y hy => (hgrey y).mpr (Or.inr hy)) x hx
          · intro c k hl hor
            rcases hor with rfl | ⟨hor, _⟩
            · have hm := List.mem_of_getLast? hl
              rcases List.mem_cons.mp hm with hm | hm
              · cases hm
              · exact (hgrey k).mpr (Or.inr hm)
            · have : v = k := by
                have := (List.cons.inj hor).1
                exact (Prod.mk.inj this).2
              rw [← this, Function.update_self]
        | some stack =>
          rw [hp] at h
          dsimp only at h
          obtain ⟨P, hs, _, hP, hn⟩ := push_some hp
          have hI' := hI.enter hv0 (P := P) (fun x hx => hP x hx) (by
            rintro n ⟨w, hw⟩
            exact hn (n, w) hw)
          have hst : stack = (P.map (fun x => (false, x)) ++ (true, v) :: st).map (·.2) := by
            rw [hs, List.map_append, List.map_map, List.map_cons]
            simp [Function.comp_def]
          rw [hst] at h
          rw [← g.touch_adj v] at hI'
          obtain ⟨h1, h2, h3, h4, h5⟩ := dfs_spec fuel _ _ vis' (g.touch v) g' b hI' h
          rw [g.touch_adj v] at h1 h4 h5
          refine ⟨h1, fun x hx => h2 x ((g.touch_keys v x).mpr (Or.inl hx)), fun x hx => h3 x ?_, fun hb => ⟨(h4 hb).1, ?_⟩,
            fun hb => ⟨(h5 hb).1, ?_⟩⟩
          · rw [Function.update_of_ne (by rintro rfl; omega)]; exact hx
          · intro c k hl hor
            refine (h4 hb).2 true k ?_ (Or.inl rfl)
            rw [List.getLast?_append_of_ne_nil _ (by simp)]
            cases st with
            | nil =>
              obtain ⟨_, rfl⟩ := Prod.mk.inj (Option.some.inj hl)
              rfl
            | cons e st' =>
              rw [List.getLast?_cons_cons] at hl ⊢
              rw [hl]
              rcases hor with rfl | ⟨hor, _⟩
              · rfl
              · simp at hor
          · intro e he
            rcases List.mem_cons.mp he with rfl | he
            · exact (h5 hb).2 (true, v) (by simp)
            · exact (h5 hb).2 e (by simp [he])

end Sampo.Cycles
