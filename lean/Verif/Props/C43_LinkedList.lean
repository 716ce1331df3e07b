import Verif.Lemmas.LinkedList

/-!
# C43: linked list removal and append

Removal is right, for every list that was made from a sequence and for conditions that keep a state, as the genetic scheduler's.
Appending after the last element was removed loses the new element, and iterating leaves out the last element.
-/

namespace Sampo.C43

open Linked

private theorem ofList_holds {α : Type} (vs : List α) : ∃ l xs, ofList vs = some l ∧ Holds l xs ∧ TailOk l xs ∧ xs.map (·.2) = vs := by
  unfold ofList
  have key : ∀ (vs : List α) {l : LList α} {xs : List (Nat × α)}, Holds l xs → TailOk l xs →
      ∃ l' xs', vs.foldl (fun l v => l.bind fun l => append l v) (some l) = some l' ∧ Holds l' xs' ∧ TailOk l' xs' ∧
        xs'.map (·.2) = xs.map (·.2) ++ vs := by
    intro vs
    induction vs with
    | nil => intro l xs h ht; exact ⟨l, xs, rfl, h, ht, by simp⟩
    | cons v vs ih =>
      intro l xs h ht
      obtain ⟨l1, h1, h2, h3⟩ := append_holds h ht v
      obtain ⟨l', xs', e1, e2, e3, e4⟩ := ih h2 h3
      refine ⟨l', xs', ?_, e2, e3, by rw [e4]; simp⟩
      rw [List.foldl_cons, Option.bind_some, h1]; exact e1
  obtain ⟨l', xs', e1, e2, e3, e4⟩ := key vs (l := empty) (xs := []) ⟨.nil, rfl⟩ (by intro x hx; simp at hx)
  exact ⟨l', xs', e1, e2, e3, by simpa using e4⟩

/-- A list made from a sequence contains the sequence and has its length. -/
theorem made {α : Type} (vs : List α) : ∃ l, ofList vs = some l ∧ values l = some vs ∧ l.len = vs.length := by
  obtain ⟨l, xs, h1, h2, _, h3⟩ := ofList_holds vs
  exact ⟨l, h1, by rw [values_holds h2, h3], by rw [h2.2, ← h3]; simp⟩

/-- Repeated removal: any number of removals by conditions that share a state, from a list made from a sequence, keep exactly the
elements the conditions let pass, in order; each condition is asked once about each element still in the list, in order; the
length is right. -/
theorem removals {α σ : Type} [DecidableEq α] (vs : List α) (conds : List (σ → α → σ × Bool)) (s : σ) {l0 : LList α}
    (h0 : ofList vs = some l0) :
    ∃ l, conds.foldl (fun r cond => r.bind fun p : LList α × σ => (removeIf cond p.1 p.2).bind id) (some (l0, s)) =
        some (l, (conds.foldl (fun (p : List α × σ) cond => sieve cond p.2 p.1) (vs, s)).2) ∧
      values l = some (conds.foldl (fun (p : List α × σ) cond => sieve cond p.2 p.1) (vs, s)).1 ∧
      l.len = (conds.foldl (fun (p : List α × σ) cond => sieve cond p.2 p.1) (vs, s)).1.length := by
  obtain ⟨l, xs, h1, h2, _, h3⟩ := ofList_holds vs
  rw [h0] at h1; cases h1
  have key : ∀ (conds : List (σ → α → σ × Bool)) (l0 : LList α) (xs : List (Nat × α)) (s : σ), Holds l0 xs →
      ∃ l ys, conds.foldl (fun r cond => r.bind fun p : LList α × σ => (removeIf cond p.1 p.2).bind id) (some (l0, s)) =
        some (l, (conds.foldl (fun (p : List α × σ) cond => sieve cond p.2 p.1) (xs.map (·.2), s)).2) ∧ Holds l ys ∧
        ys.map (·.2) = (conds.foldl (fun (p : List α × σ) cond => sieve cond p.2 p.1) (xs.map (·.2), s)).1 := by
    intro conds
    induction conds with
    | nil => intro l0 xs s h; exact ⟨l0, xs, rfl, h, rfl⟩
    | cons c cs ih =>
      intro l0 xs s h
      obtain ⟨l', ys, e1, e2, e3, _⟩ := removeIf_spec c h s
      obtain ⟨l, zs, f1, f2, f3⟩ := ih l' ys (sieve c s (xs.map (·.2))).2 e2
      rw [e3] at f1 f3
      refine ⟨l, zs, ?_, f2, f3⟩
      rw [List.foldl_cons, Option.bind_some, e1]
      exact f1
  obtain ⟨l, ys, f1, f2, f3⟩ := key conds l0 xs s h2
  rw [h3] at f1 f3
  exact ⟨l, f1, by rw [values_holds f2, f3], by rw [f2.2, ← f3]; simp⟩

/-- Partial: after any sequence of appends and removals, each of which keeps the last element or keeps nothing, the list contains
what it should, has that length, and the next operation succeeds.  Missing: appends after a removal of the last element
(`append_lost`). -/
theorem operations_partial {α : Type} [DecidableEq α] {vs : List α} {l : LList α} (h : Runs vs l) :
    values l = some vs ∧ l.len = vs.length ∧ ∀ op : Op α, ∃ l', op.run l = some l' := by
  suffices hs : ∃ xs, Holds l xs ∧ TailOk l xs ∧ xs.map (·.2) = vs by
    obtain ⟨xs, h1, h2, rfl⟩ := hs
    refine ⟨values_holds h1, by rw [h1.2]; simp, fun op => ?_⟩
    cases op with
    | append v => obtain ⟨l', h3, _⟩ := append_holds h1 h2 v; exact ⟨l', h3⟩
    | removeIf p =>
      obtain ⟨l', ys, e1, _⟩ := removeIf_spec (fun (_ : Unit) v => ((), p v)) h1 ()
      exact ⟨l', by show ((Linked.removeIf (fun (_ : Unit) v => ((), p v)) l ()).bind id).map (·.1) = _; rw [e1]; rfl⟩
  induction h with
  | start => exact ⟨[], ⟨.nil, rfl⟩, by intro x hx; simp at hx, rfl⟩
  | step hr hk hrun ih =>
    rename_i vs l l' op
    obtain ⟨xs, h1, h2, rfl⟩ := ih
    cases op with
    | append v =>
      obtain ⟨l1, e1, e2, e3⟩ := append_holds h1 h2 v
      change Linked.append l v = some l' at hrun
      rw [e1] at hrun; cases hrun
      exact ⟨_, e2, e3, by simp [Op.effect]⟩
    | removeIf p =>
      obtain ⟨l1, ys, e1, e2, e3, e4, e5, e6, e7⟩ := removeIf_spec (fun (_ : Unit) v => ((), p v)) h1 ()
      change ((Linked.removeIf (fun (_ : Unit) v => ((), p v)) l ()).bind id).map (·.1) = some l' at hrun
      rw [e1] at hrun
      cases hrun
      have hsieve : ∀ zs : List α, (sieve (fun (_ : Unit) v => ((), p v)) () zs).1 = zs.filter fun v => !p v := by
        intro zs
        induction zs with
        | nil => rfl
        | cons z zs ih =>
          rw [sieve_cons]
          dsimp only
          rw [ih]
          cases hz : p z <;> simp [hz]
      rw [hsieve] at e3
      refine ⟨ys, e2, ?_, e3⟩
      intro y hy
      dsimp only
      rw [e4]
      rcases hk with hall | hlast
      · exfalso
        have hymem : y.2 ∈ ys.map (·.2) := List.mem_map_of_mem (List.mem_of_getLast? hy)
        rw [e3, List.mem_filter] at hymem
        have := hall y.2 hymem.1
        simp [this] at hymem
      · cases hx : xs.getLast? with
        | none =>
          have : xs = [] := by simpa using hx
          subst this
          have := e6 y (List.mem_of_getLast? hy)
          simp at this
        | some x =>
          have hpx := hlast x.2 (by rw [List.getLast?_map, hx]; rfl)
          have hxin : x ∈ ys := e7 x (List.mem_of_getLast? hx) fun _ => hpx
          have := e5 x hx hxin
          rw [this] at hy; cases hy
          exact h2 _ hx

/-- Not proved because false: "after removals a list accepts new elements".  If the last element was removed, an appended element
is counted but is not in the list. -/
theorem append_lost : ∃ (l : LList Nat) (l1 : LList Nat) (l2 : LList Nat), ofList [1, 2] = some l ∧
    (Op.removeIf fun v => v == 2).run l = some l1 ∧ (Op.append 3).run l1 = some l2 ∧ values l1 = some [1] ∧ values l2 = some [1] ∧
    l2.len = 2 := ⟨_, _, _, rfl, rfl, rfl, rfl, rfl, rfl⟩

/-- Not proved because false: "iterating yields all elements".  It always leaves out the last one. -/
theorem iteration_incomplete {α : Type} (vs : List α) (h : vs ≠ []) {l : LList α} (hl : ofList vs = some l) :
    iterate l = some (some vs.dropLast) := by
  obtain ⟨l', xs, h1, h2, _, h3⟩ := ofList_holds vs
  rw [hl] at h1; cases h1
  have hne : xs ≠ [] := by rintro rfl; exact h h3.symm
  unfold iterate
  rw [iterLoop_chain h2.1 hne (by have := h2.1.length_le; omega), h3]

/-- Not proved because false: "an empty list can be iterated". -/
theorem empty_iteration_fails : iterate (empty : LList Nat) = some none := rfl

/-- The hypotheses are met: three numbers, an odd one removed, one appended, everything removed, one appended. -/
example : ∃ l : LList Nat, Runs [7] l := by
  have h0 := Runs.start (α := Nat)
  have h1 := h0.step (op := .append 1) trivial rfl
  have h2 := h1.step (op := .append 4) trivial rfl
  have h3 := h2.step (op := .removeIf fun v => v % 2 == 1) (Or.inr (by intro v hv; cases hv; rfl)) rfl
  have h4 := h3.step (op := .append 6) trivial rfl
  have h5 := h4.step (op := .removeIf fun _ => true) (Or.inl fun _ _ => rfl) rfl
  exact ⟨_, h5.step (op := .append 7) trivial rfl⟩

/-- A condition with a state: at most two elements are taken, as the genetic scheduler takes no more works than it can place. -/
example : ∃ l0 l : LList Nat, ofList [5, 1, 4, 3] = some l0 ∧
    (removeIf (fun (n : Nat) v => if n < 2 ∧ 3 < v then (n + 1, true) else (n, false)) l0 0) = some (some (l, 2)) ∧
    values l = some [1, 3] := ⟨_, _, rfl, rfl, rfl⟩

end Sampo.C43
