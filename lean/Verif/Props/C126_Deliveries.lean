import Verif.Model.Deliveries
import Mathlib.Data.List.Nodup

/-!
# C126: the record of deliveries
-/

namespace Sampo.C126
open Deliveries

variable {δ : Type}

/-- The deliveries of a material that were handed over in these calls, in their order, with lists as they were at the beginning. -/
def handed (memory : Nat → List δ) (name : Nat) (cs : List (Call δ)) : List δ :=
  cs.flatMap fun
    | .one n d => if n = name then [d] else []
    | .many n l => if n = name then memory l else []

/-- The lists handed over in these calls. -/
def lists (cs : List (Call δ)) : List Nat := cs.filterMap fun | .one _ _ => none | .many _ l => some l

private structure Inv (memory : Nat → List δ) (s : State δ) (cs : List (Call δ)) : Prop where
  inj : ∀ a b r, s.delivery a = some r → s.delivery b = some r → a = b
  lt : ∀ a r, s.delivery a = some r → r < s.next
  fresh : ∀ l ∈ lists cs, l < s.next ∧ (∀ a, s.delivery a ≠ some l) ∧ s.memory l = memory l
  once : (lists cs).Nodup

private theorem shown_add {s : State δ} (inj : ∀ a b r, s.delivery a = some r → s.delivery b = some r → a = b)
    (lt : ∀ a r, s.delivery a = some r → r < s.next) (n : Nat) (d : δ) (name : Nat) :
    (s.add n d).shown name = s.shown name ++ if n = name then [d] else [] := by
  unfold State.shown State.add
  cases hn : s.delivery n with
  | none =>
    by_cases h : n = name
    · subst h
      simp [hn]
    · have h' : name ≠ n := fun e => h e.symm
      simp only [Function.update_of_ne h', if_neg h, List.append_nil]
      cases hm : s.delivery name with
      | none => rfl
      | some r => exact Function.update_of_ne (Nat.ne_of_lt (lt _ _ hm)) _ _
  | some r =>
    by_cases h : n = name
    · subst h
      simp [hn]
    · rw [if_neg h, List.append_nil]
      dsimp only
      cases hm : s.delivery name with
      | none => rfl
      | some q =>
        refine Function.update_of_ne (fun e => h ?_) _ _
        subst e
        exact inj _ _ _ hn hm

private theorem shown_addAll {s : State δ} (inj : ∀ a b r, s.delivery a = some r → s.delivery b = some r → a = b) (n l name : Nat) :
    (s.addAll n l).shown name = s.shown name ++ if n = name then s.memory l else [] := by
  unfold State.shown State.addAll
  cases hn : s.delivery n with
  | none =>
    by_cases h : n = name
    · subst h
      simp [hn]
    · have h' : name ≠ n := fun e => h e.symm
      simp only [Function.update_of_ne h', if_neg h, List.append_nil]
  | some r =>
    by_cases h : n = name
    · subst h
      simp [hn]
    · rw [if_neg h, List.append_nil]
      dsimp only
      cases hm : s.delivery name with
      | none => rfl
      | some q =>
        refine Function.update_of_ne (fun e => h ?_) _ _
        subst e
        exact inj _ _ _ hn hm

private theorem inv_add {memory : Nat → List δ} {s : State δ} {cs : List (Call δ)} {n : Nat} {d : δ} (h : Inv memory s (.one n d :: cs)) :
    Inv memory (s.add n d) cs := by
  have hl : lists (.one n d :: cs) = lists cs := rfl
  obtain ⟨inj, lt, fresh, once⟩ := h
  rw [hl] at fresh once
  unfold State.add
  cases hn : s.delivery n with
  | none =>
    refine ⟨?_, ?_, ?_, once⟩
    · intro a b r ha hb
      dsimp only at ha hb
      by_cases h1 : a = n <;> by_cases h2 : b = n
      · rw [h1, h2]
      · rw [h1, Function.update_self] at ha
        rw [Function.update_of_ne h2] at hb
        have := lt _ _ hb
        cases ha
        omega
      · rw [h2, Function.update_self] at hb
        rw [Function.update_of_ne h1] at ha
        have := lt _ _ ha
        cases hb
        omega
      · rw [Function.update_of_ne h1] at ha
        rw [Function.update_of_ne h2] at hb
        exact inj _ _ _ ha hb
    · intro a r ha
      dsimp only at ha ⊢
      by_cases h1 : a = n
      · rw [h1, Function.update_self] at ha
        cases ha
        omega
      · rw [Function.update_of_ne h1] at ha
        have := lt _ _ ha
        omega
    · intro l hl
      obtain ⟨h1, h2, h3⟩ := fresh l hl
      refine ⟨Nat.lt_succ_of_lt h1, ?_, ?_⟩
      · intro a ha
        dsimp only at ha
        by_cases h4 : a = n
        · rw [h4, Function.update_self] at ha
          cases ha
          omega
        · rw [Function.update_of_ne h4] at ha
          exact h2 a ha
      · exact (Function.update_of_ne (Nat.ne_of_lt h1) _ _).trans h3
  | some r =>
    refine ⟨inj, lt, ?_, once⟩
    intro l hl
    obtain ⟨h1, h2, h3⟩ := fresh l hl
    exact ⟨h1, h2, (Function.update_of_ne (fun e => h2 n (hn.trans (congrArg some e.symm))) _ _).trans h3⟩

private theorem inv_addAll {memory : Nat → List δ} {s : State δ} {cs : List (Call δ)} {n l : Nat} (h : Inv memory s (.many n l :: cs)) :
    Inv memory (s.addAll n l) cs := by
  have hl : lists (.many n l :: cs) = l :: lists cs := rfl
  obtain ⟨inj, lt, fresh, once⟩ := h
  rw [hl] at fresh once
  rw [List.nodup_cons] at once
  obtain ⟨f1, f2, f3⟩ := fresh l List.mem_cons_self
  unfold State.addAll
  cases hn : s.delivery n with
  | none =>
    refine ⟨?_, ?_, ?_, once.2⟩
    · intro a b r ha hb
      dsimp only at ha hb
      by_cases h1 : a = n <;> by_cases h2 : b = n
      · rw [h1, h2]
      · rw [h1, Function.update_self] at ha
        rw [Function.update_of_ne h2] at hb
        cases ha
        exact absurd hb (f2 b)
      · rw [h2, Function.update_self] at hb
        rw [Function.update_of_ne h1] at ha
        cases hb
        exact absurd ha (f2 a)
      · rw [Function.update_of_ne h1] at ha
        rw [Function.update_of_ne h2] at hb
        exact inj _ _ _ ha hb
    · intro a r ha
      dsimp only at ha ⊢
      by_cases h1 : a = n
      · rw [h1, Function.update_self] at ha
        cases ha
        exact f1
      · rw [Function.update_of_ne h1] at ha
        exact lt _ _ ha
    · intro k hk
      obtain ⟨h1, h2, h3⟩ := fresh k (List.mem_cons_of_mem _ hk)
      refine ⟨h1, ?_, h3⟩
      intro a ha
      dsimp only at ha
      by_cases h4 : a = n
      · rw [h4, Function.update_self] at ha
        cases ha
        exact once.1 hk
      · rw [Function.update_of_ne h4] at ha
        exact h2 a ha
  | some r =>
    refine ⟨inj, lt, ?_, once.2⟩
    intro k hk
    obtain ⟨h1, h2, h3⟩ := fresh k (List.mem_cons_of_mem _ hk)
    exact ⟨h1, h2, (Function.update_of_ne (fun e => h2 n (hn.trans (congrArg some e.symm))) _ _).trans h3⟩

/-- The record shows for every material exactly the deliveries that were handed over for it, in this order, if no list is handed over twice.
Missing: lists that are handed over twice, see `twice_fails`. -/
theorem recorded_partial (memory : Nat → List δ) (next : Nat) (cs : List (Call δ)) (hk : ∀ l ∈ lists cs, l < next) (hn : (lists cs).Nodup)
    (name : Nat) : ((new memory next).run cs).shown name = handed memory name cs := by
  have key : ∀ (cs : List (Call δ)) (s : State δ), Inv memory s cs → (s.run cs).shown name = s.shown name ++ handed memory name cs := by
    intro cs
    induction cs with
    | nil =>
      intro s _
      exact (List.append_nil _).symm
    | cons c cs ih =>
      intro s h
      unfold handed
      rw [List.flatMap_cons, ← List.append_assoc]
      cases c with
      | one n d => exact (ih _ (inv_add h)).trans (by rw [shown_add h.inj h.lt]; rfl)
      | many n l =>
        refine (ih _ (inv_addAll h)).trans ?_
        rw [shown_addAll h.inj, (h.fresh l List.mem_cons_self).2.2]
        rfl
  exact key cs _ ⟨by rintro a b r ⟨⟩, by rintro a r ⟨⟩, fun l hl => ⟨hk l hl, by rintro a ⟨⟩, rfl⟩, hn⟩

/-- Single deliveries, as the timelines record them, are always recorded exactly. -/
theorem singles (memory : Nat → List δ) (next : Nat) (ds : List (Nat × δ)) (name : Nat) :
    ((new memory next).run (ds.map fun e => .one e.1 e.2)).shown name = (ds.filter fun e => e.1 = name).map (·.2) := by
  have hl : lists (ds.map fun e => Call.one e.1 e.2) = [] := by
    induction ds with
    | nil => rfl
    | cons _ _ ih => exact ih
  rw [recorded_partial memory next _ (by simp [hl]) (by simp [hl])]
  unfold handed
  induction ds with
  | nil => rfl
  | cons e ds ih =>
    have ih := ih hl
    rw [List.map_cons, List.flatMap_cons, ih, List.filter_cons]
    by_cases h : e.1 = name <;> simp [h]

/-- A list of the caller that is never the first one handed over for its material stays as it is. -/
theorem lists_stay (memory : Nat → List δ) (next : Nat) (cs : List (Call δ)) {l : Nat} (hl : l < next)
    (hf : ∀ cs1 n cs2, cs = cs1 ++ .many n l :: cs2 → ((new memory next).run cs1).delivery n ≠ none) :
    ((new memory next).run cs).memory l = memory l := by
  have key : ∀ (cs : List (Call δ)) (s : State δ), l < s.next → (∀ a, s.delivery a ≠ some l) →
      (∀ cs1 n cs2, cs = cs1 ++ .many n l :: cs2 → (s.run cs1).delivery n ≠ none) → (s.run cs).memory l = s.memory l := by
    intro cs
    induction cs with
    | nil => intro s _ _ _; rfl
    | cons c cs ih =>
      intro s h1 h2 h3
      cases c with
      | one n d =>
        refine (ih (s.add n d) ?_ ?_ fun cs1 m cs2 e => h3 (.one n d :: cs1) m cs2 (by rw [e]; rfl)).trans ?_
        · unfold State.add
          split
          · exact Nat.lt_succ_of_lt h1
          · exact h1
        · intro a ha
          unfold State.add at ha
          split at ha
          · dsimp only at ha
            by_cases h4 : a = n
            · rw [h4, Function.update_self] at ha
              cases ha
              omega
            · rw [Function.update_of_ne h4] at ha
              exact h2 a ha
          · exact h2 a ha
        · unfold State.add
          split
          · exact Function.update_of_ne (Nat.ne_of_lt h1) _ _
          · rename_i r hr
            exact Function.update_of_ne (fun e => h2 n (hr.trans (congrArg some e.symm))) _ _
      | many n k =>
        refine (ih (s.addAll n k) ?_ ?_ fun cs1 m cs2 e => h3 (.many n k :: cs1) m cs2 (by rw [e]; rfl)).trans ?_
        · unfold State.addAll
          split <;> exact h1
        · intro a ha
          unfold State.addAll at ha
          split at ha
          · rename_i hn
            dsimp only at ha
            by_cases h4 : a = n
            · rw [h4, Function.update_self] at ha
              cases ha
              exact h3 [] n cs rfl hn
            · rw [Function.update_of_ne h4] at ha
              exact h2 a ha
          · exact h2 a ha
        · unfold State.addAll
          split
          · rfl
          · rename_i r hr
            exact Function.update_of_ne (fun e => h2 n (hr.trans (congrArg some e.symm))) _ _
  exact key cs _ hl (by rintro a ⟨⟩) hf

/-! ### Two materials and two lists -/

private def mem : Nat → List Nat
  | 0 => [5, 6]
  | 1 => [7]
  | _ => []

private def calls : List (Call Nat) := [.one 3 1, .many 3 0, .many 4 1, .one 4 2]

example : (∀ l ∈ lists calls, l < 2) ∧ (lists calls).Nodup := by decide
example : ((new mem 2).run calls).shown 3 = [1, 5, 6] ∧ ((new mem 2).run calls).shown 4 = [7, 2] := by decide

/-- Not proved because false: for all calls.  A list handed over for two materials makes later deliveries of one show up with the other. -/
theorem twice_fails : ∃ (memory : Nat → List Nat) (next : Nat) (cs : List (Call Nat)) (name : Nat), (∀ l ∈ lists cs, l < next) ∧
    ((new memory next).run cs).shown name = [7, 2] ∧ handed memory name cs = [7] :=
  ⟨mem, 2, [.many 3 1, .many 4 1, .one 4 2], 3, by decide, by decide, by decide⟩

/-- Not proved because false: handing over a list does not change it.  Later deliveries are added to the caller's list. -/
theorem lists_fail : ∃ (memory : Nat → List Nat) (next : Nat) (cs : List (Call Nat)) (l : Nat), l < next ∧ (lists cs).Nodup ∧
    memory l = [7] ∧ ((new memory next).run cs).memory l = [7, 2] :=
  ⟨mem, 2, [.many 4 1, .one 4 2], 1, by decide, by decide, rfl, by decide⟩

end Sampo.C126
