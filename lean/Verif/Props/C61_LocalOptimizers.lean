import Verif.Lemmas.Pipeline

/-!
# C61: local optimizers of a pipeline are applied one after another

Optimizers of the order of works are called with the order and an area; optimizers of schedules with a schedule, the order of
works and further arguments.
-/

namespace Sampo.C61

open Pipeline

private theorem applyQueue_cons {V : Type} (e : Entry V) (es : List (Entry V)) (res : List V) :
    applyQueue (e :: es) res = (e.call (res ++ e.args)).bind fun r => applyQueue es [r] := rfl

/-- Any number of optimizers of the order: each gets the result of the one before and the area it was added with, in the order in
which they were added. -/
theorem orders_in_turn {V : Type} {queue : List (Entry V)} (h : ∀ e ∈ queue, e.arity = 1 + e.args.length) (order : V) :
    applyQueue queue [order] = inTurn queue order := by
  induction queue generalizing order with
  | nil => rfl
  | cons e es ih =>
    rw [applyQueue_cons]
    unfold Entry.call inTurn
    rw [if_pos (by rw [h e (List.mem_cons_self ..)]; simp; omega)]
    congr 1
    funext r
    exact ih (fun e he => h e (List.mem_cons_of_mem _ he)) r

/-- Without optimizers of schedules the pipeline returns the schedules unchanged, in order. -/
theorem unchanged {V : Type} {works orders : List V} (h : works.length = orders.length) :
    Pipeline.finish [] works orders = some works := by
  unfold Pipeline.finish
  induction works generalizing orders with
  | nil => rfl
  | cons w ws ih =>
    cases orders with
    | nil => simp at h
    | cons o os =>
      rw [List.zip_cons_cons, List.mapM_cons]
      rw [ih (by simpa using h)]
      rfl

/-- Partial: one optimizer of schedules gets each schedule with its order of works and its stored arguments; the results are
returned in order.  Missing: several optimizers, see `second_fails`. -/
theorem optimized_partial {V : Type} {e : Entry V} (he : e.arity = 2 + e.args.length) (works orders : List V) :
    Pipeline.finish [e] works orders = (works.zip orders).mapM fun p => e.run (p.1 :: p.2 :: e.args) := by
  unfold Pipeline.finish
  congr 1
  funext p
  rw [applyQueue_cons]
  unfold Entry.call
  rw [if_pos (by simp [he]; omega)]
  show (e.run (p.1 :: p.2 :: e.args)).bind _ = _
  cases e.run (p.1 :: p.2 :: e.args) <;> rfl

/-- Not proved because false: "several optimizers of schedules are applied one after another".  The second one is called without
the order of works, so that every pipeline with two of them and a schedule raises. -/
theorem second_fails {V : Type} {e f : Entry V} {rest : List (Entry V)} (hf : f.arity = 2 + f.args.length) {works orders : List V}
    (hw : works ≠ []) (ho : orders ≠ []) : Pipeline.finish (e :: f :: rest) works orders = none := by
  cases works with
  | nil => exact absurd rfl hw
  | cons w ws =>
    cases orders with
    | nil => exact absurd rfl ho
    | cons o os =>
      unfold Pipeline.finish
      rw [List.zip_cons_cons, List.mapM_cons]
      have : applyQueue (e :: f :: rest) [w, o] = none := by
        rw [applyQueue_cons]
        cases e.call ([w, o] ++ e.args) with
        | none => rfl
        | some r =>
          rw [Option.bind_some, applyQueue_cons]
          unfold Entry.call
          rw [if_neg (by simp [hf]; omega)]
          rfl
      rw [this]
      rfl

/-- The hypotheses are met: two optimizers of the order, one of schedules with one stored argument. -/
example : applyQueue [⟨2, fun xs => some xs.sum, [5]⟩, ⟨2, fun xs => some (xs.foldl (· * ·) 1), [3]⟩] [10] = some 45 ∧
    Pipeline.finish [⟨3, fun xs => some xs.sum, [5]⟩] [10, 20] [1, 2] = some [16, 27] ∧
    Pipeline.finish [⟨3, fun xs => some xs.sum, [5]⟩, ⟨3, fun xs => some xs.sum, [5]⟩] [10, 20] [1, 2] = (none : Option (List Nat)) := by
  decide

end Sampo.C61
