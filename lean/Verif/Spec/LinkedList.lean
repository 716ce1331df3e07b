import Verif.Model.LinkedList

/-! # Specification: what a list should contain -/

namespace Sampo.Linked

/-- What a condition with a state lets pass, asked once about each element in order. -/
def sieve {α σ : Type} (cond : σ → α → σ × Bool) (s : σ) : List α → List α × σ
  | [] => ([], s)
  | v :: vs =>
    let r := sieve cond (cond s v).1 vs
    (if (cond s v).2 then r.1 else v :: r.1, r.2)

/-- What a user does with a list. -/
inductive Op (α : Type)
  | append (v : α)
  | removeIf (p : α → Bool)

/-- What the list should contain afterwards. -/
def Op.effect {α : Type} (vs : List α) : Op α → List α
  | .append v => vs ++ [v]
  | .removeIf p => vs.filter fun v => !p v

/-- A removal that keeps the last element, or keeps nothing. -/
def Op.keepsLast {α : Type} (vs : List α) : Op α → Prop
  | .append _ => True
  | .removeIf p => (∀ v ∈ vs, p v = true) ∨ ∀ v, vs.getLast? = some v → p v = false

/-- Doing it. -/
def Op.run {α : Type} [DecidableEq α] (l : LList α) : Op α → Option (LList α)
  | .append v => Linked.append l v
  | .removeIf p => ((Linked.removeIf (fun (_ : Unit) v => ((), p v)) l ()).bind id).map (·.1)

/-- A sequence of operations; the results are the contents expected and the list. -/
inductive Runs {α : Type} [DecidableEq α] : List α → LList α → Prop
  | start : Runs [] empty
  | step {vs : List α} {l l' : LList α} {op : Op α} : Runs vs l → op.keepsLast vs → op.run l = some l' →
      Runs (op.effect vs) l'

end Sampo.Linked
