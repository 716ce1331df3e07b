import Mathlib.Logic.Function.Basic

/-!
# The record of deliveries of a work (`MaterialDelivery`, `sampo/schemas/landscape.py`)

Python lists are objects: the record keeps lists by reference, so that lists are kept in a memory here.  A delivery (count, start, finish,
holder) is of any type; names of materials are numbers.
-/

namespace Sampo.Deliveries

variable {δ : Type}

/-- The lists in memory, the first number that is no list yet, and `MaterialDelivery.delivery` (schemas/landscape.py:271-274). -/
structure State (δ : Type) where
  memory : Nat → List δ
  next : Nat
  delivery : Nat → Option Nat

/-- `MaterialDelivery.__init__` (schemas/landscape.py:272-274) while the caller has `next` lists. -/
def new (memory : Nat → List δ) (next : Nat) : State δ := ⟨memory, next, fun _ => none⟩

/-- `MaterialDelivery.add_delivery` (schemas/landscape.py:276-281). -/
def State.add (s : State δ) (name : Nat) (d : δ) : State δ :=
  match s.delivery name with
  | none => ⟨Function.update s.memory s.next [d], s.next + 1, Function.update s.delivery name (some s.next)⟩
  | some r => { s with memory := Function.update s.memory r (s.memory r ++ [d]) }

/-- `MaterialDelivery.add_deliveries` (schemas/landscape.py:283-287) with the list of number `l`. -/
def State.addAll (s : State δ) (name : Nat) (l : Nat) : State δ :=
  match s.delivery name with
  | none => { s with delivery := Function.update s.delivery name (some l) }
  | some r => { s with memory := Function.update s.memory r (s.memory r ++ s.memory l) }

/-- A call of one of the two. -/
inductive Call (δ : Type)
  | one (name : Nat) (d : δ)
  | many (name : Nat) (l : Nat)

/-- The state after some calls. -/
def State.run (s : State δ) : List (Call δ) → State δ
  | [] => s
  | .one name d :: cs => (s.add name d).run cs
  | .many name l :: cs => (s.addAll name l).run cs

/-- What the record shows for a material. -/
def State.shown (s : State δ) (name : Nat) : List δ :=
  match s.delivery name with
  | none => []
  | some r => s.memory r

end Sampo.Deliveries
