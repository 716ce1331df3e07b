/-! # Specification vocabulary for resource optimization -/

namespace Sampo

/-- Every count is between its lower and upper border. -/
def Within : List Int → List Int → List Int → Prop
  | [], [], [] => True
  | d :: down, u :: up, c :: counts => d ≤ c ∧ c ≤ u ∧ Within down up counts
  | _, _, _ => False

/-- Lower borders are not above upper ones. -/
def Ordered (down up : List Int) : Prop := Within down up down

/-- `f` strictly decreases from `down` to `m` and strictly increases from `m` to `up`, so `m` is its only minimum. -/
def Unimodal (f : Int → Int) (down up m : Int) : Prop :=
  down ≤ m ∧ m ≤ up ∧ (∀ x y, down ≤ x → x < y → y ≤ m → f y < f x) ∧ (∀ x y, m ≤ x → x < y → y ≤ up → f x < f y)

instance decWithin : (down up counts : List Int) → Decidable (Within down up counts)
  | [], [], [] => isTrue trivial
  | d :: down, u :: up, c :: counts =>
    have := decWithin down up counts
    inferInstanceAs (Decidable (d ≤ c ∧ c ≤ u ∧ Within down up counts))
  | [], [], _ :: _ => isFalse id
  | [], _ :: _, _ => isFalse id
  | _ :: _, [], _ => isFalse id
  | _ :: _, _ :: _, [] => isFalse id

instance (down up : List Int) : Decidable (Ordered down up) := inferInstanceAs (Decidable (Within _ _ _))

end Sampo
