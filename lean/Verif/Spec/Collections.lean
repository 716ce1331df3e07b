import Verif.Model.Collections

/-! Specification: places in nested iterables. -/

namespace Sampo.Collections

variable {α : Type}

/-- The value at a place: `[2, 0]` is the first element of the third element. -/
def valueAt : List (Item α) → List Nat → Option α
  | _, [] => none
  | xs, k :: ks => match xs[k]? with
    | none => none
    | some (.leaf a) => if ks = [] then some a else none
    | some (.node ys) => valueAt ys ks

end Sampo.Collections
