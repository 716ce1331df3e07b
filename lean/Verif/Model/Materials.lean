import Mathlib.Data.List.Basic

/-!
# Materials of synthetic works (`SimpleSynthetic.set_materials_for_wg`, `sampo/generator/base.py:78-108`)
-/

namespace Sampo.Materials

/-- A work: whether it is a service one, and its material requirements (name and count). -/
structure Work where
  service : Bool
  materials : List (String × Int)
deriving DecidableEq

/-- The random numbers: for each work the number of draws, the drawn names, and the counts of the kept ones. -/
structure Draw where
  number : Nat → Int → Int → Int
  names : Nat → List String → Int → List String
  count : Nat → Nat → Int

/-- The names used if none are given (base.py:89). -/
def defaultNames : List String := ["stone", "brick", "sand", "rubble", "concrete", "metal"]

/-- The names and borders in force (base.py:88-96): without names, given borders are replaced. -/
def settings (names : Option (List String)) (bottom top : Option Int) : List String × Int × Int :=
  match names with
  | none => (defaultNames, 2, 6)
  | some l => (l, bottom.getD ((l.length / 2 : Nat) : Int), top.getD (l.length : Int))

/-- The new requirements of the work number `i` (base.py:103-105).  `asList` is the order in which a Python set gives its elements. -/
def newMaterials (d : Draw) (asList : List String → List String) (l : List String) (bottom top : Int) (i : Nat) : List (String × Int) :=
  (asList (d.names i l (d.number i bottom top))).mapIdx fun j name => (name, d.count i j)

/-- `set_materials_for_wg` (base.py:80-108).  `none`: `ValueError`, from the check or from `randint` of an empty range; the latter comes
at the first work that is not a service one, before anything is changed. -/
def setMaterials (d : Draw) (asList : List String → List String) (names : Option (List String)) (bottom top : Option Int)
    (works : List Work) : Option (List Work) :=
  let (l, bottom, top) := settings names bottom top
  if bottom > l.length ∨ top > l.length then none
  else if bottom > top ∧ works.any fun w => !w.service then none
  else some (works.mapIdx fun i w => if !w.service then { w with materials := newMaterials d asList l bottom top i } else w)

end Sampo.Materials
