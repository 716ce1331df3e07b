import Verif.Model.GeneticOrder
import Verif.Model.GeneticResources

/-!
# Model of the creation of offspring and of selection (sampo/scheduler/genetic/schedule_builder.py, operators.py)
-/

namespace Sampo.Genetic

open GeneticRes (Chrom)

/-- A chromosome: work order, resources with contractors, borders (api/genetic_api.py).  The specification is copied unchanged, zones
are not mated or mutated (operators.py:746-747, 773-774). -/
structure Ind where
  order : List Nat
  res : Chrom

/-- Data of the problem used by the operators (genetic/utils.py:35-83). -/
structure Problem where
  n : Nat
  m : Nat
  nc : Nat
  parents : Nat → List Nat
  children : Nat → List Nat
  prio : Nat → Int
  lo : Nat → Nat → Int
  hi : Nat → Nat → Int
  cap : Nat → Nat → Int
  enabled : Nat → Nat → Bool

/-- Random results used while one pair is mated. -/
structure MateDraw where
  order : Nat → (Nat × Nat) × (Nat × Nat)
  positions : List Nat

/-- Random results used while one child is mutated. -/
structure MutDraw where
  borderMask : Nat → Nat → Bool
  borderPick : Nat → Nat → List Int → Int
  positions : Nat → Nat → List Nat
  pick : Nat → Nat → List Nat → Option Nat
  mask : Nat → Bool
  contractor : Nat → Nat
  masks : Nat → Nat → Bool
  amount : Nat → Nat → List Int → Int

/-- `mate` (operators.py:728-749). -/
def mateInd (P : Problem) (optimize : Bool) (d : MateDraw) (i1 i2 : Ind) : Option (Ind × Ind) :=
  (mate P.prio d.order i1.order i2.order).map fun o =>
    let r := GeneticRes.mate d.positions optimize i1.res i2.res
    (⟨o.1, r.1⟩, ⟨o.2, r.2⟩)

/-- The mutations of one child in `make_offspring` (schedule_builder.py:366-371): borders if resources are optimized, then
`mutate` (operators.py:752-776): order, resources. -/
def mutateInd (P : Problem) (optimize : Bool) (d : MutDraw) (i : Ind) : Option Ind :=
  (if optimize then GeneticRes.mutateBorders P.n P.m P.cap d.borderMask d.borderPick i.res else some i.res).bind fun r =>
    (mutate P.parents P.children P.prio d.positions d.pick i.order).bind fun o =>
      (GeneticRes.mutate P.n P.m P.nc P.lo P.hi d.mask d.contractor d.masks d.amount r).map fun r' => ⟨o, r'⟩

/-- `make_offspring` (schedule_builder.py:358-373) for one pair of the population. -/
def offspring (P : Problem) (optimize : Bool) (d : MateDraw) (d1 d2 : MutDraw) (i1 i2 : Ind) : Option (Ind × Ind) :=
  (mateInd P optimize d i1 i2).bind fun c =>
    (mutateInd P optimize d1 c.1).bind fun c1 => (mutateInd P optimize d2 c.2).map fun c2 => (c1, c2)

/-- `is_chromosome_correct` (operators.py:391-398). -/
def correct (P : Problem) (i : Ind) : Bool :=
  GeneticRes.orderCorrect P.parents P.prio i.order &&
    GeneticRes.contractorsCorrect P.n P.m P.cap P.enabled i.order i.res

end Sampo.Genetic
