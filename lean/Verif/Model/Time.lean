/-!
# Time (`sampo/schemas/time.py`)

A `Time` object is modelled by its integer `value`.
-/

namespace Sampo

/-- `TIME_INF` (time.py:3). -/
def TIME_INF : Int := 2000000000

/-- `Time.__init__` / `set_time` (time.py:15-20, 88-94).  The conversion `int(value)` of a float argument is not
modelled: the argument is an integer. -/
def mkTime (v : Int) : Int :=
  if v > TIME_INF then TIME_INF
  else if v < -TIME_INF then -TIME_INF
  else v

/-- `Time.inf()` (time.py:22-27). -/
def timeInf : Int := mkTime TIME_INF

/-- `Time.__add__`, `__radd__` (time.py:31-35). -/
def tAdd (a b : Int) : Int := mkTime (a + b)

/-- `Time.__sub__`, `__rsub__` (time.py:37-41). -/
def tSub (a b : Int) : Int := mkTime (a - b)

/-- `Time.__mul__`, `__rmul__` (time.py:43-47). -/
def tMul (a b : Int) : Int := mkTime (a * b)

/-- `Time.__floordiv__` (time.py:49-50); `none` is Python's `ZeroDivisionError`. -/
def tFloorDiv (a b : Int) : Option Int :=
  if b = 0 then none else some (mkTime (Int.fdiv a b))

/-- `Time.is_inf` (time.py:96-97). -/
def tIsInf (a : Int) : Bool := Int.natAbs a == TIME_INF.toNat

/-- A value that some `Time` object can hold. -/
def IsTime (a : Int) : Prop := -TIME_INF ≤ a ∧ a ≤ TIME_INF

instance (a : Int) : Decidable (IsTime a) := by unfold IsTime; infer_instance

end Sampo
