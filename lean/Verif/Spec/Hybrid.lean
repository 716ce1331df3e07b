import Verif.Model.Hybrid

/-! # Specification: rounds of a hybrid scheduler -/

namespace Sampo.Hybrid

variable {C : Type}

/-- `pops m` is the population before round `m`, for all rounds up to `n`: in every round each scheduler of the cycle works on what the
one before it returned. -/
def Rounds (cycle : List (Pop C)) (first : List C) (n : Nat) (pops : Nat → List C) : Prop :=
  pops 0 = first ∧ ∀ m < n, ∃ mid : Nat → List C, mid 0 = pops m ∧ mid cycle.length = pops (m + 1) ∧
    ∀ i (h : i < cycle.length), cycle[i] m (mid i) = some (mid (i + 1))

/-- `b` is a best chromosome of the population, smaller fitness being better. -/
def Best (f : C → Int) (pop : List C) (b : C) : Prop := b ∈ pop ∧ ∀ a ∈ pop, f b ≤ f a

/-- The scheduler turns every population (not empty) into one whose best chromosome is not worse. -/
def Keeps (f : C → Int) (s : Pop C) : Prop :=
  ∀ round pop, pop ≠ [] → ∃ pop', s round pop = some pop' ∧ ∀ a ∈ pop, ∃ b ∈ pop', f b ≤ f a

end Sampo.Hybrid
