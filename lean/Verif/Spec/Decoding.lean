import Verif.Model.Decode
import Verif.Props.C13_AssignedDuration

/-! Specification: arguments of the decoding of chromosomes. -/

namespace Sampo.C28
open Decode

variable {σ : Type}

/-- Durations, volumes and given times are not negative. -/
structure Sane (D : Input σ) (E : Env σ) : Prop where
  estimate : ∀ v team, 0 ≤ E.estimate v team
  volume : ∀ v, 0 ≤ D.volume v
  share : C13.FairShare D.share
  assigned : ∀ v t, D.assignedTime v = some t → 0 ≤ t
  start : 0 ≤ D.parentTime

/-- The chromosome asks for no more workers than its borders allow, and the borders are between zero and the real number of
workers of each contractor. -/
structure Fits (D : Input σ) : Prop where
  amount : ∀ i ∈ D.order, ∀ k < D.kinds, D.chrom.amount i k ≤ D.chrom.border (D.chrom.contractor i) k
  border : ∀ c k n, D.pool k c = some n → 0 ≤ D.chrom.border c k ∧ D.chrom.border c k ≤ n

/-- Works of the chromosome's order, chains expanded. -/
def works (D : Input σ) (E : Env σ) : List Nat := (D.order.map D.node).flatMap E.chain

end Sampo.C28
