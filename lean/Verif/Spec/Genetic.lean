import Verif.Model.GeneticResources

/-!
# Specification: chromosomes within their borders
-/

namespace Sampo

/-- A chromosome for `n` works, `m` kinds of workers and `nc` contractors: every amount is within the requirement
(`lo`, `hi`) of the work and within the chromosome's border of the assigned contractor, the contractor is enabled for
the work, and the borders are within the contractors' capacities. -/
structure WithinBorders (n m nc : Nat) (lo hi cap : Nat → Nat → Int) (enabled : Nat → Nat → Prop) (ch : GeneticRes.Chrom) :
    Prop where
  low : ∀ w < n, ∀ k < m, lo w k ≤ ch.amount w k
  high : ∀ w < n, ∀ k < m, ch.amount w k ≤ hi w k
  fits : ∀ w < n, ∀ k < m, ch.amount w k ≤ ch.border (ch.contractor w) k
  known : ∀ w < n, ch.contractor w < nc
  allowed : ∀ w < n, enabled w (ch.contractor w)
  capacity : ∀ c < nc, ∀ k < m, ch.border c k ≤ cap c k

end Sampo
