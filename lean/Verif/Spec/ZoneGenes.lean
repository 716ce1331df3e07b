import Verif.Model.ZoneGenes

/-!
# Specification vocabulary for the zone part of chromosomes
-/

namespace Sampo.ZoneGenes

/-- A matrix with one row for each work and one column for each zone, of statuses `0, …, statuses - 1`. -/
def Proper (works zones statuses : Nat) (p : Part) : Prop :=
  p.length = works ∧ ∀ row ∈ p, row.length = zones ∧ ∀ x ∈ row, 0 ≤ x ∧ x < statuses

/-- The zone parts that arise from converted schedules by any number of crossovers and mutations, with any results of the random
generator: samples of positions of works, statuses from 0 to the last one. -/
inductive Bred (works zones statuses : Nat) : Part → Prop
  | first : Bred works zones statuses (zeros works zones)
  | mateFirst {a b : Part} (positions : List Nat) : Bred works zones statuses a → Bred works zones statuses b →
      (∀ i ∈ positions, i < works) → Bred works zones statuses (mate positions a b).1
  | mateSecond {a b : Part} (positions : List Nat) : Bred works zones statuses a → Bred works zones statuses b →
      (∀ i ∈ positions, i < works) → Bred works zones statuses (mate positions a b).2
  | mutate {a : Part} (mask : List (List Bool)) (vals : List Int) : Bred works zones statuses a →
      (∀ v ∈ vals, 0 ≤ v ∧ v ≤ (statuses : Int) - 1) → Bred works zones statuses (mutate mask vals a)

end Sampo.ZoneGenes
