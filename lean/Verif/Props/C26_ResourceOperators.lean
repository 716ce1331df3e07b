import Verif.Lemmas.GeneticResources

/-!
# C26: crossover and mutation of resources stay inside the borders
-/

namespace Sampo.C26

open GeneticRes

variable {n m nc : Nat} {lo hi cap : Nat → Nat → Int} {enabled : Nat → Nat → Prop}

/-- `mate_resources`: if both parents are within their borders, both children are, when resources are optimized (borders are raised)
or the parents have the same borders. -/
theorem mating_stays_within (positions : List Nat) (optimize : Bool) {p1 p2 : Chrom}
    (h1 : WithinBorders n m nc lo hi cap enabled p1) (h2 : WithinBorders n m nc lo hi cap enabled p2)
    (hb : optimize = true ∨ ∀ c < nc, ∀ k < m, p1.border c k = p2.border c k) :
    WithinBorders n m nc lo hi cap enabled (mate positions optimize p1 p2).1 ∧
      WithinBorders n m nc lo hi cap enabled (mate positions optimize p1 p2).2 :=
  mate_within positions optimize h1 h2 hb

/-- `mutate_resources`: never fails on a chromosome within its borders, whatever is drawn, and keeps it there. -/
theorem mutation_stays_within (mask : Nat → Bool) (new : Nat → Nat) (masks : Nat → Nat → Bool)
    (pick : Nat → Nat → List Int → Int) (hp : Picks pick) {ch : Chrom}
    (hnew : ∀ w < n, mask w = true → new w < nc ∧ enabled w (new w)) (h : WithinBorders n m nc lo hi cap enabled ch) :
    ∃ ch', mutate n m nc lo hi mask new masks pick ch = some ch' ∧ WithinBorders n m nc lo hi cap enabled ch' := by
  obtain ⟨c, h1, h2, _⟩ := mutate_within mask new masks pick hp hnew h
  exact ⟨c, h1, h2⟩

/-- `mutate_resource_borders`: never fails on a chromosome within its borders and keeps it there; teams are unchanged. -/
theorem border_mutation_stays_within (masks : Nat → Nat → Bool) (pick : Nat → Nat → List Int → Int) (hp : Picks pick)
    {ch : Chrom} (h : WithinBorders n m nc lo hi cap enabled ch) :
    ∃ ch', mutateBorders n m cap masks pick ch = some ch' ∧ WithinBorders n m nc lo hi cap enabled ch' ∧
      ch'.amount = ch.amount ∧ ch'.contractor = ch.contractor :=
  mutateBorders_within masks pick hp h

/-- Not proved because false: if resources are not optimized and the parents have different borders, a child can hold a team above
its border. -/
theorem different_borders_can_break :
    ∃ p1 p2 : Chrom, WithinBorders 1 1 1 (fun _ _ => 0) (fun _ _ => 9) (fun _ _ => 9) (fun _ _ => True) p1 ∧
      WithinBorders 1 1 1 (fun _ _ => 0) (fun _ _ => 9) (fun _ _ => 9) (fun _ _ => True) p2 ∧
      ¬ WithinBorders 1 1 1 (fun _ _ => 0) (fun _ _ => 9) (fun _ _ => 9) (fun _ _ => True) (mate [0] false p1 p2).1 := by
  refine ⟨⟨fun _ _ => 3, fun _ => 0, fun _ _ => 3⟩, ⟨fun _ _ => 5, fun _ => 0, fun _ _ => 5⟩, ?_, ?_, ?_⟩
  · constructor <;> simp
  · constructor <;> simp
  · intro h
    have := h.fits 0 (by decide) 0 (by decide)
    revert this
    decide

/-! Hypotheses are satisfiable: two works, two kinds, two contractors. -/

private def demo : Chrom := ⟨fun w k => w + k + 1, fun w => w, fun _ _ => 4⟩

private theorem demo_within : WithinBorders 2 2 2 (fun _ _ => 1) (fun _ _ => 6) (fun _ _ => 5) (fun w c => w ≤ c) demo := by
  constructor <;> simp only [demo] <;> intros <;> omega

private def pickLast (_ _ : Nat) (l : List Int) : Int := l.getLastD 0

private theorem picks : Picks pickLast := by
  intro _ _ l hl
  simp only [pickLast, List.getLastD_eq_getLast?, List.getLast?_eq_some_getLast hl, Option.getD_some]
  exact List.getLast_mem hl

example : ((mutate 2 2 2 (fun _ _ => 1) (fun _ _ => 6) (fun w => w == 0) (fun _ => 1) (fun w _ => w == 0) pickLast demo).map
    fun c => ((List.range 2).map fun w => ((List.range 2).map (c.amount w), c.contractor w))) =
      some [([4, 4], 1), ([2, 3], 1)] := by decide

example : ((mutateBorders 2 2 (fun _ _ => 5) (fun c _ => c == 1) pickLast demo).map
    fun c => (List.range 2).map fun d => (List.range 2).map (c.border d)) = some [[4, 4], [5, 5]] := by decide

example := mating_stays_within [0] true demo_within demo_within (Or.inl rfl)
example := border_mutation_stays_within (fun _ _ => true) pickLast picks demo_within

end Sampo.C26
