import Verif.Model.GeneticOffspring
import Verif.Lemmas.GeneticMutate
import Verif.Lemmas.GeneticResources
import Verif.Props.C27_ChromosomeChecks

/-!
# C55: offspring of valid chromosomes are valid and pass the check
-/

namespace Sampo.C55

open Genetic GeneticRes

/-- A valid chromosome of the problem: all works in an order with predecessors first and lower priorities first, resources
within the borders. -/
structure ValidInd (P : Problem) (i : Ind) : Prop where
  works : i.order.Perm (List.range P.n)
  topological : OrderRespects (fun v p => p ∈ P.parents v) i.order
  priority : i.order.Pairwise fun a b => P.prio a ≤ P.prio b
  resources : WithinBorders P.n P.m P.nc P.lo P.hi P.cap (fun w c => P.enabled w c = true) i.res

/-- A well-formed problem: at least one work; `children` is the inverse of `parents`; predecessors are works of the problem, other
than the work itself, with no later priority. -/
structure WellFormed (P : Problem) : Prop where
  nonempty : P.n ≠ 0
  inverse : ∀ v c, c ∈ P.children v ↔ v ∈ P.parents c
  irreflexive : ∀ v, v ∉ P.parents v
  closed : ∀ v < P.n, ∀ p ∈ P.parents v, p < P.n
  priority : ∀ v, ∀ p ∈ P.parents v, P.prio p ≤ P.prio v

/-- Possible results of the random generator. -/
structure Possible (P : Problem) (d : MutDraw) : Prop where
  borderPick : Picks d.borderPick
  order : ∀ i n, Choice n (d.positions i n) (d.pick i)
  contractor : ∀ w < P.n, d.mask w = true → d.contractor w < P.nc ∧ P.enabled w (d.contractor w) = true
  amount : Picks d.amount

/-- A valid chromosome passes `is_chromosome_correct`. -/
theorem valid_is_accepted (P : Problem) (hP : WellFormed P) (i : Ind) (h : ValidInd P i) : correct P i = true := by
  unfold correct
  rw [Bool.and_eq_true]
  constructor
  · rw [C27.order_check_exact P.parents hP.irreflexive P.prio]
    intro before v after heq p hp
    refine ⟨?_, hP.priority v p hp⟩
    have hv : v < P.n := List.mem_range.1 (h.works.mem_iff.1 (by rw [heq]; simp))
    have hpo : p ∈ i.order := h.works.mem_iff.2 (List.mem_range.2 (hP.closed v hv p hp))
    rw [heq, List.mem_append, List.mem_cons] at hpo
    rcases hpo with hpo | rfl | hpo
    · exact hpo
    · exact absurd hp (hP.irreflexive p)
    · have ht := h.topological
      unfold OrderRespects at ht
      rw [heq, List.pairwise_append, List.pairwise_cons] at ht
      exact absurd hp (ht.2.1.1 p hpo)
  · rw [C27.contractor_check_exact P.n P.m hP.nonempty]
    refine ⟨fun w hw => h.resources.allowed w (List.mem_range.1 (h.works.mem_iff.1 hw)), ?_⟩
    intro w hw k hk
    exact ⟨h.resources.fits w hw k hk, h.resources.capacity _ (h.resources.known w hw) k hk⟩

/-- `mate`: two valid chromosomes have two valid children. -/
theorem mating_valid (P : Problem) (hP : WellFormed P) (optimize : Bool) (d : MateDraw) (hd : Draws d.order) (i1 i2 : Ind)
    (h1 : ValidInd P i1) (h2 : ValidInd P i2)
    (hb : optimize = true ∨ ∀ c < P.nc, ∀ k < P.m, i1.res.border c k = i2.res.border c k) :
    ∃ c1 c2, mateInd P optimize d i1 i2 = some (c1, c2) ∧ ValidInd P c1 ∧ ValidInd P c2 := by
  have hnd : i1.order.Nodup := h1.works.nodup_iff.2 List.nodup_range
  have hne : i1.order ≠ [] := by
    intro hc
    have := h1.works.length_eq
    rw [hc, List.length_range] at this
    exact hP.nonempty this.symm
  obtain ⟨o1, o2, e1, e2, e3, e4⟩ := mate_spec P.prio d.order hd i1.order i2.order hne (h2.works.trans h1.works.symm) hnd
    h1.priority h2.priority
  obtain ⟨r1, r2⟩ := mate_within d.positions optimize h1.resources h2.resources hb
  refine ⟨⟨o1, (GeneticRes.mate d.positions optimize i1.res i2.res).1⟩, ⟨o2, (GeneticRes.mate d.positions optimize i1.res i2.res).2⟩,
    ?_, ⟨e2.trans h1.works, (e4 _ h1.topological h2.topological).1, (e4 _ h1.priority h2.priority).1, r1⟩,
    ⟨e3.trans h1.works, (e4 _ h1.topological h2.topological).2, (e4 _ h1.priority h2.priority).2, r2⟩⟩
  unfold mateInd
  rw [e1]; rfl

/-- The mutations applied to a child keep it valid. -/
theorem mutation_valid (P : Problem) (hP : WellFormed P) (optimize : Bool) (d : MutDraw) (hd : Possible P d) (i : Ind)
    (h : ValidInd P i) : ∃ c, mutateInd P optimize d i = some c ∧ ValidInd P c := by
  have hnd : i.order.Nodup := h.works.nodup_iff.2 List.nodup_range
  have hne : i.order ≠ [] := by
    intro hc
    have := h.works.length_eq
    rw [hc, List.length_range] at this
    exact hP.nonempty this.symm
  obtain ⟨o, e1, e2, e3, e4, _⟩ := mutate_spec hP.inverse P.prio d.positions d.pick hd.order i.order hne h.topological hnd
  have hr : ∃ r, (if optimize then mutateBorders P.n P.m P.cap d.borderMask d.borderPick i.res else some i.res) = some r ∧
      WithinBorders P.n P.m P.nc P.lo P.hi P.cap (fun w c => P.enabled w c = true) r := by
    cases optimize with
    | false => exact ⟨i.res, rfl, h.resources⟩
    | true =>
      obtain ⟨r, a, b, _⟩ := mutateBorders_within d.borderMask d.borderPick hd.borderPick h.resources
      exact ⟨r, a, b⟩
  obtain ⟨r, er, hr⟩ := hr
  obtain ⟨r', er', hr', _⟩ := mutate_within d.mask d.contractor d.masks d.amount hd.amount hd.contractor hr
  refine ⟨⟨o, r'⟩, ?_, e2.trans h.works, e3, ?_, hr'⟩
  · unfold mutateInd
    rw [er, Option.bind_some, e1, Option.bind_some, er']; rfl
  · have hp := h.priority
    rw [← List.pairwise_map (f := P.prio) (R := (· ≤ ·))] at hp ⊢
    simp only
    rw [e4]
    exact hp

/-- `make_offspring`: for every pair of valid chromosomes and all random results, making offspring does not fail, and both
children are valid and pass `is_chromosome_correct`, when resources are optimized or borders are the same in both parents. -/
theorem offspring_valid (P : Problem) (hP : WellFormed P) (optimize : Bool) (d : MateDraw) (hd : Draws d.order)
    (d1 d2 : MutDraw) (hd1 : Possible P d1) (hd2 : Possible P d2) (i1 i2 : Ind) (h1 : ValidInd P i1) (h2 : ValidInd P i2)
    (hb : optimize = true ∨ ∀ c < P.nc, ∀ k < P.m, i1.res.border c k = i2.res.border c k) :
    ∃ c1 c2, offspring P optimize d d1 d2 i1 i2 = some (c1, c2) ∧ (ValidInd P c1 ∧ correct P c1 = true) ∧
      (ValidInd P c2 ∧ correct P c2 = true) := by
  obtain ⟨a1, a2, e1, v1, v2⟩ := mating_valid P hP optimize d hd i1 i2 h1 h2 hb
  obtain ⟨b1, e2, w1⟩ := mutation_valid P hP optimize d1 hd1 a1 v1
  obtain ⟨b2, e3, w2⟩ := mutation_valid P hP optimize d2 hd2 a2 v2
  refine ⟨b1, b2, ?_, ⟨w1, valid_is_accepted P hP b1 w1⟩, w2, valid_is_accepted P hP b2 w2⟩
  unfold offspring
  rw [e1, Option.bind_some, e2, Option.bind_some, e3]; rfl

/-- If resources are not optimized, borders never change, so the condition on equal borders holds in every later
generation when it holds in the first one. -/
theorem borders_kept (P : Problem) (d : MateDraw) (d1 d2 : MutDraw) (i1 i2 c1 c2 : Ind)
    (h : offspring P false d d1 d2 i1 i2 = some (c1, c2)) : c1.res.border = i1.res.border ∧ c2.res.border = i2.res.border := by
  have mb : ∀ (d : MutDraw) (i c : Ind), mutateInd P false d i = some c → c.res.border = i.res.border := by
    intro d i c h
    unfold mutateInd at h
    simp only [Bool.false_eq_true, if_false, Option.bind_some, Option.bind_eq_some_iff, Option.map_eq_some_iff] at h
    obtain ⟨o, _, r, hr, rfl⟩ := h
    simp only
    unfold GeneticRes.mutate at hr
    simp only [Option.map_eq_some_iff] at hr
    obtain ⟨a, _, rfl⟩ := hr
    simp only
    by_cases hnc : 1 < P.nc
    · rw [if_pos hnc]; rfl
    · rw [if_neg hnc]
  unfold offspring at h
  simp only [Option.bind_eq_some_iff, Option.map_eq_some_iff, Prod.mk.injEq] at h
  obtain ⟨⟨a1, a2⟩, ha, b1, hb1, b2, hb2, rfl, rfl⟩ := h
  unfold mateInd at ha
  simp only [Option.map_eq_some_iff, Prod.mk.injEq] at ha
  obtain ⟨o, _, rfl, rfl⟩ := ha
  refine ⟨(mb d1 _ _ hb1).trans ?_, (mb d2 _ _ hb2).trans ?_⟩
  · simp [GeneticRes.mate, takeRows]
  · simp [GeneticRes.mate, takeRows]

/-! A concrete problem: five works 0 → 1, 2, 3 → 4 in two groups, one kind, two contractors. -/

private def demoP : Problem where
  n := 5
  m := 1
  nc := 2
  parents v := if v = 4 then [1, 2, 3] else if 0 < v ∧ v < 4 then [0] else []
  children v := if v = 0 then [1, 2, 3] else if v < 4 then [4] else []
  prio v := if v < 4 then 0 else 1
  lo _ _ := 1
  hi _ _ := 5
  cap _ _ := 9
  enabled _ _ := true

example : WellFormed demoP where
  nonempty := by decide
  inverse v c := by
    simp only [demoP]
    by_cases h1 : v = 0
    · subst h1
      by_cases h2 : c = 4
      · subst h2; simp
      · by_cases h3 : 0 < c ∧ c < 4
        · simp [h2, h3]; omega
        · simp [h2, h3]; omega
    · by_cases h2 : v < 4
      · by_cases h3 : c = 4
        · subst h3; simp [h1, h2]; omega
        · by_cases h4 : 0 < c ∧ c < 4
          · simp [h1, h2, h3, h4]
          · simp [h1, h2, h3, h4]
      · by_cases h3 : c = 4
        · subst h3; simp [h1, h2]; omega
        · by_cases h4 : 0 < c ∧ c < 4
          · simp [h1, h2, h3, h4]
          · simp [h1, h2, h3, h4]
  irreflexive v := by
    simp only [demoP]
    by_cases h2 : v = 4
    · subst h2; simp
    · by_cases h3 : 0 < v ∧ v < 4
      · simp [h2, h3]; omega
      · simp [h2, h3]
  closed := by decide
  priority v p hp := by
    simp only [demoP] at hp ⊢
    by_cases h2 : v = 4
    · subst h2; simp at hp; rcases hp with rfl | rfl | rfl <;> simp
    · by_cases h3 : 0 < v ∧ v < 4
      · simp [h2, h3] at hp; subst hp; simp
        split <;> omega
      · simp [h2, h3] at hp

private def demoRes : Chrom := ⟨fun _ _ => 2, fun w => w % 2, fun _ _ => 4⟩

private theorem demoRes_within : WithinBorders 5 1 2 (fun _ _ => 1) (fun _ _ => 5) (fun _ _ => 9) (fun _ _ => true = true) demoRes := by
  constructor <;> simp only [demoRes] <;> intros <;> first | omega | trivial

example : ValidInd demoP ⟨[0, 1, 2, 3, 4], demoRes⟩ ∧ ValidInd demoP ⟨[0, 3, 2, 1, 4], demoRes⟩ := by
  refine ⟨⟨by decide, ?_, by decide, demoRes_within⟩, ⟨by decide, ?_, by decide, demoRes_within⟩⟩ <;>
  · unfold OrderRespects; decide

private def demoMut : MutDraw where
  borderMask _ _ := true
  borderPick _ _ l := l.getLastD 0
  positions _ n := if 4 ≤ n then [1] else []
  pick _ _ l := l.getLast?
  mask w := w == 1
  contractor _ := 0
  masks w _ := w == 2
  amount _ _ l := l.getLastD 0

private theorem demoPicks : Picks fun _ _ l => l.getLastD 0 := by
  intro _ _ l hl
  show l.getLastD 0 ∈ l
  rw [List.getLastD_eq_getLast?, List.getLast?_eq_some_getLast hl]
  exact List.getLast_mem hl

example : Possible demoP demoMut where
  borderPick := demoPicks
  order i n := by
    simp only [demoMut]
    constructor
    · split <;> decide
    · intro k hk
      split at hk
      · simp only [List.mem_singleton] at hk; omega
      · simp at hk
    · intro k l hl
      exact ⟨l.getLast hl, List.getLast_mem hl, List.getLast?_eq_some_getLast hl⟩
  contractor := by simp [demoMut, demoP]
  amount := demoPicks

example : Draws fun i => ((3 * (i / 4), 2), (3 * (i / 4), 2)) := by
  intro i
  simp only [Draw]
  omega

example : ((offspring demoP true ⟨fun i => ((3 * (i / 4), 2), (3 * (i / 4), 2)), [1, 3]⟩ demoMut demoMut
    ⟨[0, 1, 2, 3, 4], demoRes⟩ ⟨[0, 3, 2, 1, 4], demoRes⟩).map fun c =>
      ((c.1.order, (List.range 5).map fun w => (c.1.res.amount w 0, c.1.res.contractor w)), c.2.order)) =
    some (([0, 2, 1, 3, 4], [(2, 0), (2, 0), (5, 0), (2, 1), (2, 0)]), [0, 2, 3, 1, 4]) := by decide

end Sampo.C55
