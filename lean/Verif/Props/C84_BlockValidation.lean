import Verif.Model.BlockCheck
import Verif.Props.C17_Validator
import Verif.Props.C37_Auction

/-!
# C84: what the validator of block schedules guarantees
-/

namespace Sampo.C84

open BlockCheck

/-- All that the agent does in all blocks. -/
def doneBy (blocks : List Block) (n : Nat) : List Placement := (blocks.filter fun b => b.agent = n).flatMap fun b => C17.placements b.works

/-- The blocks are carried out one after the other. -/
def OneAfterOther (b c : Block) : Prop :=
  (∀ x ∈ b.works, ∀ y ∈ c.works, x.finish ≤ y.start) ∨ ∀ x ∈ b.works, ∀ y ∈ c.works, y.finish ≤ x.start

variable {p : Blocks.Plan} {agents : List (List Contractor)} {blocks : List Block}

/-- What is accepted: no contractor is listed twice, with equal data; dependencies of blocks are kept; and the schedule of each block by
itself is accepted by the validator of schedules for the contractors of its agent. -/
theorem accepted_iff (hn : (blocks.map (·.id)).Nodup) : validateBlocks p.graph agents blocks = true ↔
    (agents.flatMap id).Nodup ∧
    (∀ y ∈ blocks, ∀ q, (q, y.id) ∈ p.edges → ∃ x ∈ blocks, x.id = q ∧ x.start ≤ x.finish ∧ x.finish ≤ y.start ∧ y.start ≤ y.finish) ∧
    ∀ b ∈ blocks, Validate.validate b.input ((agents.getD b.agent []).map fun c => (c.id, c.workers)) b.works = true := by
  have hn' : ((blocks.map (·.toSBlock)).map (·.id)).Nodup := by
    rw [List.map_map]
    exact hn
  have h1 : noCollisions agents = true ↔ (agents.flatMap id).Nodup := by
    unfold noCollisions
    rw [decide_eq_true_eq]
    constructor
    · intro h
      have := (List.dedup_sublist (agents.flatMap id)).eq_of_length h.symm
      rw [← this]
      exact List.nodup_dedup _
    · intro h
      rw [h.dedup]
  unfold validateBlocks checkSeparately
  rw [Bool.and_eq_true, Bool.and_eq_true, h1, C37.check_meaning p hn', List.all_eq_true, and_assoc]
  refine and_congr_right fun _ => and_congr ?_ Iff.rfl
  simp only [List.mem_map, forall_exists_index, and_imp, forall_apply_eq_imp_iff₂, exists_exists_and_eq_and]

private theorem busy_zero {ps : List Placement} {a : AgentId} {t : Int} (h : ∀ q ∈ ps, ¬ q.runs t) : busy ps a t = 0 := by
  unfold busy
  rw [List.filter_eq_nil_iff.mpr fun q hq => by simp [h q hq]]
  rfl

private theorem busy_append (ps qs : List Placement) (a : AgentId) (t : Int) : busy (ps ++ qs) a t = busy ps a t + busy qs a t := by
  unfold busy
  rw [List.filter_append, List.map_append, List.sum_append]

private theorem sum_one (cap : Int) (hcap : 0 ≤ cap) (a : AgentId) (t : Int) : ∀ bs : List Block, bs.Pairwise OneAfterOther →
    (∀ b ∈ bs, busy (C17.placements b.works) a t ≤ cap) → busy (bs.flatMap fun b => C17.placements b.works) a t ≤ cap
  | [], _, _ => hcap
  | b :: bs, hp, hb => by
    rw [List.pairwise_cons] at hp
    rw [List.flatMap_cons, busy_append]
    by_cases hr : ∃ x ∈ b.works, x.start ≤ t ∧ t < x.finish
    · obtain ⟨x, hx, h1, h2⟩ := hr
      have : busy (bs.flatMap fun b => C17.placements b.works) a t = 0 := by
        apply busy_zero
        intro q hq
        obtain ⟨c, hc, hq⟩ := List.mem_flatMap.mp hq
        unfold C17.placements at hq
        obtain ⟨y, hy, rfl⟩ := List.mem_map.mp hq
        have : ¬ (y.start ≤ t ∧ t < y.finish) := by
          rcases hp.1 c hc with h | h
          · have := h x hx y hy; omega
          · have := h x hx y hy; omega
        simpa [Placement.runs] using this
      have := hb b List.mem_cons_self
      omega
    · have : busy (C17.placements b.works) a t = 0 := by
        apply busy_zero
        intro q hq
        unfold C17.placements at hq
        obtain ⟨y, hy, rfl⟩ := List.mem_map.mp hq
        have : ¬ (y.start ≤ t ∧ t < y.finish) := fun h => hr ⟨y, hy, h⟩
        simpa [Placement.runs] using this
      have := sum_one cap hcap a t bs hp.2 fun b hb' => hb b (List.mem_cons_of_mem _ hb')
      omega

/-- If the blocks of an agent are carried out one after the other, an accepted schedule never uses more of its workers than there are, under
the conditions under which this holds for the schedule of one block (C17). -/
theorem within_capacity_partial (h : validateBlocks p.graph agents blocks = true) (n : Nat)
    (hone : (blocks.filter fun b => b.agent = n).Pairwise OneAfterOther)
    (hfin : ∀ b ∈ blocks, ∀ w ∈ b.works, max w.start w.finish < TIME_INF) (hids : ∀ b ∈ blocks, (b.works.map (·.id)).Nodup)
    (hteam : ∀ b ∈ blocks, ∀ w ∈ b.works, ∃ c, ∀ x ∈ w.workers, x.contractor = c)
    (hcount : ∀ c ∈ agents.getD n [], ∀ w ∈ c.workers, 0 ≤ w.2)
    (hlink : ∀ b ∈ blocks, ∀ v ∈ b.input.nodes, b.input.parents v ≠ [] ∨ ∃ u ∈ b.input.nodes, v ∈ b.input.parents u)
    (t : Int) (a : AgentId) :
    busy (doneBy blocks n) a t ≤ (Validate.pool ((agents.getD n []).map fun c => (c.id, c.workers)) a).getD 0 := by
  have hc : ∀ c ∈ (agents.getD n []).map fun c => (c.id, c.workers), ∀ w ∈ c.2, 0 ≤ w.2 := by
    intro c hc
    obtain ⟨c', hc', rfl⟩ := List.mem_map.mp hc
    exact hcount c' hc'
  have hcap : 0 ≤ (Validate.pool ((agents.getD n []).map fun c => (c.id, c.workers)) a).getD 0 := by
    unfold Validate.pool
    split
    · exact le_refl _
    · rename_i c hf
      have := hc c (by simpa using List.mem_of_find?_eq_some hf)
      dsimp only
      split
      · exact le_refl _
      · apply List.sum_nonneg
        intro x hx
        obtain ⟨w, hw, rfl⟩ := List.mem_map.mp hx
        exact this w (List.mem_of_mem_filter hw)
  unfold validateBlocks checkSeparately at h
  rw [Bool.and_eq_true, Bool.and_eq_true, List.all_eq_true] at h
  refine sum_one _ hcap a t _ hone fun b hb => ?_
  rw [List.mem_filter, decide_eq_true_eq] at hb
  obtain ⟨hb, rfl⟩ := hb
  exact (C17.accepted_is_executable_partial (h.2 b hb) (hfin b hb) (hids b hb)).2.2.2.2.2.2 (hteam b hb) hc (hlink b hb) t a

/-- A contractor that two agents share is found. -/
theorem shared_contractor_found {i j : Nat} (hij : i < j) {c : Contractor} (hi : c ∈ agents.getD i []) (hj : c ∈ agents.getD j []) :
    validateBlocks p.graph agents blocks = false := by
  rw [← Bool.not_eq_true]
  intro h
  unfold validateBlocks noCollisions at h
  rw [Bool.and_eq_true, Bool.and_eq_true, decide_eq_true_eq] at h
  have hn : (agents.flatMap id).Nodup := by
    have := (List.dedup_sublist (agents.flatMap id)).eq_of_length h.1.1.symm
    rw [← this]
    exact List.nodup_dedup _
  rw [List.nodup_flatMap] at hn
  have hlen : ∀ {k}, c ∈ agents.getD k [] → k < agents.length := by
    intro k hk
    by_contra hge
    rw [List.getD_eq_getElem?_getD, List.getElem?_eq_none (by omega)] at hk
    cases hk
  have := List.pairwise_iff_getElem.mp hn.2 i j (hlen hi) (hlen hj) hij
  rw [List.getD_eq_getElem?_getD, List.getElem?_eq_getElem (hlen hi)] at hi
  rw [List.getD_eq_getElem?_getD, List.getElem?_eq_getElem (hlen hj)] at hj
  exact this hi hj

/-! ### Concrete cases: blocks like the schedule of C17, of an agent with three workers -/

private def block (id : Nat) (start : Int) : Block where
  id := id
  agent := 0
  start := start
  finish := start + 9
  input := C17.demoInput
  works := [⟨0, start, start, [], 4, true⟩, ⟨1, start, start + 5, [⟨4, 7, 2⟩], 4, false⟩, ⟨2, start + 5, start + 9, [⟨4, 7, 2⟩], 4, false⟩,
    ⟨3, start + 9, start + 9, [], 4, true⟩]

private def firm : Contractor := ⟨4, 0, [(7, 3)]⟩

private def two : Blocks.Plan := ⟨[0, 1], []⟩

/-- The hypotheses can be met: two blocks one after the other. -/
example : validateBlocks two.graph [[firm]] [block 0 1, block 1 10] = true ∧
    (∀ b ∈ [block 0 1, block 1 10], ∀ w ∈ b.works, max w.start w.finish < TIME_INF) ∧
    (∀ b ∈ [block 0 1, block 1 10], (b.works.map (·.id)).Nodup) ∧
    (∀ b ∈ [block 0 1, block 1 10], ∀ w ∈ b.works, ∀ x ∈ w.workers, x.contractor = 4) ∧
    (∀ x ∈ (block 0 1).works, ∀ y ∈ (block 1 10).works, x.finish ≤ y.start) ∧
    (∀ b ∈ [block 0 1, block 1 10], ∀ v ∈ b.input.nodes, b.input.parents v ≠ [] ∨ ∃ u ∈ b.input.nodes, v ∈ b.input.parents u) := by
  decide

/-- Not proved because false: "an accepted schedule never uses more workers than there are".  Two blocks of the same agent at the same time
use four workers of three. -/
theorem overuse_accepted : ∃ (p : Blocks.Plan) (agents : List (List Contractor)) (blocks : List Block),
    (blocks.map (·.id)).Nodup ∧ validateBlocks p.graph agents blocks = true ∧
      (Validate.pool (seen (agents.flatMap id)) (4, 7)) = some 3 ∧ busy (doneBy blocks 0) (4, 7) 2 = 4 :=
  ⟨two, [[firm]], [block 0 1, block 1 1], by decide, by decide, by decide, by decide⟩

/-- Not proved because false: "agents do not share contractors".  Contractors with the same id but other workers are not taken for the same
one: the second agent believes to have five workers of the first one's contractor. -/
theorem shared_id_accepted : ∃ (p : Blocks.Plan) (c d : Contractor) (blocks : List Block), c.id = d.id ∧
    validateBlocks p.graph [[c], [d]] blocks = true ∧ blocks.map (·.agent) = [0, 1] :=
  ⟨two, firm, ⟨4, 0, [(7, 5)]⟩, [block 0 1, { block 1 1 with agent := 1 }], by decide, by decide, by decide⟩

/-- Like `validate_schedule`, a block whose last work never finishes is not checked at all. -/
theorem infinite_block_accepted (b : Block) (hb : ∃ ws w, b.works = ws ++ [w] ∧ max w.start w.finish = TIME_INF) :
    validateBlocks (Blocks.Plan.graph ⟨[b.id], []⟩) [] [b] = true := by
  obtain ⟨ws, w, he, hw⟩ := hb
  rw [accepted_iff (by simp)]
  refine ⟨List.nodup_nil, fun y _ q hq => by simp at hq, fun c hc => ?_⟩
  obtain rfl := List.mem_singleton.mp hc
  rw [he]
  exact C17.infinite_schedule_not_checked w hw

/-- The check over all blocks that is written but not called would refuse right schedules: what ends at the last moment of a block stays
counted as busy in the blocks after it. -/
theorem disabled_check_refuses : ∃ (p : Blocks.Plan) (agents : List (List Contractor)) (blocks : List Block),
    validateBlocks p.graph agents blocks = true ∧ (∀ t, busy (doneBy blocks 0) (4, 7) t ≤ 3) ∧
      (Validate.pool (seen (agents.flatMap id)) (4, 7)) = some 3 ∧ checkGlobally agents blocks = false := by
  refine ⟨two, [[firm]], [block 0 1, block 1 10], by decide, fun t => ?_, by decide, by decide⟩
  have := within_capacity_partial (p := two) (agents := [[firm]]) (blocks := [block 0 1, block 1 10]) (by decide) 0
    (by
      have : (([block 0 1, block 1 10] : List Block).filter fun b => b.agent = 0) = [block 0 1, block 1 10] := rfl
      rw [this]
      refine List.pairwise_pair.mpr (.inl ?_)
      decide) (by decide) (by decide)
    (by
      have : ∀ b ∈ [block 0 1, block 1 10], ∀ w ∈ b.works, ∀ x ∈ w.workers, x.contractor = 4 := by decide
      exact fun b hb w hw => ⟨4, this b hb w hw⟩)
    (by decide) (by decide) t (4, 7)
  exact this

end Sampo.C84
