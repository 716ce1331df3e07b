import Verif.Lemmas.Pipeline

/-!
# C47: a generated contractor can execute the graph

The counts are non-negative numbers; a scaler below 1 is refused.
-/

namespace Sampo.C47

open Pipeline

/-- The generated contractor owns, for every required type of workers, at least the bound chosen of every requirement: the
minimum, the maximum, or the average (in whole workers). -/
theorem owns_bound {id : Nat} {nodes : List (List WorkerReq)} {scaler : ℚ} {m : Method} {c : Contractor}
    (h : contractorByGraph id nodes scaler m = some c) : ∀ reqs ∈ nodes, ∀ r ∈ reqs, 0 ≤ r.minCount → 0 ≤ r.maxCount →
    ∃ n, c.workers.lookup r.kind = some n ∧ boundOf m r ≤ n := by
  intro reqs hreqs r hr h0 h1
  have hv := valueByReq_eq (m := m) h0 h1
  obtain ⟨n, h2, h3⟩ := (contractorByGraph_spec h).2.2.2 reqs hreqs r hr (by
    rw [hv]; cases m <;> simp only [boundOf] <;> omega)
  exact ⟨n, h2, by rw [← hv]; exact h3⟩

/-- It owns no other types, each type once. -/
theorem owns_only {id : Nat} {nodes : List (List WorkerReq)} {scaler : ℚ} {m : Method} {c : Contractor}
    (h : contractorByGraph id nodes scaler m = some c) : (c.workers.map (·.1)).Nodup ∧
    ∀ w ∈ c.workers, ∃ reqs ∈ nodes, ∃ r ∈ reqs, r.kind = w.1 :=
  ⟨(contractorByGraph_spec h).2.1, (contractorByGraph_spec h).2.2.1⟩

/-- A contractor is generated exactly for scalers from 1 on. -/
theorem generated_iff {id : Nat} {nodes : List (List WorkerReq)} {scaler : ℚ} {m : Method} :
    (∃ c, contractorByGraph id nodes scaler m = some c) ↔ 1 ≤ scaler := by
  unfold contractorByGraph
  split
  · rename_i h; simp; exact h
  · rename_i h; simp at h ⊢; exact h

/-- With the scaler 1 the contractor owns, of every type, exactly the largest bound of the requirements. -/
theorem owns_exactly {id : Nat} {nodes : List (List WorkerReq)} {m : Method} {c : Contractor}
    (h : contractorByGraph id nodes 1 m = some c) (hall : ∀ reqs ∈ nodes, ∀ r ∈ reqs, 0 ≤ r.minCount ∧ 0 ≤ r.maxCount) :
    ∀ w ∈ c.workers, ∃ reqs ∈ nodes, ∃ r ∈ reqs, r.kind = w.1 ∧ boundOf m r = w.2 := by
  unfold contractorByGraph at h
  rw [if_neg (by norm_num)] at h
  simp only [Option.some.injEq] at h
  subst h
  intro w hw
  unfold makeContractor at hw
  obtain ⟨p, hp, rfl⟩ := List.mem_map.mp hw
  have hp := lastOfGroups_keys hp
  rw [List.mem_mergeSort] at hp
  obtain ⟨r, hr, rfl⟩ := List.mem_map.mp hp
  obtain ⟨reqs, h1, h2⟩ := List.mem_flatten.mp hr
  obtain ⟨h3, h4⟩ := hall reqs h1 r h2
  refine ⟨reqs, h1, r, h2, rfl, ?_⟩
  dsimp only
  have h0 : 0 ≤ boundOf m r := by cases m <;> simp only [boundOf] <;> omega
  rw [valueByReq_eq h3 h4, mul_one]
  generalize boundOf m r = b at h0
  unfold randInt roundHalfEven
  have hf : (⌊(b : ℚ)⌋ : Int) = b := Int.floor_intCast b
  have e1 : toInt ((b : ℚ) + 100000) = b + 100000 := by
    unfold toInt
    rw [if_pos (by have : (0 : ℚ) ≤ b := by exact_mod_cast h0
                   linarith)]
    have : ((b : ℚ) + 100000) = ((b + 100000 : Int) : ℚ) := by push_cast; ring
    rw [this, Int.floor_intCast]
  have e2 : toInt ((b : ℚ) - 100000) = b - 100000 := by
    have : ((b : ℚ) - 100000) = ((b - 100000 : Int) : ℚ) := by push_cast; ring
    unfold toInt
    rw [this, Int.floor_intCast, Int.ceil_intCast]
    split <;> rfl
  rw [hf, e1, e2]
  simp only [sub_self]
  norm_num

/-- The pipeline's check accepts generated contractors: at least one, and minima not above maxima. -/
theorem accepted {nodes : List (List WorkerReq)} {scaler : ℚ} {m : Method} {number : Nat} {cs : List Contractor} (hn : 0 < number)
    (hall : ∀ reqs ∈ nodes, ∀ r ∈ reqs, 0 ≤ r.minCount ∧ r.minCount ≤ r.maxCount)
    (h : contractorsOf nodes (.generate m number scaler) = some cs) : canPerformGraph cs nodes = some true := by
  have hmem : ∀ c ∈ cs, ∃ i, contractorByGraph i nodes scaler m = some c := by
    intro c hc
    unfold contractorsOf at h
    have h := mapM_some h
    have key : ∀ {is : List Nat} {ds : List Contractor}, List.Forall₂ (fun i d => contractorByGraph i nodes scaler m = some d) is ds →
        ∀ d ∈ ds, ∃ i, contractorByGraph i nodes scaler m = some d := by
      intro is ds hf
      induction hf with
      | nil => intro d hd; simp at hd
      | cons h1 _ ih =>
        intro d hd
        rcases List.mem_cons.mp hd with rfl | hd
        · exact ⟨_, h1⟩
        · exact ih d hd
    exact key h c hc
  have hcap : ∀ c ∈ cs, ∀ reqs ∈ nodes, Capable c reqs := by
    intro c hc reqs hreqs r hr
    obtain ⟨i, hi⟩ := hmem c hc
    obtain ⟨h0, h1⟩ := hall reqs hreqs r hr
    obtain ⟨n, h2, h3⟩ := owns_bound hi reqs hreqs r hr h0 (by omega)
    refine ⟨n, h2, ?_⟩
    cases m <;> simp only [boundOf] at h3 <;> omega
  obtain ⟨b, hb⟩ := nodeLoop_exists (cs := cs) (nodes := nodes) true 0 (by
    intro c hc reqs hreqs r hr
    obtain ⟨n, h2, _⟩ := hcap c hc reqs hreqs r hr
    exact ⟨n, h2⟩)
  unfold canPerformGraph
  rw [hb]
  have hlen : ∃ c, c ∈ cs := by
    unfold contractorsOf at h
    have h := mapM_some h
    have hl := h.length_eq
    rw [List.length_range] at hl
    cases cs with
    | nil => simp at hl; omega
    | cons c cs => exact ⟨c, by simp⟩
  obtain ⟨c, hc⟩ := hlen
  have := (nodeLoop_some hb).mpr fun reqs hreqs => ⟨c, hc, hcap c hc reqs hreqs⟩
  rw [this]

/-- The hypotheses are met; one type is required twice, with the larger bound first. -/
example : contractorByGraph 0 [[⟨2, 3, 8⟩, ⟨1, 1, 4⟩], [], [⟨2, 1, 4⟩]] (3 / 2) .avg = some ⟨0, [(1, 3), (2, 8)]⟩ ∧
    contractorByGraph 0 [[⟨2, 3, 8⟩]] (1 / 2) .avg = none := by
  have hs : ([(2, 5), (1, 2), (2, 2)] : List (Nat × Int)).mergeSort pairLe = [(1, 2), (2, 2), (2, 5)] := by
    simp [List.mergeSort, List.MergeSort.Internal.splitInTwo, List.splitAt, List.splitAt.go, pairLe]
  have hl : ((([[⟨2, 3, 8⟩, ⟨1, 1, 4⟩], [], [⟨2, 1, 4⟩]] : List (List WorkerReq)).flatten).map fun r => (r.kind, valueByReq .avg r)) =
      [(2, 5), (1, 2), (2, 2)] := by decide +kernel
  refine ⟨?_, by unfold contractorByGraph; rw [if_pos (by norm_num)]⟩
  unfold contractorByGraph
  rw [if_neg (by norm_num), hl, hs]
  decide +kernel

end Sampo.C47
