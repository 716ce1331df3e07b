import Verif.Lemmas.Contractor

/-! # C15: worker borders respect requirements and the pool -/

namespace Sampo.C15

/-- The contractor has enough workers of each required type. -/
def CanDo (pool : WPool) (c : Nat) (reqs : List WorkerReq) : Prop :=
  ∀ r ∈ reqs, ∃ n, pool r.kind c = some n ∧ r.minCount ≤ n

/-- If it has, there is one border pair and one worker per requirement, in their order: lower border `min_count`, upper
border `min(max_count, available)` and all available workers of the type. -/
theorem borders_of_able_contractor (pool : WPool) (c : Nat) (reqs : List WorkerReq) (h : CanDo pool c reqs)
    (lo hi : List Int) (ws : List Worker) (hb : getWorkerBorders pool c reqs = (lo, hi, ws)) :
    lo.length = reqs.length ∧ hi.length = reqs.length ∧ ws.length = reqs.length ∧
    ∀ (i : Nat) (r : WorkerReq), reqs[i]? = some r → ∃ n, pool r.kind c = some n ∧ r.minCount ≤ n ∧ lo[i]? = some r.minCount ∧
      hi[i]? = some (min r.maxCount n) ∧ ws[i]? = some ⟨c, r.kind, n⟩ := by
  unfold CanDo at h
  unfold getWorkerBorders at hb
  rw [borders_go, if_pos h] at hb
  simp only [List.nil_append, Prod.mk.injEq] at hb
  obtain ⟨rfl, rfl, rfl⟩ := hb
  refine ⟨by simp, by simp, by simp, ?_⟩
  intro i r hi
  obtain ⟨n, hn, hle⟩ := h r (List.mem_of_getElem? hi)
  exact ⟨n, hn, hle, by simp [hi], by simp [hi, hn], by simp [hi, hn]⟩

/-- Otherwise the borders and the team are empty, and since some requirement exists the caller sees that the team has a
wrong length. -/
theorem no_team_otherwise (pool : WPool) (c : Nat) (reqs : List WorkerReq) (h : ¬ CanDo pool c reqs) :
    getWorkerBorders pool c reqs = ([], [], []) ∧ (getWorkerBorders pool c reqs).2.2.length ≠ reqs.length := by
  have he : getWorkerBorders pool c reqs = ([], [], []) := by
    unfold getWorkerBorders
    unfold CanDo at h
    rw [borders_go, if_neg h]
  refine ⟨he, ?_⟩
  rw [he]
  intro h0
  have : reqs = [] := List.length_eq_zero_iff.mp h0.symm
  subst this
  exact h (by intro r hr; simp at hr)

/-- So the length test of the schedulers is exact. -/
theorem length_test_exact (pool : WPool) (c : Nat) (reqs : List WorkerReq) :
    (getWorkerBorders pool c reqs).2.2.length = reqs.length ↔ CanDo pool c reqs := by
  constructor
  · intro h
    by_contra hc
    exact (no_team_otherwise pool c reqs hc).2 h
  · intro h
    exact (borders_of_able_contractor pool c reqs h _ _ _ rfl).2.2.1

-- a pool of two contractors; contractor 1 lacks type 1
private def pool : WPool := getPool [⟨0, [(0, 7), (1, 2)]⟩, ⟨1, [(0, 5)]⟩]
example : getWorkerBorders pool 0 [⟨0, 2, 4⟩, ⟨1, 1, 9⟩] = ([2, 1], [4, 2], [⟨0, 0, 7⟩, ⟨0, 1, 2⟩]) := by decide
example : getWorkerBorders pool 1 [⟨0, 2, 4⟩, ⟨1, 1, 9⟩] = ([], [], []) := by decide
example : CanDo pool 0 [⟨0, 2, 4⟩, ⟨1, 1, 9⟩] := by
  intro r hr
  simp at hr
  rcases hr with rfl | rfl
  · exact ⟨7, by decide⟩
  · exact ⟨2, by decide⟩
example : ¬ CanDo pool 1 [⟨0, 2, 4⟩, ⟨1, 1, 9⟩] := by
  intro h
  obtain ⟨n, hn, _⟩ := h ⟨1, 1, 9⟩ (by simp)
  revert hn
  simp [pool, getPool]

end Sampo.C15
