import Verif.Lemmas.Pipeline
import Verif.Lemmas.Contractor

/-!
# C45: the contractor feasibility check of the pipeline is exact

Whenever the check gives an answer, the answer is right.  It gives none if it meets a contractor without an entry for a required
type of workers.
-/

namespace Sampo.C45

open Pipeline

/-- The answer of the check is right: yes exactly when for every work some contractor owns at least the minimum number of each
required type of workers. -/
theorem answer_exact {cs : List Contractor} {nodes : List (List WorkerReq)} {b : Bool} (h : canPerformGraph cs nodes = some b) :
    b = true ↔ ∀ reqs ∈ nodes, ∃ c ∈ cs, ∀ r ∈ reqs, ∃ n, c.workers.lookup r.kind = some n ∧ r.minCount ≤ n :=
  nodeLoop_some h

/-- Partial: the check accepts exactly the lists of contractors who can do every work, if each contractor has an entry (which may
be zero) for every required type of workers.  Missing: contractors without an entry, see `check_fails`. -/
theorem accepted_iff_partial {cs : List Contractor} {nodes : List (List WorkerReq)}
    (hc : ∀ c ∈ cs, ∀ reqs ∈ nodes, ∀ r ∈ reqs, ∃ n, c.workers.lookup r.kind = some n) :
    (canPerformGraph cs nodes = some true ↔ Feasible cs nodes) ∧ (canPerformGraph cs nodes = some false ↔ ¬ Feasible cs nodes) := by
  obtain ⟨b, hb⟩ := nodeLoop_exists true 0 hc
  have h := nodeLoop_some hb
  unfold canPerformGraph
  rw [hb]
  cases b <;> simp_all

/-- What acceptance is for: the scheduler then finds, for every work, a contractor of whom it can form a team, so that no work is
refused for want of workers. -/
theorem accepted_teams {cs : List Contractor} {nodes : List (List WorkerReq)} (h : canPerformGraph cs nodes = some true)
    (hids : (cs.map (·.id)).Nodup) (hw : ∀ c ∈ cs, (c.workers.map (·.1)).Nodup) :
    ∀ reqs ∈ nodes, ∃ c ∈ cs, (getWorkerBorders (getPool cs) c.id reqs).2.2.length = reqs.length ∧
      (getWorkerBorders (getPool cs) c.id reqs).1 = reqs.map (·.minCount) := by
  intro reqs hr
  obtain ⟨c, hc, hcap⟩ := (nodeLoop_some h).mp rfl reqs hr
  refine ⟨c, hc, ?_⟩
  have hall : ∀ r ∈ reqs, ∃ n, getPool cs r.kind c.id = some n ∧ r.minCount ≤ n := by
    intro r hr
    rw [getPool_of_mem hids hw hc]
    exact hcap r hr
  unfold getWorkerBorders
  rw [borders_go, if_pos hall]
  simp

/-- What a refusal means: some work cannot be done by any of the contractors; with each of them the scheduler forms no team. -/
theorem refused_no_team {cs : List Contractor} {nodes : List (List WorkerReq)} (h : canPerformGraph cs nodes = some false)
    (hids : (cs.map (·.id)).Nodup) (hw : ∀ c ∈ cs, (c.workers.map (·.1)).Nodup) :
    ∃ reqs ∈ nodes, ∀ c ∈ cs, (getWorkerBorders (getPool cs) c.id reqs).2.2 = [] ∧ reqs ≠ [] := by
  have hn : ¬ Feasible cs nodes := fun hf => by have := (nodeLoop_some h).mpr hf; simp at this
  unfold Feasible at hn
  push Not at hn
  obtain ⟨reqs, hr, hno⟩ := hn
  refine ⟨reqs, hr, fun c hc => ?_⟩
  have hall : ¬ ∀ r ∈ reqs, ∃ n, getPool cs r.kind c.id = some n ∧ r.minCount ≤ n := by
    intro hall
    refine hno c hc fun r hr => ?_
    rw [← getPool_of_mem hids hw hc]
    exact hall r hr
  constructor
  · unfold getWorkerBorders
    rw [borders_go, if_neg hall]
  · rintro rfl
    exact hall (by simp)

/-- Not proved because false: "the check accepts every list of contractors who can do every work".  A contractor who has no
entry for a required type makes it raise, although another contractor could do the work. -/
theorem check_fails : ∃ (cs : List Contractor) (nodes : List (List WorkerReq)), Feasible cs nodes ∧ canPerformGraph cs nodes = none := by
  refine ⟨[⟨0, [(1, 5)]⟩, ⟨1, [(1, 5), (2, 3)]⟩], [[⟨2, 1, 4⟩]], ?_, rfl⟩
  intro reqs hr
  simp at hr; subst hr
  exact ⟨⟨1, [(1, 5), (2, 3)]⟩, by simp, fun r hr => by simp at hr; subst hr; exact ⟨3, rfl, by decide⟩⟩

/-- The hypotheses are met: two contractors, each of whom can do one of the works, and one work too many. -/
example : canPerformGraph [⟨0, [(1, 5), (2, 0)]⟩, ⟨1, [(1, 2), (2, 3)]⟩] [[⟨2, 1, 4⟩], [⟨1, 4, 6⟩], []] = some true ∧
    canPerformGraph [⟨0, [(1, 5), (2, 0)]⟩, ⟨1, [(1, 2), (2, 3)]⟩] [[⟨2, 1, 4⟩], [⟨1, 4, 6⟩, ⟨2, 1, 4⟩]] = some false ∧
    (getWorkerBorders (getPool [⟨0, [(1, 5), (2, 0)]⟩, ⟨1, [(1, 2), (2, 3)]⟩]) 1 [⟨2, 1, 4⟩]).2.2 = [⟨1, 2, 3⟩] := by decide

end Sampo.C45
