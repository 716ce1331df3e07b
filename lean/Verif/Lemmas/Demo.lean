import Verif.Lemmas.Sched

/-!
# A small project used to show that hypotheses of the scheduling theorems can be met

Works 0 (start), 1 and 2 (an inseparable chain; 2 also waits for 3), 3 (waits for 0 with lag 2) and 4 (finish).  One contractor with
three workers of one kind; the chain and work 3 need two each, so they cannot run together.
-/

namespace Sampo.Demo

def edges : Nat → List (Nat × Int)
  | 1 => [(0, 0)]
  | 2 => [(1, 0), (3, 0)]
  | 3 => [(0, 2)]
  | 4 => [(1, 0), (2, 0), (3, 0)]
  | _ => []

def chain : Nat → List Nat
  | 1 => [1, 2]
  | v => [v]

def env : Env Unit where
  edgesTo := edges
  insepParent := fun v => if v = 2 then some 1 else none
  chain := chain
  service := fun v => v == 0 || v == 4
  kinds := fun v => if v = 0 ∨ v = 4 then [] else [0]
  estimate := fun v team => if team = [] then 0 else 10 * v
  matTime := fun _ _ t => t
  zoneTime := fun _ _ t _ => t
  deliver := fun s _ t => some (s, t)
  occupy := fun s _ _ _ => some s
  finishZones := fun s => some (s, 0)

def pool : AgentId → Option Int := fun a => if a = (0, 0) then some 3 else none

def teamOf (v : Nat) : List Worker := if v = 0 ∨ v = 4 then [] else [⟨0, 0, 2⟩]

/-- The plan: teams as above, no assigned durations, project start at 5. -/
def plan (S : Type) : Plan S := ⟨fun _ v => some (teamOf v, 0), fun _ => false, fun _ => none, 5⟩

/-- Head works in a topological order. -/
def order : List Nat := [0, 3, 1, 4]

theorem estimate_nonneg (v : Nat) (team : List Worker) : 0 ≤ env.estimate v team := by
  simp only [env]; split <;> omega

theorem chain_self (v : Nat) : v ∈ env.chain v := by
  simp only [env]; unfold chain; split <;> simp

theorem team_ok (S : Type) (st : S) (v : Nat) (team : List Worker) (c : Nat) (h : (plan S).choose st v = some (team, c)) :
    WellFormedTeam team ∧ WithinPool pool team := by
  simp only [plan, Option.some.injEq, Prod.mk.injEq] at h
  obtain ⟨rfl, _⟩ := h
  unfold teamOf
  split
  · exact ⟨by decide, fun w hw => by simp at hw⟩
  · refine ⟨by decide, fun w hw => ?_⟩
    simp at hw; subst hw; exact ⟨3, rfl, by decide⟩

theorem timesInRange {sw : Sched} (h : ∀ x ∈ sw, x.2.finish ≤ 900) : TimesInRange env.edgesTo 1000 sw := by
  intro x hx v e he _
  have := h x hx
  have hl : e.2 ≤ 2 := by
    simp only [env] at he
    unfold edges at he
    split at he <;> simp at he <;> (try rcases he with rfl | rfl | rfl) <;>
      simp
  omega

theorem topo : TopoList (fun v => (env.edgesTo v).map (·.1)) (order.flatMap env.chain) :=
  topoList_of_from (by decide)

theorem nodup : (order.flatMap env.chain).Nodup := by decide

end Sampo.Demo
