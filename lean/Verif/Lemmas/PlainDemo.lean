import Verif.Lemmas.PlainPipeline
import Verif.Props.C106_Even
import Verif.Props.C107_OrderOptimizers

/-! # A project for the pipeline -/

namespace Sampo.PlainDemo
open PlainPipeline Sampo.Scheduler
open Pipeline (canPerformGraph)

/-- Works 1 and 2 are inseparable, work 3 may be done beside them; work 4 is the finish. -/
def twoEdges : List Edge := [⟨0, 1, 0, .finishStart⟩, ⟨0, 3, 2, .lagFinishStart⟩, ⟨1, 2, 0, .inseparable⟩,
  ⟨3, 4, 0, .finishStart⟩, ⟨2, 4, 0, .finishStart⟩]
def works : List Nat := [0, 1, 3, 2, 4]
def demoReqs (v : Nat) : List WorkerReq := if v = 0 ∨ v = 4 ∨ 4 < v then [] else [⟨0, 1, 2⟩]
def demoSite : Env Unit :=
  { Demo.env with kinds := fun v => (demoReqs v).map (·.kind), service := fun v => v == 0 || v == 4 || decide (4 < v),
                  estimate := fun v team => if team = [] then 0 else min (10 * v) 40 }
def demoContractors : List Contractor := [⟨7, [(0, 3)]⟩, ⟨8, [(0, 1)]⟩]
def demoSettings : Settings Unit := ⟨demoSite, (), fun _ => false, 5⟩
def demoOpt (_ : JIT.State Unit) (_ : Nat) (_ : Contractor) : Optimizer := Optimize.averageReq 1 1
def two : Project := ⟨Graph.ofEdges twoEdges, works, demoReqs, fun v => 10 - v⟩

theorem two_edge {v : Nat} {e : Edge} (h : e ∈ two.graph.edgesTo v) : e ∈ twoEdges ∧ e.finish = v := by
  change e ∈ (Graph.ofEdges twoEdges).edgesTo v at h
  rw [Graph.ofEdges_to] at h
  exact ⟨(List.mem_filter.1 h).1, by simpa using (List.mem_filter.1 h).2⟩

theorem demo_reqs (v : Nat) : C16.SoundReqs (demoReqs v) ∧ ((demoReqs v).map (·.kind)).Nodup := by
  unfold demoReqs
  split <;> simp [C16.SoundReqs]

theorem two_sound : SoundProject two where
  graph := {
    once := by decide
    linked := Graph.linked_ofEdges _
    closed := Graph.closed_ofEdges (by decide)
    chains := Graph.chains_ofEdges (by decide)
    acyclic := Graph.acyclic_ofEdges (fun v => v) (by decide) }
  deps := fun _ e he =>
    (by decide : ∀ e ∈ twoEdges, e.type = .finishStart ∨ e.type = .lagFinishStart ∨ e.type = .inseparable) e (two_edge he).1
  some := by decide
  chains := .inl (by
    rintro v a b ⟨e, he, rfl, ht⟩ ⟨e', he', rfl, -⟩
    obtain ⟨h1, h2⟩ := two_edge he
    obtain ⟨h1', h2'⟩ := two_edge he'
    exact (by decide : ∀ e ∈ twoEdges, ∀ e' ∈ twoEdges, e.type = .inseparable → e'.finish = e.finish → e'.start = e.start)
      e h1 e' h1' ht (by rw [h2, h2']))
  reqs := demo_reqs
  outside := fun v hv => by
    show demoReqs v = []
    unfold demoReqs
    rw [if_pos]
    by_contra hn
    have : v = 1 ∨ v = 2 ∨ v = 3 := by omega
    rcases this with rfl | rfl | rfl <;> exact hv (by decide)

theorem demo_site : NoSiteLimits demoSite :=
  ⟨fun _ _ _ => Int.le_refl _, fun _ _ _ _ => Int.le_refl _, fun s _ t => ⟨s, t, rfl, Int.le_refl _⟩, fun s _ _ _ => ⟨s, rfl⟩,
    fun s => ⟨s, 0, rfl, Int.le_refl _⟩⟩

theorem demo_est (v : Nat) (team : List Worker) : 0 ≤ demoSite.estimate v team ∧ demoSite.estimate v team ≤ 40 := by
  simp only [demoSite]
  split <;> omega

theorem demo_contractors : C16.SoundContractors demoContractors := by unfold C16.SoundContractors; decide

theorem demo_can : canPerformGraph demoContractors (works.map demoReqs) = some true := by decide

theorem two_lags (v : Nat) (e : Edge) (he : e ∈ two.graph.edgesTo v) : e.lag ≤ 2 :=
  (by decide : ∀ e ∈ twoEdges, e.lag ≤ 2) e (two_edge he).1

theorem two_same (k v : Nat) (h : two.graph.InChain k v) : demoSite.kinds v = demoSite.kinds k ∨ demoSite.kinds v = [] := by
  induction h with
  | refl => exact .inl rfl
  | @tail b c _ hf ih =>
    obtain ⟨e, he, rfl, ht⟩ := hf
    obtain ⟨h1, rfl⟩ := two_edge he
    have key : ∀ e ∈ twoEdges, e.type = .inseparable → demoSite.kinds e.finish = demoSite.kinds e.start := by decide
    rw [key e h1 ht]
    exact ih

theorem two_chain_lag (k v : Nat) (e : Edge) (he : e ∈ two.graph.edgesTo v) (h1 : two.graph.InChain k v)
    (h2 : two.graph.InChain k e.start) : e.lag ≤ 0 := by
  obtain ⟨hm, rfl⟩ := two_edge he
  by_contra hl
  obtain ⟨h3, h0⟩ := (by decide : ∀ e ∈ twoEdges, ¬ e.lag ≤ 0 → e.finish = 3 ∧ e.start = 0) e hm hl
  rw [h3] at h1
  rw [h0] at h2
  have nofollow : ∀ q, ¬ two.graph.Follows q 3 ∧ ¬ two.graph.Follows q 0 := by
    intro q
    constructor <;>
    · rintro ⟨e, he, -, ht⟩
      obtain ⟨hm, hf⟩ := two_edge he
      have := (by decide : ∀ e ∈ twoEdges, e.type = .inseparable → e.finish ≠ 3 ∧ e.finish ≠ 0) e hm ht
      omega
  rcases Relation.ReflTransGen.cases_tail h1 with h | ⟨c, -, hf⟩
  · rcases Relation.ReflTransGen.cases_tail h2 with h' | ⟨c, -, hf⟩
    · omega
    · exact (nofollow _).2 hf
  · exact (nofollow _).1 hf

end Sampo.PlainDemo
