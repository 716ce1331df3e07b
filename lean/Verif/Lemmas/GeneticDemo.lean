import Verif.Lemmas.GeneticRun
import Verif.Props.C89_Schedulers

/-!
# A small project for the genetic scheduler

Graph of `C22.demo`: works 0 (start), 1 and 2 (a chain; 2 also waits for 3), 3 (waits for 0 with lag 2) and 4 (finish).  Two
contractors with two kinds of workers; work 3 may be done only by contractor 0.
-/

namespace Sampo.GeneticDemo

open GeneticRun

def works : List Nat := [0, 1, 3, 2, 4]

def reqs (v : Nat) : List WorkerReq := if v = 3 then [⟨0, 1, 2⟩, ⟨1, 1, 2⟩] else if v = 1 ∨ v = 2 then [⟨0, 1, 2⟩] else []

def J : Project where
  graph := C22.demo
  nodes := works
  contractors := [⟨0, [(0, 3), (1, 2)]⟩, ⟨1, [(0, 1), (1, 4)]⟩]
  reqs := reqs
  prio v := if v = 4 then 2 else 1
  spec v := if v = 3 then ⟨[0], []⟩ else ⟨[], []⟩

def site : Env Unit := { Demo.env with estimate := fun v team => if team = [] then 0 else min (10 * v) 40 }

theorem graph : C22.WorkGraph C22.demo works where
  once := by decide
  linked := Graph.linked_ofEdges _
  closed := Graph.closed_ofEdges (by decide)
  chains := Graph.chains_ofEdges (by decide)
  acyclic := Graph.acyclic_ofEdges (fun v => if v = 3 then 1 else v) (by decide)

theorem collapse : Heads.collapse C22.demo works =
    some ([0, 3, 1, 4], [(0, []), (1, [0, 3]), (3, [0]), (4, [1])], [(0, [1, 3]), (1, [4]), (3, [1]), (4, [])]) := by decide

theorem agrees : C89.PrioritiesAgree J.prio C22.demo works := by
  intro a b hd
  have hb := ((C22.collapse_tables graph collapse a b).1).2 hd
  have ha : a ∈ [0, 3, 1, 4] := ((C22.collapse_preserves_dependencies graph collapse).2.1 a).2 hd.1
  have key : ∀ a ∈ [0, 3, 1, 4], ∀ b ∈ (List.lookup a [(0, []), (1, [0, 3]), (3, [0]), (4, [1])]).getD [],
      J.prio b ≤ J.prio a := by decide
  exact key a ha b hb

theorem acyclic : Acyclic (C22.demo.HeadDependsOn works) := by
  by_contra hn
  have := (C22.error_iff_chain_cycle graph).2 hn
  rw [collapse] at this
  cases this

theorem contractors : Numbered J.contractors 2 where
  nonempty := by decide
  ids i c h := by
    match i, h with
    | 0, h => cases h; rfl
    | 1, h => cases h; rfl
    | i + 2, h => simp [J] at h
  kinds := by decide
  counts := by decide

theorem sound : Sound J 2 where
  graph := graph
  works := by decide
  acyclic := acyclic
  prios := agrees
  contractors := contractors
  reqs v := by
    show C16.SoundReqs (reqs v) ∧ ((reqs v).map (·.kind)).Nodup ∧ ∀ r ∈ reqs v, r.kind < 2
    unfold reqs C16.SoundReqs
    split
    · decide
    · split
      · decide
      · simp
  spec v c hc := by
    simp only [J] at hc ⊢
    split at hc
    · simp at hc; subst hc; decide
    · simp at hc

def edges : List Edge := [⟨0, 1, 0, .finishStart⟩, ⟨0, 3, 2, .lagFinishStart⟩, ⟨1, 2, 0, .inseparable⟩,
  ⟨3, 2, 0, .finishStart⟩, ⟨2, 4, 0, .finishStart⟩]

theorem edge {v : Nat} {e : Edge} (h : e ∈ C22.demo.edgesTo v) : e ∈ edges ∧ e.finish = v := by
  unfold C22.demo at h
  rw [Graph.ofEdges_to] at h
  exact ⟨(List.mem_filter.1 h).1, by simpa using (List.mem_filter.1 h).2⟩

theorem deps : C89.OnlyDependencies C22.demo := fun _ e he =>
  (by decide : ∀ e ∈ edges, e.type = .finishStart ∨ e.type = .lagFinishStart ∨ e.type = .inseparable) e (edge he).1

theorem lag {v : Nat} {e : Edge} (h : e ∈ C22.demo.edgesTo v) : 0 ≤ e.lag := (by decide : ∀ e ∈ edges, 0 ≤ e.lag) e (edge h).1

theorem noLimits : NoSiteLimits site :=
  ⟨fun _ _ _ => Int.le_refl _, fun _ _ _ _ => Int.le_refl _, fun s _ t => ⟨s, t, rfl, Int.le_refl _⟩, fun s _ _ _ => ⟨s, rfl⟩,
    fun s => ⟨s, 0, rfl, Int.le_refl _⟩⟩

theorem est (v : Nat) (team : List Worker) : 0 ≤ site.estimate v team := by
  simp only [site]
  split <;> omega

theorem staff (v : Nat) : C54.Staffable J.contractors (J.spec v) (J.reqs v) := by
  refine ⟨(sound.reqs v).1, (sound.reqs v).2.1, ?_, ⟨0, [(0, 3), (1, 2)]⟩, by decide, ?_, ?_⟩
  · simp only [J]; split <;> simp
  · simp only [J, C14.Admissible]; split <;> simp
  · intro r hr
    have key : ∀ r ∈ ([⟨0, 1, 2⟩, ⟨1, 1, 2⟩] : List WorkerReq), ∃ n, [(0, 3), (1, 2)].lookup r.kind = some n ∧ r.minCount ≤ n := by
      intro r hr
      simp only [List.mem_cons, List.not_mem_nil, or_false] at hr
      rcases hr with rfl | rfl
      · exact ⟨3, rfl, by decide⟩
      · exact ⟨2, rfl, by decide⟩
    have hr' : r ∈ ([⟨0, 1, 2⟩, ⟨1, 1, 2⟩] : List WorkerReq) := by
      simp only [J, reqs] at hr
      split at hr
      · exact hr
      · split at hr
        · simp at hr; simp [hr]
        · simp at hr
    obtain ⟨n, h1, h2⟩ := key r hr'
    refine ⟨n, h1, h2, ?_⟩
    intro x hx
    simp only [J] at hx
    split at hx <;> simp at hx

end Sampo.GeneticDemo
