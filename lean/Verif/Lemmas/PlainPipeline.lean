import Verif.Spec.PlainPipeline
import Verif.Props.C21_PriorityCorrection

/-!
# Lemmas: corrected priorities agree with the dependencies of chains
-/

namespace Sampo.PlainPipeline
open C22 (WorkGraph)
open C89 (PrioritiesAgree)

variable {p : Project}

theorem chain_parent (hw : WorkGraph p.graph p.works) {k v : Nat} (hk : k ∈ p.works) (h : p.graph.InChain k v) {prio : Nat → Int}
    (hp : ∀ v ∈ p.works, ∀ q ∈ p.graph.parents v, prio q ≤ prio v) : v ∈ p.works ∧ prio k ≤ prio v := by
  induction h with
  | refl => exact ⟨hk, Int.le_refl _⟩
  | @tail b c _ hf ih =>
    have hc : c ∈ p.works := by
      obtain ⟨e, he, hs, -⟩ := hf
      have hfin := hw.linked.finish _ e he
      have : e ∈ p.graph.edgesFrom e.start := (hw.linked.both e).1 (by rw [hfin]; exact he)
      rw [hs] at this
      have := (hw.closed b ih.1).2 e this
      rwa [hfin] at this
    refine ⟨hc, Int.le_trans ih.2 (hp c hc b ?_)⟩
    rw [Graph.mem_parents]
    obtain ⟨e, he, hs, ht⟩ := hf
    exact ⟨e, he, hs, .inr (.inr ht)⟩

theorem enters {a b : Nat} (hg : WorkGraph p.graph p.works) (hent : p.graph.EnteredAtHeads)
    (h : p.graph.HeadDependsOn p.works a b) : ∃ w, p.graph.InChain b w ∧ p.graph.DependsOn a w := by
  obtain ⟨ha, hb, hne, v, w, hv, hw, hd⟩ := h
  rcases Relation.ReflTransGen.cases_tail hv with rfl | ⟨c, hc, hf⟩
  · exact ⟨w, hw, hd⟩
  · have := hent v c w hf hd
    subst this
    exact absurd (Graph.head_unique hg.chains hb ha hw hc) hne

theorem heads_acyclic (hp : SoundProject p) : Acyclic (p.graph.HeadDependsOn p.works) := by
  rcases hp.chains with hent | h
  · have key : ∀ a b, p.graph.HeadDependsOn p.works a b → Relation.TransGen p.graph.DependsOn a b := by
      intro a b h
      obtain ⟨w, hw, hd⟩ := enters hp.graph hent h
      refine Relation.TransGen.head' hd ?_
      clear hd h
      induction hw with
      | refl => exact .refl
      | @tail x y _ hf ih =>
        obtain ⟨e, he, hs, ht⟩ := hf
        exact Relation.ReflTransGen.head ⟨e, he, hs, .inr (.inr ht)⟩ ih
    intro x hx
    refine hp.graph.acyclic x ?_
    have : ∀ y, Relation.TransGen (p.graph.HeadDependsOn p.works) x y → Relation.TransGen p.graph.DependsOn x y := by
      intro y hy
      induction hy with
      | single h => exact key _ _ h
      | tail _ h ih => exact ih.trans (key _ _ h)
    exact this x hx
  · exact h.2

theorem corrected (hp : SoundProject p) : ∃ prio, Priority.correct p.graph.parents p.works.length p.works p.prio = some prio ∧
    PrioritiesAgree prio p.graph p.works := by
  have hac : Acyclic fun x q => q ∈ p.graph.parents x := by
    have : (fun x q => q ∈ p.graph.parents x) = p.graph.DependsOn := by
      funext x q
      exact propext (Graph.mem_parents x q)
    rw [this]
    exact hp.graph.acyclic
  obtain ⟨prio, h1, h2, -, -, h5⟩ := C21.corrected_priorities p.graph.parents p.works hp.graph.once (fun x hx y hy => by
    rw [Graph.mem_parents] at hy
    obtain ⟨e, he, rfl, -⟩ := hy
    exact (hp.graph.closed x hx).1 e he) hac p.works.length (Nat.le_refl _) p.prio
  rcases hp.chains with hent | heq
  · refine ⟨prio, h1, fun a b h => ?_⟩
    obtain ⟨w, hw, hd⟩ := enters hp.graph hent h
    obtain ⟨-, hle⟩ := chain_parent hp.graph h.2.1.1 hw h2
    exact Int.le_trans hle (h2 a h.1.1 w ((Graph.mem_parents a w).2 hd))
  · refine ⟨p.prio, C21.consistent_unchanged _ _ _ _ fun v hv q hq => ?_, fun a b h => ?_⟩
    · rw [Graph.mem_parents] at hq
      obtain ⟨e, he, rfl, -⟩ := hq
      exact (heq.1 _ _ ((hp.graph.closed v hv).1 e he) hv).le
    · exact (heq.1 b a h.2.1.1 h.1.1).le

end Sampo.PlainPipeline
