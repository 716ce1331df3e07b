import Verif.Props.C32_FromNodes

/-!
# C125: building work graphs from the same works more than once

A call of `from_nodes` changes the works it is given, so that a second call starts from the graph the first one left.
-/

namespace Sampo.C125

variable {g g' g'' : Graph} {start finish start' finish' : Nat} {nodes more : List Nat}

private theorem grown (hi : C32.Input g start finish nodes) (h : g.fromNodes start finish nodes = some g') {a b : Nat}
    (hd : g.DependsOn a b) : g'.DependsOn a b := by
  obtain ⟨new, -, -, ht, -⟩ := C32.exact_edges hi h
  obtain ⟨e, he, h1⟩ := hd
  exact ⟨e, by rw [ht]; exact List.mem_append_left _ he, h1⟩

/-- After a graph was built from works, each of them has a successor. -/
private theorem succ (hi : C32.Input g start finish nodes) (h : g.fromNodes start finish nodes = some g') {v : Nat} (hv : v ∈ nodes) :
    ∃ c, g'.DependsOn c v := by
  by_cases hc : ∀ c, ¬ g.DependsOn c v
  · obtain ⟨new, -, hm, ht, -⟩ := C32.exact_edges hi h
    refine ⟨finish, ⟨v, finish, 0, .finishStart⟩, ?_, rfl, .inl rfl⟩
    rw [ht, List.mem_append, List.mem_filter]
    exact .inr ⟨(hm _).2 (.inr ⟨v, hv, hc, rfl⟩), by simp⟩
  · push Not at hc
    obtain ⟨c, hc⟩ := hc
    exact ⟨c, grown hi h hc⟩

/-- … and a predecessor. -/
private theorem pred (hi : C32.Input g start finish nodes) (h : g.fromNodes start finish nodes = some g') {v : Nat} (hv : v ∈ nodes) :
    ∃ p, g'.DependsOn v p := by
  by_cases hc : ∀ p, ¬ g.DependsOn v p
  · obtain ⟨new, -, hm, ht, -⟩ := C32.exact_edges hi h
    refine ⟨start, ⟨start, v, 0, .finishStart⟩, ?_, rfl, .inl rfl⟩
    rw [ht, List.mem_append, List.mem_filter]
    exact .inr ⟨(hm _).2 (.inl ⟨v, hv, hc, rfl⟩), by simp⟩
  · push Not at hc
    obtain ⟨p, hp⟩ := hc
    exact ⟨p, grown hi h hp⟩

private theorem same_at (hi : C32.Input g start finish nodes) (h : g.fromNodes start finish nodes = some g') {v : Nat} (hv : v ∉ nodes)
    (hs : v ≠ start) (hf : v ≠ finish) : g'.edgesTo v = g.edgesTo v ∧ g'.edgesFrom v = g.edgesFrom v := by
  obtain ⟨new, -, hm, ht, hfr, -⟩ := C32.exact_edges hi h
  constructor
  · rw [ht, List.filter_eq_nil_iff.2, List.append_nil]
    intro e he
    rcases (hm e).1 he with ⟨w, hw, -, rfl⟩ | ⟨w, hw, -, rfl⟩
    · have : w ≠ v := fun h => hv (h ▸ hw)
      simpa using this
    · simpa using hf.symm
  · rw [hfr, List.filter_eq_nil_iff.2, List.append_nil]
    intro e he
    rcases (hm e).1 he with ⟨w, hw, -, rfl⟩ | ⟨w, hw, -, rfl⟩
    · simpa using hs.symm
    · have : w ≠ v := fun h => hv (h ▸ hw)
      simpa using this

/-- The second pair of service works and the further works are new. -/
structure Further (g : Graph) (start finish start' finish' : Nat) (nodes more : List Nat) : Prop where
  first : C32.Input g start finish nodes
  second : C32.Input g start' finish' (nodes ++ more)
  apart : start' ≠ start ∧ start' ≠ finish ∧ finish' ≠ start ∧ finish' ≠ finish
  old : start ∉ more ∧ finish ∉ more

private theorem input (hx : Further g start finish start' finish' nodes more) (h : g.fromNodes start finish nodes = some g') :
    C32.Input g' start' finish' (nodes ++ more) where
  once := hx.second.once
  linked := (C32.exact_edges hx.first h).choose_spec.2.2.2.2
  start_new := hx.second.start_new
  finish_new := hx.second.finish_new
  distinct := hx.second.distinct
  start_free := by
    obtain ⟨h1, h2⟩ := same_at hx.first h (fun hh => hx.second.start_new (List.mem_append_left _ hh)) hx.apart.1 hx.apart.2.1
    rw [h1, h2]
    exact hx.second.start_free
  finish_free := by
    obtain ⟨h1, h2⟩ := same_at hx.first h (fun hh => hx.second.finish_new (List.mem_append_left _ hh)) hx.apart.2.2.1 hx.apart.2.2.2
    rw [h1, h2]
    exact hx.second.finish_free

private theorem input_more (hx : Further g start finish start' finish' nodes more) (h : g.fromNodes start finish nodes = some g') :
    C32.Input g' start' finish' more where
  once := (List.nodup_append.1 hx.second.once).2.1
  linked := (input hx h).linked
  start_new := fun hh => hx.second.start_new (List.mem_append_right _ hh)
  finish_new := fun hh => hx.second.finish_new (List.mem_append_right _ hh)
  distinct := hx.second.distinct
  start_free := (input hx h).start_free
  finish_free := (input hx h).finish_free

private theorem more_same (hx : Further g start finish start' finish' nodes more) (h : g.fromNodes start finish nodes = some g') {v : Nat}
    (hv : v ∈ more) : g'.edgesTo v = g.edgesTo v ∧ g'.edgesFrom v = g.edgesFrom v :=
  same_at hx.first h (fun hh => (List.nodup_append.1 hx.second.once).2.2 v hh v hv rfl) (fun hh => hx.old.1 (hh ▸ hv))
    (fun hh => hx.old.2 (hh ▸ hv))

/-- A second graph can be built from works that are not linked to those of the first one.
Missing: works that were already built into a graph, see `again_fails` and `more_fails`. -/
theorem others_partial (hx : Further g start finish start' finish' nodes more) (h : g.fromNodes start finish nodes = some g') (hne : more ≠ [])
    (hcl : g.ClosedIn more) (hac : ∀ v ∈ more, ¬ Relation.TransGen g.Before v v) :
    ∃ g'', g'.fromNodes start' finish' more = some g'' ∧ g''.Project start' (start' :: finish' :: more) ∧
      ∀ v ∈ start' :: finish' :: more, g''.Reaches v finish' := by
  refine C32.project (input_more hx h) hne ?_ ?_
  · intro v hv
    rw [(more_same hx h hv).1, (more_same hx h hv).2]
    exact hcl v hv
  · intro v hv hc
    refine hac v hv ?_
    have key : ∀ a b, Relation.TransGen g'.Before a b → b ∈ more → Relation.TransGen g.Before a b ∧ a ∈ more := by
      intro a b hab hb
      induction hab using Relation.TransGen.head_induction_on with
      | single h1 =>
        obtain ⟨e, he, rfl⟩ := h1
        rw [(more_same hx h hb).1] at he
        exact ⟨.single ⟨e, he, rfl⟩, (hcl _ hb).1 e he⟩
      | head h1 _ ih =>
        obtain ⟨e, he, rfl⟩ := h1
        rw [(more_same hx h ih.2).1] at he
        exact ⟨.head ⟨e, he, rfl⟩ ih.1, (hcl _ ih.2).1 e he⟩
    exact (key v v hc hv).1

/-- Not proved because false: a graph can be built again from the same works.  Every second attempt raises. -/
theorem again_fails (hx : Further g start finish start' finish' nodes []) (h : g.fromNodes start finish nodes = some g') :
    g'.fromNodes start' finish' nodes = none := by
  have hi := input hx h
  rw [List.append_nil] at hi
  exact (C32.error_iff hi).2 fun v hv => succ hx.first h hv

/-- Not proved because false: a graph can be built from these works and further ones.  There is a graph, but none of the works that were already
built into a graph can be reached from its start. -/
theorem more_fails (hx : Further g start finish start' finish' nodes more) (h : g.fromNodes start finish nodes = some g') (hne : more ≠ [])
    (hcl : g.ClosedIn more) (hac : ∀ v ∈ more, ¬ Relation.TransGen g.Before v v) :
    ∃ g'', g'.fromNodes start' finish' (nodes ++ more) = some g'' ∧ ∀ v ∈ nodes, ¬ g''.Reaches start' v := by
  have hi := input hx h
  cases h2 : g'.fromNodes start' finish' (nodes ++ more) with
  | none =>
    exfalso
    obtain ⟨g3, h3, -⟩ := others_partial hx h hne hcl hac
    have hall := (C32.error_iff hi).1 h2
    rw [(C32.error_iff (input_more hx h)).2 fun v hv => hall v (List.mem_append_right _ hv)] at h3
    cases h3
  | some g'' =>
    refine ⟨g'', rfl, ?_⟩
    obtain ⟨new, -, hm, ht, -⟩ := C32.exact_edges hi h2
    have key : ∀ v, g''.Reaches start' v → v = start' ∨ v = finish' ∨ v ∈ more := by
      intro v hr
      induction hr with
      | refl => exact .inl rfl
      | @tail b c _ hb ih =>
        obtain ⟨e, he, rfl⟩ := hb
        rw [ht, List.mem_append, List.mem_filter] at he
        rcases he with he | ⟨he, hc⟩
        · right; right
          have hfrom := Graph.from_of_before hi.linked ⟨e, he, rfl⟩
          obtain ⟨e', he', hc'⟩ := hfrom
          rcases ih with h1 | h1 | h1
          · rw [h1, hi.start_free.2] at he'
            cases he'
          · rw [h1, hi.finish_free.2] at he'
            cases he'
          · rw [(more_same hx h h1).2] at he'
            exact hc' ▸ (hcl _ h1).2 e' he'
        · have hc : e.finish = c := by simpa using hc
          rcases (hm e).1 he with ⟨w, hw, hp, rfl⟩ | ⟨w, hw, -, rfl⟩
          · right; right
            rcases List.mem_append.1 hw with hw | hw
            · obtain ⟨p, hp'⟩ := pred hx.first h hw
              exact absurd hp' (hp p)
            · exact hc ▸ hw
          · exact .inr (.inl hc.symm)
    intro v hv hr
    rcases key v hr with rfl | rfl | h1
    · exact hi.start_new (List.mem_append_left _ hv)
    · exact hi.finish_new (List.mem_append_left _ hv)
    · exact (List.nodup_append.1 hi.once).2.2 v hv v h1 rfl

/-! ### Works 1 → 2 and 3 → 4 -/

private def demo : Graph := Graph.ofEdges [⟨1, 2, 0, .finishStart⟩, ⟨3, 4, 0, .finishStart⟩]

private theorem further (more : List Nat) (h : more = [] ∨ more = [3, 4]) : Further demo 8 9 10 11 [1, 2] more := by
  have hl : demo.Linked := Graph.linked_ofEdges _
  rcases h with rfl | rfl
  · exact ⟨⟨by decide, hl, by decide, by decide, by decide, by decide, by decide⟩,
      ⟨by decide, hl, by decide, by decide, by decide, by decide, by decide⟩, by decide, by decide⟩
  · exact ⟨⟨by decide, hl, by decide, by decide, by decide, by decide, by decide⟩,
      ⟨by decide, hl, by decide, by decide, by decide, by decide, by decide⟩, by decide, by decide⟩

example : Further demo 8 9 10 11 [1, 2] [3, 4] := further _ (.inr rfl)
example : Further demo 8 9 10 11 [1, 2] [] := further _ (.inl rfl)
example : demo.ClosedIn [3, 4] := by
  have h : ∀ v ∈ [3, 4], (∀ e ∈ demo.edgesTo v, e.start ∈ [3, 4]) ∧ ∀ e ∈ demo.edgesFrom v, e.finish ∈ [3, 4] := by decide
  exact h
example : ∀ v ∈ [3, 4], ¬ Relation.TransGen demo.Before v v := Graph.acyclic_before_ofEdges id (by decide)
example : ((demo.fromNodes 8 9 [1, 2]).bind fun g => g.fromNodes 10 11 [1, 2]).isNone = true := by decide
example : (((demo.fromNodes 8 9 [1, 2]).bind fun g => g.fromNodes 10 11 [1, 2, 3, 4]).bind fun g => g.traverse 40 10) = some [10, 3, 4, 11] := by
  decide

end Sampo.C125
