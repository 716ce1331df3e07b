import Verif.Lemmas.Heads
import Verif.Lemmas.Graph
import Verif.Props.C20_WorkOrders

/-!
# C22: collapsing inseparable chains

The graph is any set of linked works whose inseparable edges form chains and whose dependencies have no cycle.
-/

namespace Sampo.C22

/-- A well-formed work graph with the given works. -/
structure WorkGraph (g : Graph) (nodes : List Nat) : Prop where
  once : nodes.Nodup
  linked : g.Linked
  closed : g.ClosedIn nodes
  chains : g.Chains
  acyclic : Acyclic g.DependsOn

variable {g : Graph} {nodes : List Nat}

/-- The assumptions in the form the lemmas use. -/
theorem WorkGraph.ok (h : WorkGraph g nodes) : Heads.Ok g nodes where
  linked := h.linked
  chains := h.chains
  closed := h.closed
  nodup := h.once
  acyclic := by
    intro x _ hx
    have hd : ∀ a b, Relation.TransGen g.Follows a b → Relation.TransGen g.DependsOn b a := by
      intro a b hab
      induction hab with
      | single h1 =>
        obtain ⟨e, he, hs, ht⟩ := h1
        exact Relation.TransGen.single ⟨e, he, hs, Or.inr (Or.inr ht)⟩
      | tail _ h1 ih =>
        obtain ⟨e, he, hs, ht⟩ := h1
        exact Relation.TransGen.head ⟨e, he, hs, Or.inr (Or.inr ht)⟩ ih
    exact h.acyclic x (hd x x hx)

/-- Every work is in exactly one chain. -/
theorem one_head (h : WorkGraph g nodes) : ∀ v ∈ nodes, ∃! k, g.IsHead nodes k ∧ g.InChain k v := by
  intro v hv
  obtain ⟨k, hk, hc⟩ := Graph.exists_head h.ok.closed h.ok.acyclic hv
  exact ⟨k, ⟨hk, hc⟩, fun k' hk' => Graph.head_unique h.chains hk'.1 hk hk'.2 hc⟩

private theorem maps (h : WorkGraph g nodes) : ∃ par chi : Deps,
    Heads.collapse g nodes = (toposortFlatten par).map (fun order => (order, par, chi)) ∧
    par.keys = Heads.heads g nodes ∧ chi.keys = Heads.heads g nodes ∧
    (∀ v l, (v, l) ∈ par → ∀ p, p ∈ l ↔ g.HeadDependsOn nodes v p) ∧
    (∀ v l, (v, l) ∈ chi → ∀ c, c ∈ l ↔ g.HeadDependsOn nodes c v) := by
  obtain ⟨par, hp, kp, sp⟩ := Heads.linkedMap_spec h.ok (next := g.parents) (Heads.parents_closed h.closed)
  obtain ⟨chi, hc, kc, sc⟩ := Heads.linkedMap_spec h.ok (next := g.children) (Heads.children_closed h.closed)
  refine ⟨par, chi, by unfold Heads.collapse; rw [hp, hc]; rfl, kp, kc, ?_, ?_⟩
  · intro v l hm p
    have hv : g.IsHead nodes v := (Heads.mem_heads v).1 (by rw [← kp]; exact Deps.mem_keys_of_mem hm)
    rw [sp v l hm p]
    constructor
    · rintro ⟨h1, h2, a, b, h3, h4, h5⟩
      exact ⟨hv, h1, h2, a, b, h3, h4, (Graph.mem_parents a b).1 h5⟩
    · rintro ⟨-, h1, h2, a, b, h3, h4, h5⟩
      exact ⟨h1, h2, a, b, h3, h4, (Graph.mem_parents a b).2 h5⟩
  · intro v l hm p
    have hv : g.IsHead nodes v := (Heads.mem_heads v).1 (by rw [← kc]; exact Deps.mem_keys_of_mem hm)
    rw [sc v l hm p]
    constructor
    · rintro ⟨h1, h2, a, b, h3, h4, h5⟩
      exact ⟨h1, hv, h2.symm, b, a, h4, h3, (Graph.mem_children h.linked a b).1 h5⟩
    · rintro ⟨h1, -, h2, a, b, h3, h4, h5⟩
      exact ⟨h1, h2.symm, b, a, h4, h3, (Graph.mem_children h.linked b a).2 h5⟩

private theorem dep_iff {par : Deps} (hk : par.keys = Heads.heads g nodes)
    (hs : ∀ v l, (v, l) ∈ par → ∀ p, p ∈ l ↔ g.HeadDependsOn nodes v p) (x y : Nat) :
    DependsOn par x y ↔ g.HeadDependsOn nodes x y := by
  constructor
  · rintro ⟨-, deps, hm, hy⟩
    exact (hs x deps hm y).1 hy
  · intro hd
    have hx : x ∈ par.keys := by rw [hk]; exact (Heads.mem_heads x).2 hd.1
    obtain ⟨deps, hm⟩ := Deps.exists_of_mem_keys hx
    exact ⟨hd.2.2.1, deps, hm, (hs x deps hm y).2 hd⟩

/-- The collapse returns every chain head once, in an order in which every head comes after the heads it depends on, and
the parent and child maps say exactly which heads depend on which. -/
theorem collapse_preserves_dependencies (h : WorkGraph g nodes) {order : List Nat} {par chi : Deps}
    (hc : Heads.collapse g nodes = some (order, par, chi)) :
    order.Nodup ∧ (∀ v, v ∈ order ↔ g.IsHead nodes v) ∧ OrderRespects (g.HeadDependsOn nodes) order ∧
    (∀ v, (∃ l, (v, l) ∈ par) ↔ g.IsHead nodes v) ∧ (∀ v, (∃ l, (v, l) ∈ chi) ↔ g.IsHead nodes v) ∧
    (∀ v l, (v, l) ∈ par → ∀ p, p ∈ l ↔ g.HeadDependsOn nodes v p) ∧
    (∀ v l, (v, l) ∈ chi → ∀ c, c ∈ l ↔ g.HeadDependsOn nodes c v) := by
  obtain ⟨par', chi', he, kp, kc, sp, sc⟩ := maps h
  rw [he, Option.map_eq_some_iff] at hc
  obtain ⟨o, ho, heq⟩ := hc
  simp only [Prod.mk.injEq] at heq
  obtain ⟨rfl, rfl, rfl⟩ := heq
  have hkeys : ∀ (d : Deps), d.keys = Heads.heads g nodes → ∀ v, (∃ l, (v, l) ∈ d) ↔ g.IsHead nodes v := by
    intro d hd v
    rw [← Heads.mem_heads, ← hd]
    exact ⟨fun ⟨_, hl⟩ => Deps.mem_keys_of_mem hl, Deps.exists_of_mem_keys⟩
  have hnd : par'.keys.Nodup := by
    rw [kp]
    exact h.once.sublist List.filter_sublist
  unfold toposortFlatten at ho
  rw [Option.map_eq_some_iff] at ho
  obtain ⟨levels, hl, rfl⟩ := ho
  obtain ⟨t1, t2, t3, -⟩ := toposort_some hnd hl
  obtain ⟨o1, o2⟩ := order_of_levels (shuffled := levels.map fun l => l.insertionSort (· ≤ ·))
    (by rw [List.forall₂_map_left_iff]; exact List.forall₂_same.2 fun l _ => List.perm_insertionSort _ l) t1 t3
  rw [List.flatMap_def]
  refine ⟨o1.nodup_iff.2 t1, ?_, o2.imp fun hr => fun hd => hr ((dep_iff kp sp _ _).2 hd), hkeys _ kp, hkeys _ kc, sp, sc⟩
  intro v
  rw [o1.mem_iff, t2, ← hkeys _ kp]
  constructor
  · rintro ⟨⟨x, l⟩, hm, rfl | hv⟩
    · exact ⟨l, hm⟩
    · exact (hkeys _ kp v).2 ((sp x l hm v).1 hv).2.1
  · rintro ⟨l, hm⟩
    exact ⟨_, hm, Or.inl rfl⟩

/-- The collapse raises exactly if the dependencies between chains have a cycle. -/
theorem error_iff_chain_cycle (h : WorkGraph g nodes) :
    Heads.collapse g nodes = none ↔ ¬ Acyclic (g.HeadDependsOn nodes) := by
  obtain ⟨par, chi, he, kp, kc, sp, sc⟩ := maps h
  have hrel : g.HeadDependsOn nodes = DependsOn par := by
    funext x y
    exact propext (dep_iff kp sp x y).symm
  rw [he, Option.map_eq_none_iff, hrel]
  unfold toposortFlatten
  rw [Option.map_eq_none_iff]
  constructor
  · intro hn hac
    obtain ⟨x, hx⟩ := toposort_none hn
    exact hac x hx
  · intro hac
    cases ht : toposort par with
    | none => rfl
    | some levels =>
      exfalso
      obtain ⟨t1, t2, t3, -⟩ := toposort_some (by rw [kp]; exact h.once.sublist List.filter_sublist) ht
      exact hac (acyclic_of_levels t1 t3 fun x y hxy => (t2 x).2 (by
        obtain ⟨-, deps, hm, -⟩ := hxy
        exact ⟨_, hm, Or.inl rfl⟩))

private theorem lookup_mem {d : Deps} {v : Nat} (hv : ∃ l, (v, l) ∈ d) : (v, (d.lookup v).getD []) ∈ d := by
  induction d with
  | nil => simp at hv
  | cons a d ih =>
    obtain ⟨k, l⟩ := a
    rw [List.lookup_cons]
    by_cases hk : v = k
    · subst hk; simp
    · have hb : (v == k) = false := by simpa using hk
      rw [hb]
      obtain ⟨l', hl'⟩ := hv
      rw [List.mem_cons] at hl'
      rcases hl' with hl' | hl'
      · exact absurd (Prod.mk.inj hl').1 hk
      · exact List.mem_cons_of_mem _ (ih ⟨l', hl'⟩)

private theorem lookup_getD_of_not_mem {d : Deps} {v : Nat} (hv : ¬ ∃ l, (v, l) ∈ d) : (d.lookup v).getD [] = [] := by
  induction d with
  | nil => rfl
  | cons a d ih =>
    obtain ⟨k, l⟩ := a
    rw [List.lookup_cons]
    have hk : v ≠ k := fun hk => hv ⟨l, by rw [hk]; exact List.mem_cons_self⟩
    have hb : (v == k) = false := by simpa using hk
    rw [hb]
    exact ih fun ⟨l', hl'⟩ => hv ⟨l', List.mem_cons_of_mem _ hl'⟩

/-- Looking up a work in the two tables gives the chains it depends on and the chains that depend on it. -/
theorem collapse_tables (h : WorkGraph g nodes) {order : List Nat} {par chi : Deps}
    (hc : Heads.collapse g nodes = some (order, par, chi)) (v x : Nat) :
    (x ∈ (par.lookup v).getD [] ↔ g.HeadDependsOn nodes v x) ∧ (x ∈ (chi.lookup v).getD [] ↔ g.HeadDependsOn nodes x v) := by
  obtain ⟨c1, c2, c3, c4, c5, c6, c7⟩ := collapse_preserves_dependencies h hc
  constructor
  · by_cases hv : ∃ l, (v, l) ∈ par
    · exact c6 v _ (lookup_mem hv) x
    · rw [lookup_getD_of_not_mem hv]
      exact ⟨fun hh => absurd hh List.not_mem_nil, fun hh => absurd ((c4 v).2 hh.1) hv⟩
  · by_cases hv : ∃ l, (v, l) ∈ chi
    · exact c7 v _ (lookup_mem hv) x
    · rw [lookup_getD_of_not_mem hv]
      exact ⟨fun hh => absurd hh List.not_mem_nil, fun hh => absurd ((c5 v).2 hh.2.1) hv⟩

/-- What the collapse returns is what the prioritizations of C20 assume. -/
theorem collapse_feeds_prioritization (h : WorkGraph g nodes) {order : List Nat} {par chi : Deps}
    (hc : Heads.collapse g nodes = some (order, par, chi)) :
    C20.HeadGraph order (fun v => (par.lookup v).getD []) (fun v => (chi.lookup v).getD []) := by
  obtain ⟨c1, c2, c3, c4, c5, c6, c7⟩ := collapse_preserves_dependencies h hc
  have hpar := fun v p => (collapse_tables h hc v p).1
  have hchi := fun v c => (collapse_tables h hc v c).2
  refine ⟨c1, ?_, ?_, ?_, ?_⟩
  · exact c3.imp fun hr hp => hr ((hpar _ _).1 hp)
  · intro v _ hv
    exact ((hpar v v).1 hv).2.2.1 rfl
  · intro v _ p hp
    exact (c2 p).2 ((hpar v p).1 hp).2.1
  · intro p hp v
    rw [hchi, hpar, c2]
    exact ⟨fun hh => ⟨hh.1, hh⟩, fun hh => hh.2⟩

/-! ### Concrete graphs -/

/-- 0 before 1 and 3; chain 1 → 2; 2 also after 3; 4 after 2. -/
def demo : Graph := Graph.ofEdges [⟨0, 1, 0, .finishStart⟩, ⟨0, 3, 2, .lagFinishStart⟩, ⟨1, 2, 0, .inseparable⟩,
  ⟨3, 2, 0, .finishStart⟩, ⟨2, 4, 0, .finishStart⟩]

example : WorkGraph demo [0, 1, 3, 2, 4] where
  once := by decide
  linked := Graph.linked_ofEdges _
  closed := Graph.closed_ofEdges (by decide)
  chains := Graph.chains_ofEdges (by decide)
  acyclic := Graph.acyclic_ofEdges (fun v => if v = 3 then 1 else v) (by decide)

example : Heads.collapse demo [0, 1, 3, 2, 4]
    = some ([0, 3, 1, 4], [(0, []), (1, [0, 3]), (3, [0]), (4, [1])], [(0, [1, 3]), (1, [4]), (3, [1]), (4, [])]) := by
  decide

/-- Work 1 lies between the two works 0 and 2 of a chain: the graph has no cycle, but the collapse raises. -/
def sandwich : Graph := (Graph.empty.addParents 1 [(0, 0, .finishStart)]).addParents 2 [(0, 0, .inseparable), (1, 0, .finishStart)]

/-- The two chain works and the work between them depend on each other as chains. -/
example : Heads.collapse sandwich [0, 1, 2] = none := by decide
example : sandwich.traverse 10 0 = some [0, 1, 2] := by decide

end Sampo.C22
