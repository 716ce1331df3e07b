import Verif.Props.C22_HeadNodes
import Verif.Spec.Sched

namespace Sampo.Expand

variable {g : Graph} {nodes : List Nat}

theorem follows_depends {a b : Nat} (h : Relation.TransGen g.Follows a b) : Relation.TransGen g.DependsOn b a := by
  induction h with
  | single h1 =>
    obtain ⟨e, he, hs, ht⟩ := h1
    exact Relation.TransGen.single ⟨e, he, hs, Or.inr (Or.inr ht)⟩
  | tail _ h1 ih =>
    obtain ⟨e, he, hs, ht⟩ := h1
    exact Relation.TransGen.head ⟨e, he, hs, Or.inr (Or.inr ht)⟩ ih

theorem chain_pairwise (h : C22.WorkGraph g nodes) {k : Nat} (hk : g.IsHead nodes k) :
    (g.chainWithSelf nodes.length k).Pairwise fun a b => Relation.TransGen g.Follows a b := by
  rw [Graph.chainWithSelf_eq (List.length_pos_iff.2 (List.ne_nil_of_mem hk.1)) hk.2]
  exact (Graph.chainFrom_pairwise h.linked nodes.length k).2

/-- The chains of the heads list every work once. -/
theorem perm (h : C22.WorkGraph g nodes) {order : List Nat} (hnd : order.Nodup) (hmem : ∀ v, v ∈ order ↔ g.IsHead nodes v) :
    (order.flatMap (g.chainWithSelf nodes.length)).Perm nodes := by
  have hn : (order.flatMap (g.chainWithSelf nodes.length)).Nodup := by
    rw [List.nodup_flatMap]
    constructor
    · intro k hk
      refine (chain_pairwise h ((hmem k).1 hk)).imp fun {a b} hab => ?_
      rintro rfl
      exact h.acyclic a (follows_depends hab)
    · refine hnd.imp_of_mem fun {a b} ha hb hab => ?_
      rw [Function.onFun]
      intro x hxa hxb
      exact hab (Graph.head_unique h.chains ((hmem a).1 ha) ((hmem b).1 hb) ((Heads.mem_chain h.ok ((hmem a).1 ha)).1 hxa)
        ((Heads.mem_chain h.ok ((hmem b).1 hb)).1 hxb))
  refine (List.perm_ext_iff_of_nodup hn h.once).2 fun v => ?_
  rw [List.mem_flatMap]
  constructor
  · rintro ⟨k, hk, hv⟩
    have hh := (hmem k).1 hk
    exact Graph.follows_closed h.linked h.closed hh.1 ((Heads.mem_chain h.ok hh).1 hv)
  · intro hv
    obtain ⟨k, ⟨hk, hc⟩, -⟩ := C22.one_head h v hv
    exact ⟨k, (hmem k).2 hk, (Heads.mem_chain h.ok hk).2 hc⟩

/-- The chains of heads in an order with the heads they depend on before: every work comes after the works it depends on. -/
theorem topo (h : C22.WorkGraph g nodes) {order : List Nat} (hnd : order.Nodup) (hmem : ∀ v, v ∈ order ↔ g.IsHead nodes v)
    (hord : OrderRespects (g.HeadDependsOn nodes) order) :
    TopoList g.parents (order.flatMap (g.chainWithSelf nodes.length)) := by
  have hp := perm h hnd hmem
  have hpw : (order.flatMap (g.chainWithSelf nodes.length)).Pairwise fun a b => ¬ g.DependsOn a b := by
    rw [List.pairwise_flatMap]
    constructor
    · intro k hk
      refine (chain_pairwise h ((hmem k).1 hk)).imp fun {a b} hab hd => ?_
      exact h.acyclic a (Relation.TransGen.head hd (follows_depends hab))
    · refine (List.Pairwise.and hnd hord).imp_of_mem fun {a b} ha hb hab x hx y hy hd => ?_
      have h1 := (hmem a).1 ha
      have h2 := (hmem b).1 hb
      exact hab.2 ⟨h1, h2, Ne.symm hab.1, x, y, (Heads.mem_chain h.ok h1).1 hx, (Heads.mem_chain h.ok h2).1 hy, hd⟩
  intro l₁ v l₂ heq p hpp
  have hd := (Graph.mem_parents v p).1 hpp
  have hv : v ∈ nodes := hp.mem_iff.1 (by rw [heq]; simp)
  have hpn : p ∈ order.flatMap (g.chainWithSelf nodes.length) := hp.mem_iff.2 (Heads.parents_closed h.closed v hv p hpp)
  rw [heq, List.mem_append, List.mem_cons] at hpn
  rcases hpn with h1 | rfl | h1
  · exact h1
  · exact absurd (Relation.TransGen.single hd) (h.acyclic p)
  · rw [heq, List.pairwise_append, List.pairwise_cons] at hpw
    exact absurd hd (hpw.2.1.1 p h1)

theorem head_mem_chain (v : Nat) : v ∈ g.chainWithSelf nodes.length v := by
  unfold Graph.chainWithSelf
  split
  · exact Graph.self_mem_chainFrom _ _
  · simp

theorem chain_head {k : Nat} (hk : g.IsHead nodes k) :
    ∃ l, g.chainWithSelf nodes.length k = k :: l := by
  rw [Graph.chainWithSelf_eq (List.length_pos_iff.2 (List.ne_nil_of_mem hk.1)) hk.2]
  obtain ⟨n, hn⟩ : ∃ n, nodes.length = n + 1 := ⟨nodes.length - 1, by
    have := List.length_pos_iff.2 (List.ne_nil_of_mem hk.1)
    omega⟩
  rw [hn]
  unfold Graph.chainFrom
  split <;> exact ⟨_, rfl⟩

end Sampo.Expand
