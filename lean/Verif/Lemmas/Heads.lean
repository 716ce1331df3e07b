import Verif.Model.Heads
import Verif.Spec.Graph
import Verif.Lemmas.Toposort

namespace Sampo

theorem mapM_option_of_forall {α β : Type} {f : α → Option β} {g : α → β} : ∀ {l : List α}, (∀ x ∈ l, f x = some (g x)) →
    l.mapM f = some (l.map g)
  | [], _ => rfl
  | a :: l, h => by
    rw [List.mapM_cons, h a List.mem_cons_self,
      mapM_option_of_forall (f := f) (g := g) (l := l) fun x hx => h x (List.mem_cons_of_mem _ hx)]
    rfl

namespace Graph

variable {g : Graph}

theorem mem_parents (v p : Nat) : p ∈ g.parents v ↔ g.DependsOn v p := by
  unfold parents DependsOn
  rw [List.mem_map]
  constructor
  · rintro ⟨e, he, rfl⟩
    rw [List.mem_filter] at he
    refine ⟨e, he.1, rfl, ?_⟩
    have := he.2
    cases ht : e.type <;> simp_all [EdgeType.isDependency]
  · rintro ⟨e, he, rfl, ht⟩
    refine ⟨e, List.mem_filter.2 ⟨he, ?_⟩, rfl⟩
    rcases ht with h | h | h <;> simp [h, EdgeType.isDependency]

theorem mem_children (hl : g.Linked) (p v : Nat) : v ∈ g.children p ↔ g.DependsOn v p := by
  unfold children DependsOn
  rw [List.mem_map]
  constructor
  · rintro ⟨e, he, rfl⟩
    rw [List.mem_filter] at he
    have hs := hl.start p e he.1
    refine ⟨e, (hl.both e).2 (by rw [hs]; exact he.1), hs, ?_⟩
    have := he.2
    cases ht : e.type <;> simp_all [EdgeType.isDependency]
  · rintro ⟨e, he, rfl, ht⟩
    have hf := hl.finish v e he
    refine ⟨e, List.mem_filter.2 ⟨(hl.both e).1 (by rw [hf]; exact he), ?_⟩, hf⟩
    rcases ht with h | h | h <;> simp [h, EdgeType.isDependency]

theorem insepParent_none (v : Nat) : g.insepParent v = none ↔ ∀ a, ¬ g.Follows a v := by
  unfold insepParent Follows
  rw [List.head?_eq_none_iff, List.map_eq_nil_iff, List.filter_eq_nil_iff]
  constructor
  · rintro h a ⟨e, he, -, ht⟩
    exact h e he (by simpa using ht)
  · intro h e he ht
    exact h e.start ⟨e, he, rfl, by simpa using ht⟩

theorem insepSon_none (hl : g.Linked) (v : Nat) : g.insepSon v = none ↔ ∀ a, ¬ g.Follows v a := by
  unfold insepSon Follows
  rw [List.head?_eq_none_iff, List.map_eq_nil_iff, List.filter_eq_nil_iff]
  constructor
  · rintro h a ⟨e, he, hs, ht⟩
    have hf := hl.finish a e he
    exact h e (by rw [← hs]; exact (hl.both e).1 (by rw [hf]; exact he)) (by simpa using ht)
  · intro h e he ht
    have hs := hl.start v e he
    exact h e.finish ⟨e, (hl.both e).2 (by rw [hs]; exact he), hs, by simpa using ht⟩

theorem insepSon_some (hl : g.Linked) {v s : Nat} (h : g.insepSon v = some s) : g.Follows v s := by
  unfold insepSon at h
  have hm := List.mem_of_head? h
  rw [List.mem_map] at hm
  obtain ⟨e, he, rfl⟩ := hm
  rw [List.mem_filter] at he
  have hs := hl.start v e he.1
  exact ⟨e, (hl.both e).2 (by rw [hs]; exact he.1), hs, by simpa using he.2⟩

/-- Members of the chain computed from `v` can be reached from `v`, in order. -/
theorem chainFrom_pairwise (hl : g.Linked) : ∀ (n v : Nat), (∀ x ∈ g.chainFrom n v, g.InChain v x) ∧
    (g.chainFrom n v).Pairwise fun a b => Relation.TransGen g.Follows a b
  | 0, v => by
    unfold chainFrom
    exact ⟨fun x hx => by rw [List.mem_singleton.1 hx]; exact Relation.ReflTransGen.refl, List.pairwise_singleton _ _⟩
  | n + 1, v => by
    unfold chainFrom
    split
    · rename_i s hs
      obtain ⟨h1, h2⟩ := chainFrom_pairwise hl n s
      have hf := insepSon_some hl hs
      refine ⟨?_, ?_⟩
      · intro x hx
        rw [List.mem_cons] at hx
        rcases hx with rfl | hx
        · exact Relation.ReflTransGen.refl
        · exact Relation.ReflTransGen.head hf (h1 x hx)
      · rw [List.pairwise_cons]
        exact ⟨fun x hx => Relation.TransGen.head' hf (h1 x hx), h2⟩
    · exact ⟨fun x hx => by rw [List.mem_singleton.1 hx]; exact Relation.ReflTransGen.refl, List.pairwise_singleton _ _⟩

/-- Either the computed chain is closed under following or the fuel is used up. -/
theorem chainFrom_closed (hl : g.Linked) (hc : g.Chains) : ∀ (n v : Nat),
    (∀ x ∈ g.chainFrom n v, ∀ y, g.Follows x y → y ∈ g.chainFrom n v) ∨ (g.chainFrom n v).length = n + 1
  | 0, v => by right; unfold chainFrom; rfl
  | n + 1, v => by
    unfold chainFrom
    split
    · rename_i s hs
      rcases chainFrom_closed hl hc n s with h | h
      · left
        intro x hx y hxy
        rw [List.mem_cons] at hx
        rcases hx with rfl | hx
        · have := hc.oneSon _ _ _ (insepSon_some hl hs) hxy
          rw [← this]
          refine List.mem_cons_of_mem _ ?_
          cases n <;> unfold chainFrom
          · simp
          · split <;> simp
        · exact List.mem_cons_of_mem _ (h x hx y hxy)
      · right
        simp [h]
    · rename_i hs
      left
      intro x hx y hxy
      rw [List.mem_singleton] at hx
      rw [hx] at hxy
      exact absurd hxy ((insepSon_none hl v).1 hs y)

theorem self_mem_chainFrom (n v : Nat) : v ∈ g.chainFrom n v := by
  cases n <;> unfold chainFrom
  · simp
  · split <;> simp

theorem follows_closed {nodes : List Nat} (hl : g.Linked) (hcl : g.ClosedIn nodes) {h v : Nat} (hh : h ∈ nodes)
    (hv : g.InChain h v) : v ∈ nodes := by
  induction hv with
  | refl => exact hh
  | tail _ hstep ih =>
    obtain ⟨e, he, hs, -⟩ := hstep
    have hf := hl.finish _ e he
    rw [← hf]
    exact (hcl _ ih).2 e (by rw [← hs]; exact (hl.both e).1 (by rw [hf]; exact he))

theorem mem_chainFrom {nodes : List Nat} (hl : g.Linked) (hc : g.Chains) (hcl : g.ClosedIn nodes)
    (hac : ∀ x ∈ nodes, ¬ Relation.TransGen g.Follows x x) {h v : Nat} (hh : h ∈ nodes) :
    v ∈ g.chainFrom nodes.length h ↔ g.InChain h v := by
  obtain ⟨h1, h2⟩ := chainFrom_pairwise hl nodes.length h
  refine ⟨h1 v, ?_⟩
  have hnodup : (g.chainFrom nodes.length h).Nodup := by
    refine List.Pairwise.imp_of_mem ?_ h2
    rintro a b ha - hab rfl
    exact hac a (follows_closed hl hcl hh (h1 a ha)) hab
  have hlen : (g.chainFrom nodes.length h).length ≤ nodes.length :=
    (hnodup.subperm fun x hx => follows_closed hl hcl hh (h1 x hx)).length_le
  rcases chainFrom_closed hl hc nodes.length h with hclosed | hbad
  · intro hv
    induction hv with
    | refl => exact self_mem_chainFrom _ _
    | tail _ hstep ih => exact hclosed _ ih _ hstep
  · omega

theorem chainWithSelf_eq {n h : Nat} (hn : 0 < n) (hh : ∀ a, ¬ g.Follows a h) :
    g.chainWithSelf n h = g.chainFrom n h := by
  unfold chainWithSelf
  rw [(insepParent_none h).2 hh]
  cases hs : g.insepSon h with
  | some s => rfl
  | none =>
    cases n with
    | zero => omega
    | succ n => unfold chainFrom; rw [hs]; rfl

/-- Every work is in the chain of a head. -/
theorem exists_head {nodes : List Nat} (hcl : g.ClosedIn nodes) (hac : ∀ x ∈ nodes, ¬ Relation.TransGen g.Follows x x)
    {v : Nat} (hv : v ∈ nodes) : ∃ h, g.IsHead nodes h ∧ g.InChain h v := by
  classical
  by_contra hc
  push Not at hc
  let bad := nodes.filter fun x => decide (∀ h, g.IsHead nodes h → ¬ g.InChain h x)
  have hvb : v ∈ bad := List.mem_filter.2 ⟨hv, by simpa using hc⟩
  obtain ⟨x, hx, hcyc⟩ := cycle_of_successors (r := fun a b => g.Follows b a) (l := bad) (List.ne_nil_of_mem hvb) (by
    intro x hx
    rw [List.mem_filter] at hx
    have hxb : ∀ h, g.IsHead nodes h → ¬ g.InChain h x := by simpa using hx.2
    have : ¬ ∀ a, ¬ g.Follows a x := fun hno => hxb x ⟨hx.1, hno⟩ Relation.ReflTransGen.refl
    push Not at this
    obtain ⟨a, ha⟩ := this
    refine ⟨a, List.mem_filter.2 ⟨?_, ?_⟩, ha⟩
    · obtain ⟨e, he, rfl, -⟩ := ha
      exact (hcl x hx.1).1 e he
    · simp only [decide_eq_true_eq]
      intro h hh hin
      exact hxb h hh (hin.tail ha))
  have hcyc' : Relation.TransGen g.Follows x x := by
    have := Relation.transGen_swap.1 hcyc
    exact this
  exact hac x (List.mem_filter.1 hx).1 hcyc'

theorem head_unique {nodes : List Nat} (hc : g.Chains) {h h' v : Nat} (hh : g.IsHead nodes h) (hh' : g.IsHead nodes h')
    (hv : g.InChain h v) (hv' : g.InChain h' v) : h = h' := by
  induction hv with
  | refl =>
    rcases Relation.ReflTransGen.cases_tail hv' with h1 | ⟨c, -, h2⟩
    · exact h1
    · exact absurd h2 (hh.2 c)
  | tail hab hbc ih =>
    rcases Relation.ReflTransGen.cases_tail hv' with h1 | ⟨c, h1, h2⟩
    · rw [h1] at hbc
      exact absurd hbc (hh'.2 _)
    · have := hc.oneParent _ _ _ hbc h2
      rw [← this] at h1
      exact ih h1

end Graph

namespace Heads

variable {g : Graph} {nodes : List Nat}

theorem mem_heads (h : Nat) : h ∈ heads g nodes ↔ g.IsHead nodes h := by
  unfold heads Graph.IsHead
  rw [List.mem_filter, Option.isNone_iff_eq_none, Graph.insepParent_none]

theorem lookup_some_mem {m : List (Nat × Nat)} {k x : Nat} (h : m.lookup k = some x) : (k, x) ∈ m := by
  induction m with
  | nil => simp at h
  | cons a m ih =>
    obtain ⟨k', x'⟩ := a
    rw [List.lookup_cons] at h
    by_cases hk : k = k'
    · subst hk
      simp only [BEq.rfl, Option.some.injEq] at h
      rw [h]
      exact List.mem_cons_self
    · have : (k == k') = false := by simpa using hk
      rw [this] at h
      exact List.mem_cons_of_mem _ (ih h)

theorem lookup_of_mem {m : List (Nat × Nat)} {k x : Nat} (h : (k, x) ∈ m) : ∃ y, m.lookup k = some y := by
  induction m with
  | nil => simp at h
  | cons a m ih =>
    obtain ⟨k', x'⟩ := a
    rw [List.lookup_cons]
    by_cases hk : k = k'
    · subst hk; simp
    · have hb : (k == k') = false := by simpa using hk
      rw [hb]
      rw [List.mem_cons] at h
      rcases h with h | h
      · exact absurd (Prod.mk.inj h).1 hk
      · exact ih h

/-- Standing assumptions on the graph. -/
structure Ok (g : Graph) (nodes : List Nat) : Prop where
  linked : g.Linked
  chains : g.Chains
  closed : g.ClosedIn nodes
  acyclic : ∀ x ∈ nodes, ¬ Relation.TransGen g.Follows x x
  nodup : nodes.Nodup

theorem mem_chain (ok : Ok g nodes) {h v : Nat} (hh : g.IsHead nodes h) :
    v ∈ g.chainWithSelf nodes.length h ↔ g.InChain h v := by
  rw [Graph.chainWithSelf_eq (List.length_pos_iff.2 (List.ne_nil_of_mem hh.1)) hh.2]
  exact Graph.mem_chainFrom ok.linked ok.chains ok.closed ok.acyclic hh.1

theorem owner_iff (ok : Ok g nodes) (v h : Nat) : owner g nodes v = some h ↔ g.IsHead nodes h ∧ g.InChain h v := by
  have hm : ∀ c k, (c, k) ∈ ((heads g nodes).flatMap fun h => (g.chainWithSelf nodes.length h).map fun c => (c, h)).reverse
      ↔ g.IsHead nodes k ∧ g.InChain k c := by
    intro c k
    rw [List.mem_reverse, List.mem_flatMap]
    constructor
    · rintro ⟨a, ha, hm⟩
      rw [mem_heads] at ha
      obtain ⟨b, hb, heq⟩ := List.mem_map.1 hm
      rw [Prod.mk.injEq] at heq
      obtain ⟨rfl, rfl⟩ := heq
      exact ⟨ha, (mem_chain ok ha).1 hb⟩
    · rintro ⟨hk, hc⟩
      exact ⟨k, (mem_heads k).2 hk, List.mem_map.2 ⟨c, (mem_chain ok hk).2 hc, rfl⟩⟩
  unfold owner
  constructor
  · intro ho
    exact (hm v h).1 (lookup_some_mem ho)
  · intro ho
    obtain ⟨y, hy⟩ := lookup_of_mem ((hm v h).2 ho)
    have h2 := (hm v y).1 (lookup_some_mem hy)
    rw [hy, Graph.head_unique ok.chains ho.1 h2.1 ho.2 h2.2]

/-- The ids computed for a head: the heads of the chains that `next` leads to. -/
theorem linked_spec (ok : Ok g nodes) {next : Nat → List Nat} (hn : ∀ v ∈ nodes, ∀ w ∈ next v, w ∈ nodes) {h : Nat}
    (hh : g.IsHead nodes h) :
    ∃ l, linked g nodes next h = some l ∧
      ∀ p, p ∈ l ↔ g.IsHead nodes p ∧ p ≠ h ∧ ∃ v w, g.InChain h v ∧ g.InChain p w ∧ w ∈ next v := by
  have hall : ∀ x ∈ (g.chainWithSelf nodes.length h).flatMap next,
      owner g nodes x = some ((owner g nodes x).getD 0) := by
    intro x hx
    obtain ⟨v, hv, hx⟩ := List.mem_flatMap.1 hx
    have hxn := hn v (Graph.follows_closed ok.linked ok.closed hh.1 ((mem_chain ok hh).1 hv)) x hx
    obtain ⟨k, hk, hc⟩ := Graph.exists_head ok.closed ok.acyclic hxn
    rw [(owner_iff ok x k).2 ⟨hk, hc⟩]
    rfl
  unfold linked
  rw [mapM_option_of_forall hall]
  refine ⟨_, rfl, fun p => ?_⟩
  rw [List.mem_dedup, List.mem_filter, List.mem_map]
  constructor
  · rintro ⟨⟨w, hw, rfl⟩, hne⟩
    have ho := (owner_iff ok w _).1 (hall w hw)
    obtain ⟨v, hv, hw⟩ := List.mem_flatMap.1 hw
    exact ⟨ho.1, by simpa using hne, v, w, (mem_chain ok hh).1 hv, ho.2, hw⟩
  · rintro ⟨hp, hne, v, w, hv, hw, hvw⟩
    refine ⟨⟨w, List.mem_flatMap.2 ⟨v, (mem_chain ok hh).2 hv, hvw⟩, ?_⟩, by simpa using hne⟩
    rw [(owner_iff ok w p).2 ⟨hp, hw⟩]
    rfl

theorem parents_closed (hcl : g.ClosedIn nodes) : ∀ v ∈ nodes, ∀ w ∈ g.parents v, w ∈ nodes := by
  intro v hv w hw
  obtain ⟨e, he, rfl, -⟩ := (Graph.mem_parents v w).1 hw
  exact (hcl v hv).1 e he

theorem children_closed (hcl : g.ClosedIn nodes) : ∀ v ∈ nodes, ∀ w ∈ g.children v, w ∈ nodes := by
  intro v hv w hw
  unfold Graph.children at hw
  obtain ⟨e, he, rfl⟩ := List.mem_map.1 hw
  exact (hcl v hv).2 e (List.mem_filter.1 he).1

/-- The dictionary built from `linked`. -/
theorem linkedMap_spec (ok : Ok g nodes) {next : Nat → List Nat} (hn : ∀ v ∈ nodes, ∀ w ∈ next v, w ∈ nodes) :
    ∃ m : Deps, ((heads g nodes).mapM fun h => (linked g nodes next h).map fun l => (h, l)) = some m ∧
      m.keys = heads g nodes ∧
      ∀ h l, (h, l) ∈ m → ∀ p, p ∈ l ↔ g.IsHead nodes p ∧ p ≠ h ∧ ∃ v w, g.InChain h v ∧ g.InChain p w ∧ w ∈ next v := by
  have hall : ∀ h ∈ heads g nodes, ((linked g nodes next h).map fun l => (h, l))
      = some (h, (linked g nodes next h).getD []) := by
    intro h hh
    obtain ⟨l, hl, -⟩ := linked_spec ok hn ((mem_heads h).1 hh)
    rw [hl]
    rfl
  refine ⟨_, mapM_option_of_forall hall, ?_, ?_⟩
  · unfold Deps.keys
    rw [List.map_map]
    exact List.map_id _
  · intro h l hm
    obtain ⟨k, hk, heq⟩ := List.mem_map.1 hm
    rw [Prod.mk.injEq] at heq
    obtain ⟨rfl, rfl⟩ := heq
    obtain ⟨l, hl, hspec⟩ := linked_spec ok hn ((mem_heads k).1 hk)
    rw [hl]
    exact hspec

end Heads

end Sampo
