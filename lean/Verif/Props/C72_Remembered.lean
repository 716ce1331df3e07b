import Verif.Model.Cache
import Verif.Lemmas.Graph

/-!
# C72: remembered links
-/

namespace Sampo.C72

open Cache

/-- The works after `v` in its chain, found from the links: the first inseparable link out of each work, until there is none. -/
inductive SonsOf (g : Graph) : Nat → List Nat → Prop
  | last {v : Nat} : g.insepSon v = none → SonsOf g v []
  | next {v w : Nat} {l : List Nat} : g.insepSon v = some w → SonsOf g w l → SonsOf g v (w :: l)

/-- The chain of `v`, found from the links: none if `v` has no inseparable successor or has an inseparable predecessor. -/
inductive ChainOf (g : Graph) : Nat → Option (List Nat) → Prop
  | single {v : Nat} : g.insepSon v = none → ChainOf g v none
  | inside {v w : Nat} : g.insepParent v = some w → ChainOf g v none
  | head {v w : Nat} {l : List Nat} : g.insepSon v = some w → g.insepParent v = none → SonsOf g v l → ChainOf g v (some (v :: l))

/-- The right answer to an operation and the links afterwards, without anything remembered. -/
inductive Right (key : Nat → Nat) (g : Graph) : Op → Answer → Graph → Prop
  | created {v ps} : (∀ w ∈ (g.addParents v ps).children v, key w ≠ key v) → Right key g (.create v ps) .done (g.addParents v ps)
  | cycle {v ps w} : w ∈ (g.addParents v ps).children v → key w = key v → Right key g (.create v ps) .cycle (g.addParents v ps)
  | link {v ps} : Right key g (.link v ps) .done (g.addParents v ps)
  | parents {v} : Right key g (.parents v) (.nodes (g.parents v)) g
  | children {v} : Right key g (.children v) (.nodes (g.children v)) g
  | insepParent {v} : Right key g (.insepParent v) (.node (g.insepParent v)) g
  | insepSon {v} : Right key g (.insepSon v) (.node (g.insepSon v)) g
  | chain {v c} : ChainOf g v c → Right key g (.chain v) (.chain c) g
  | neighbors {v} : Right key g (.neighbors v) (.nodes (neighborsOf g v)) g

/-- All answers are right. -/
inductive AllRight (key : Nat → Nat) : Graph → List Op → List Answer → Graph → Prop
  | nil {g} : AllRight key g [] [] g
  | cons {g op a g' ops as g''} : Right key g op a g' → AllRight key g' ops as g'' → AllRight key g (op :: ops) (a :: as) g''

/-- An operation other than reading the works linked start to start. -/
def Op.NotNeighbors : Op → Prop
  | .neighbors _ => False
  | _ => True

private structure Coherent (key : Nat → Nat) (s : State) : Prop where
  parents : ∀ v x, s.memory.parents v = some x → x = s.graph.parents v
  children : ∀ v x, s.memory.children v = some x → x = s.graph.children v
  insepParent : ∀ v x, s.memory.insepParent v = some x → x = s.graph.insepParent v
  insepSon : ∀ v x, s.memory.insepSon v = some x → x = s.graph.insepSon v
  chain : ∀ v x, s.memory.chain (key v) = some x → ChainOf s.graph v x

private theorem coherent_empty (key : Nat → Nat) (g : Graph) : Coherent key ⟨g, .empty⟩ :=
  ⟨nofun, nofun, nofun, nofun, nofun⟩

private theorem addParents_edges (v : Nat) : ∀ (ps : List (Nat × Int × EdgeType)) (g : Graph) (w : Nat),
    (w ≠ v → (g.addParents v ps).edgesTo w = g.edgesTo w) ∧
    ((∀ p ∈ ps, p.1 ≠ w) → (g.addParents v ps).edgesFrom w = g.edgesFrom w)
  | [], _, _ => ⟨fun _ => rfl, fun _ => rfl⟩
  | p :: ps, g, w => by
    obtain ⟨h1, h2⟩ := addParents_edges v ps (g.addEdge ⟨p.1, v, p.2.1, p.2.2⟩) w
    refine ⟨fun h => ?_, fun h => ?_⟩
    · exact (h1 h).trans (if_neg h)
    · exact (h2 fun q hq => h q (List.mem_cons_of_mem _ hq)).trans (if_neg fun h' => h p (List.mem_cons_self ..) h'.symm)

private theorem forget_fold : ∀ (ps : List (Nat × Int × EdgeType)) (m : Memory) (w : Nat),
    let m' := ps.foldl (fun m p => m.forgetChildren p.1) m
    (∀ x, m'.parents w = some x → m.parents w = some x) ∧
    (∀ x, m'.insepParent w = some x → m.insepParent w = some x) ∧
    (∀ x, m'.children w = some x → m.children w = some x ∧ ∀ p ∈ ps, p.1 ≠ w) ∧
    (∀ x, m'.insepSon w = some x → m.insepSon w = some x ∧ ∀ p ∈ ps, p.1 ≠ w)
  | [], m, w => ⟨fun _ => id, fun _ => id, fun _ h => ⟨h, by simp⟩, fun _ h => ⟨h, by simp⟩⟩
  | p :: ps, m, w => by
    obtain ⟨h1, h2, h3, h4⟩ := forget_fold ps (m.forgetChildren p.1) w
    have hpop : ∀ {α : Type} (f : Nat → Option α) x, pop f p.1 w = some x → f w = some x ∧ p.1 ≠ w := by
      intro α f x h
      unfold pop at h
      by_cases hw : w = p.1
      · rw [if_pos hw] at h; cases h
      · rw [if_neg hw] at h; exact ⟨h, fun h' => hw h'.symm⟩
    refine ⟨h1, fun x hx => (hpop _ _ (h2 x hx)).1, fun x hx => ?_, fun x hx => ?_⟩
    · have a := h3 x hx
      have b := hpop _ _ a.1
      refine ⟨b.1, fun q hq => ?_⟩
      rcases List.mem_cons.1 hq with rfl | hq
      · exact b.2
      · exact a.2 q hq
    · have a := h4 x hx
      have b := hpop _ _ a.1
      refine ⟨b.1, fun q hq => ?_⟩
      rcases List.mem_cons.1 hq with rfl | hq
      · exact b.2
      · exact a.2 q hq

private theorem coherent_link {key : Nat → Nat} {s : State} (h : Coherent key s) (v : Nat) (ps : List (Nat × Int × EdgeType)) :
    Coherent key (s.link v ps) := by
  have hpop : ∀ {α : Type} (f : Nat → Option α) w x, pop f v w = some x → f w = some x ∧ w ≠ v := by
    intro α f w x h
    unfold pop at h
    by_cases hw : w = v
    · rw [if_pos hw] at h; cases h
    · rw [if_neg hw] at h; exact ⟨h, hw⟩
  refine ⟨fun w x hx => ?_, fun w x hx => ?_, fun w x hx => ?_, fun w x hx => ?_, nofun⟩
  · obtain ⟨h1, h2⟩ := hpop _ w x hx
    rw [h.parents w x ((forget_fold ps s.memory w).1 x h1)]
    simp only [State.link, Graph.parents, ((addParents_edges v ps s.graph w).1 h2)]
  · have h1 := (forget_fold ps s.memory w).2.2.1 x hx
    rw [h.children w x h1.1]
    simp only [State.link, Graph.children, ((addParents_edges v ps s.graph w).2 h1.2)]
  · obtain ⟨h1, h2⟩ := hpop _ w x hx
    rw [h.insepParent w x ((forget_fold ps s.memory w).2.1 x h1)]
    simp only [State.link, Graph.insepParent, ((addParents_edges v ps s.graph w).1 h2)]
  · obtain ⟨h1, h2⟩ := hpop _ w x hx
    have h3 := (forget_fold ps s.memory w).2.2.2 x h1
    rw [h.insepSon w x h3.1]
    simp only [State.link, Graph.insepSon, ((addParents_edges v ps s.graph w).2 h3.2)]

private theorem put_some {α : Type} {f : Nat → Option α} {v : Nat} {x : α} {p : Nat → α → Prop} (hf : ∀ w y, f w = some y → p w y)
    (hx : p v x) : ∀ w y, put f v x w = some y → p w y := by
  intro w y h
  unfold put at h
  by_cases hw : w = v
  · rw [if_pos hw, Option.some.injEq] at h
    subst hw h
    exact hx
  · rw [if_neg hw] at h
    exact hf w y h

private theorem read_parents {key : Nat → Nat} {s : State} (h : Coherent key s) (v : Nat) :
    (s.parents v).1 = s.graph.parents v ∧ (s.parents v).2.graph = s.graph ∧ Coherent key (s.parents v).2 := by
  unfold State.parents
  cases hc : s.memory.parents v with
  | some x => exact ⟨h.parents v x hc, rfl, h⟩
  | none => exact ⟨rfl, rfl, put_some (p := fun w y => y = s.graph.parents w) h.parents rfl, h.children, h.insepParent, h.insepSon, h.chain⟩

private theorem read_children {key : Nat → Nat} {s : State} (h : Coherent key s) (v : Nat) :
    (s.children v).1 = s.graph.children v ∧ (s.children v).2.graph = s.graph ∧ Coherent key (s.children v).2 := by
  unfold State.children
  cases hc : s.memory.children v with
  | some x => exact ⟨h.children v x hc, rfl, h⟩
  | none => exact ⟨rfl, rfl, h.parents, put_some (p := fun w y => y = s.graph.children w) h.children rfl, h.insepParent, h.insepSon, h.chain⟩

private theorem read_insepParent {key : Nat → Nat} {s : State} (h : Coherent key s) (v : Nat) :
    (s.insepParent v).1 = s.graph.insepParent v ∧ (s.insepParent v).2.graph = s.graph ∧ Coherent key (s.insepParent v).2 := by
  unfold State.insepParent
  cases hc : s.memory.insepParent v with
  | some x => exact ⟨h.insepParent v x hc, rfl, h⟩
  | none => exact ⟨rfl, rfl, h.parents, h.children, put_some (p := fun w y => y = s.graph.insepParent w) h.insepParent rfl, h.insepSon, h.chain⟩

private theorem read_insepSon {key : Nat → Nat} {s : State} (h : Coherent key s) (v : Nat) :
    (s.insepSon v).1 = s.graph.insepSon v ∧ (s.insepSon v).2.graph = s.graph ∧ Coherent key (s.insepSon v).2 := by
  unfold State.insepSon
  cases hc : s.memory.insepSon v with
  | some x => exact ⟨h.insepSon v x hc, rfl, h⟩
  | none => exact ⟨rfl, rfl, h.parents, h.children, h.insepParent, put_some (p := fun w y => y = s.graph.insepSon w) h.insepSon rfl, h.chain⟩

private theorem read_sons {key : Nat → Nat} : ∀ (fuel : Nat) {s : State} (_ : Coherent key s) (v : Nat) {r : List Nat × State},
    State.sons fuel s v = some r → SonsOf s.graph v r.1 ∧ r.2.graph = s.graph ∧ Coherent key r.2
  | 0, _, _, _, _, hr => by simp [State.sons] at hr
  | fuel + 1, s, h, v, r, hr => by
    obtain ⟨h1, h2, h3⟩ := read_insepSon h v
    unfold State.sons at hr
    obtain ⟨son, s', hs⟩ : ∃ son s', s.insepSon v = (son, s') := ⟨_, _, rfl⟩
    rw [hs] at hr h1 h2 h3
    dsimp only at hr h1 h2 h3
    cases son with
    | none =>
      simp only [Option.some.injEq] at hr
      subst hr
      exact ⟨.last h1.symm, h2, h3⟩
    | some w =>
      obtain ⟨t, ht, rfl⟩ := Option.map_eq_some_iff.1 hr
      obtain ⟨h4, h5, h6⟩ := read_sons fuel h3 w ht
      exact ⟨.next h1.symm (h2 ▸ h4), h5.trans h2, h6⟩

private theorem read_chainBody {key : Nat → Nat} {fuel : Nat} {s : State} (h : Coherent key s) (v : Nat) {r : Option (List Nat) × State}
    (hr : State.chainBody fuel s v = some r) : ChainOf s.graph v r.1 ∧ r.2.graph = s.graph ∧ Coherent key r.2 := by
  obtain ⟨h1, h2, h3⟩ := read_insepSon h v
  unfold State.chainBody at hr
  obtain ⟨son, s', hs⟩ : ∃ son s', s.insepSon v = (son, s') := ⟨_, _, rfl⟩
  rw [hs] at hr h1 h2 h3
  dsimp only at hr h1 h2 h3
  cases son with
  | none =>
    simp only [Option.some.injEq] at hr
    subst hr
    exact ⟨.single h1.symm, h2, h3⟩
  | some w =>
    obtain ⟨k1, k2, k3⟩ := read_insepParent h3 v
    obtain ⟨par, s'', hs'⟩ : ∃ par s'', s'.insepParent v = (par, s'') := ⟨_, _, rfl⟩
    dsimp only at hr
    rw [hs'] at hr k1 k2 k3
    dsimp only at hr k1 k2 k3
    cases par with
    | some p =>
      simp only [Option.some.injEq] at hr
      subst hr
      exact ⟨.inside (h2 ▸ k1.symm), k2.trans h2, k3⟩
    | none =>
      obtain ⟨t, ht, rfl⟩ := Option.map_eq_some_iff.1 hr
      obtain ⟨h4, h5, h6⟩ := read_sons fuel k3 v ht
      rw [k2, h2] at h4
      exact ⟨.head h1.symm (h2 ▸ k1.symm) h4, h5.trans (k2.trans h2), h6⟩

private theorem read_chain {key : Nat → Nat} (hkey : Function.Injective key) {fuel : Nat} {s : State} (h : Coherent key s) (v : Nat)
    {r : Option (List Nat) × State} (hr : s.chain key fuel v = some r) :
    ChainOf s.graph v r.1 ∧ r.2.graph = s.graph ∧ Coherent key r.2 := by
  unfold State.chain at hr
  cases hc : s.memory.chain (key v) with
  | some x =>
    rw [hc] at hr
    simp only [Option.some.injEq] at hr
    subst hr
    exact ⟨h.chain v x hc, rfl, h⟩
  | none =>
    rw [hc] at hr
    obtain ⟨t, ht, rfl⟩ := Option.map_eq_some_iff.1 hr
    obtain ⟨h1, h2, h3⟩ := read_chainBody h v ht
    refine ⟨h1, h2, h3.parents, h3.children, h3.insepParent, h3.insepSon, fun w x hx => ?_⟩
    dsimp only at hx ⊢
    unfold put at hx
    by_cases hw : key w = key v
    · rw [if_pos hw, Option.some.injEq] at hx
      have := hkey hw
      subst this hx
      rw [h2]
      exact h1
    · rw [if_neg hw] at hx
      exact h3.chain w x hx

private theorem right_step {key : Nat → Nat} (hkey : Function.Injective key) {fuel : Nat} {s : State} (h : Coherent key s) {op : Op}
    (hop : Op.NotNeighbors op) {r : Answer × State} (hr : s.step key fuel op = some r) :
    Right key s.graph op r.1 r.2.graph ∧ Coherent key r.2 := by
  cases op with
  | create v ps =>
    obtain ⟨h1, h2, h3⟩ := read_children (coherent_link h v ps) v
    simp only [State.step, Option.some.injEq] at hr
    subst hr
    refine ⟨?_, h3⟩
    dsimp only
    rw [h2, h1]
    by_cases hc : ((s.link v ps).graph.children v).any fun w => decide (key w = key v)
    · rw [if_pos hc]
      obtain ⟨w, hw, hk⟩ := List.any_eq_true.1 hc
      exact .cycle hw (of_decide_eq_true hk)
    · rw [if_neg hc]
      exact .created fun w hw hk => hc (List.any_eq_true.2 ⟨w, hw, decide_eq_true hk⟩)
  | link v ps =>
    simp only [State.step, Option.some.injEq] at hr
    subst hr
    exact ⟨.link, coherent_link h v ps⟩
  | parents v =>
    obtain ⟨h1, h2, h3⟩ := read_parents h v
    simp only [State.step, Option.some.injEq] at hr
    subst hr
    dsimp only
    rw [h1, h2]
    exact ⟨.parents, h3⟩
  | children v =>
    obtain ⟨h1, h2, h3⟩ := read_children h v
    simp only [State.step, Option.some.injEq] at hr
    subst hr
    dsimp only
    rw [h1, h2]
    exact ⟨.children, h3⟩
  | insepParent v =>
    obtain ⟨h1, h2, h3⟩ := read_insepParent h v
    simp only [State.step, Option.some.injEq] at hr
    subst hr
    dsimp only
    rw [h1, h2]
    exact ⟨.insepParent, h3⟩
  | insepSon v =>
    obtain ⟨h1, h2, h3⟩ := read_insepSon h v
    simp only [State.step, Option.some.injEq] at hr
    subst hr
    dsimp only
    rw [h1, h2]
    exact ⟨.insepSon, h3⟩
  | chain v =>
    simp only [State.step] at hr
    obtain ⟨t, ht, rfl⟩ := Option.map_eq_some_iff.1 hr
    obtain ⟨h1, h2, h3⟩ := read_chain hkey h v ht
    dsimp only
    rw [h2]
    exact ⟨.chain h1, h3⟩
  | neighbors v => exact absurd hop id

private theorem all_right {key : Nat → Nat} (hkey : Function.Injective key) {fuel : Nat} : ∀ (ops : List Op) {s : State},
    Coherent key s → (∀ op ∈ ops, Op.NotNeighbors op) → ∀ {r : List Answer × State}, s.run key fuel ops = some r →
      AllRight key s.graph ops r.1 r.2.graph
  | [], s, _, _, r, hr => by
    simp only [State.run, Option.some.injEq] at hr
    subst hr
    exact .nil
  | op :: ops, s, h, hops, r, hr => by
    unfold State.run at hr
    obtain ⟨a, ha, hr⟩ := Option.bind_eq_some_iff.1 hr
    obtain ⟨t, ht, rfl⟩ := Option.map_eq_some_iff.1 hr
    obtain ⟨h1, h2⟩ := right_step hkey h (hops op (List.mem_cons_self ..)) ha
    exact .cons h1 (all_right hkey ops h2 (fun o ho => hops o (List.mem_cons_of_mem _ ho)) ht)

/-- Partial: if all nodes have different ids, every answer in every sequence of creations, links and reads is the one computed from the
links made so far; except for the works linked start to start (`neighbors_stale`). -/
theorem answers_current_partial {key : Nat → Nat} (hkey : Function.Injective key) {g : Graph} {fuel : Nat} {ops : List Op}
    (hops : ∀ op ∈ ops, Op.NotNeighbors op) {answers : List Answer} {s : State}
    (h : State.run key fuel ⟨g, .empty⟩ ops = some (answers, s)) : AllRight key g ops answers s.graph :=
  all_right hkey ops (coherent_empty key g) hops h

/-- The right answers are the only ones: `AllRight` leaves no freedom. -/
theorem right_unique {key : Nat → Nat} {g : Graph} {ops : List Op} {as bs : List Answer} {g1 g2 : Graph}
    (h1 : AllRight key g ops as g1) (h2 : AllRight key g ops bs g2) : as = bs ∧ g1 = g2 := by
  have sons : ∀ {g : Graph} {v : Nat} {l l' : List Nat}, SonsOf g v l → SonsOf g v l' → l = l' := by
    intro g v l l' h
    induction h generalizing l' with
    | last e =>
      intro h'
      cases h' with
      | last _ => rfl
      | next e' _ => rw [e] at e'; cases e'
    | next e _ ih =>
      intro h'
      cases h' with
      | last e' => rw [e] at e'; cases e'
      | next e' h'' =>
        rw [e, Option.some.injEq] at e'
        subst e'
        rw [ih h'']
  have chains : ∀ {g : Graph} {v : Nat} {c c' : Option (List Nat)}, ChainOf g v c → ChainOf g v c' → c = c' := by
    intro g v c c' h h'
    cases h <;> cases h' <;> first | rfl | (simp_all; done) | skip
    rename_i h3 _ _ _ _ h4
    rw [sons h3 h4]
  have one : ∀ {g : Graph} {op : Op} {a b : Answer} {g1 g2 : Graph}, Right key g op a g1 → Right key g op b g2 → a = b ∧ g1 = g2 := by
    intro g op a b g1 g2 h h'
    cases h <;> cases h' <;> first | exact ⟨rfl, rfl⟩ | skip
    · rename_i h _ hk hw
      exact absurd hk (h _ hw)
    · rename_i hw hk h
      exact absurd hk (h _ hw)
    · rename_i h _ h'
      exact ⟨by rw [chains h h'], rfl⟩
  induction h1 generalizing bs with
  | nil => cases h2; exact ⟨rfl, rfl⟩
  | cons r _ ih =>
    cases h2 with
    | cons r' h2 =>
      obtain ⟨rfl, rfl⟩ := one r r'
      obtain ⟨rfl, rfl⟩ := ih h2
      exact ⟨rfl, rfl⟩

private theorem sons_answered {key : Nat → Nat} {g : Graph} : ∀ (fuel : Nat) (l : List Nat) {s : State} (v : Nat), Coherent key s →
    s.graph = g → SonsOf g v l → l.length < fuel → ∃ r, State.sons fuel s v = some r
  | 0, _, _, _, _, _, _, h => by omega
  | fuel + 1, l, s, v, hc, hg, hl, hlen => by
    obtain ⟨h1, h2, h3⟩ := read_insepSon hc v
    unfold State.sons
    obtain ⟨son, s', hs⟩ : ∃ son s', s.insepSon v = (son, s') := ⟨_, _, rfl⟩
    rw [hs] at h1 h2 h3 ⊢
    dsimp only at h1 h2 h3 ⊢
    cases son with
    | none => exact ⟨_, rfl⟩
    | some w =>
      rw [hg] at h1
      cases hl with
      | last e => rw [e] at h1; cases h1
      | @next _ w' l' e hl =>
        rw [e, Option.some.injEq] at h1
        subst h1
        rw [List.length_cons] at hlen
        obtain ⟨r, hr⟩ := sons_answered fuel l' w h3 (h2.trans hg) hl (by omega)
        exact ⟨_, by dsimp only; rw [hr]; rfl⟩

private theorem coherent_run {key : Nat → Nat} (hkey : Function.Injective key) {fuel : Nat} : ∀ (ops : List Op) {s : State},
    Coherent key s → ∀ {r : List Answer × State}, s.run key fuel ops = some r → Coherent key r.2
  | [], s, h, r, hr => by
    simp only [State.run, Option.some.injEq] at hr
    subst hr
    exact h
  | op :: ops, s, h, r, hr => by
    unfold State.run at hr
    obtain ⟨a, ha, hr⟩ := Option.bind_eq_some_iff.1 hr
    obtain ⟨t, ht, rfl⟩ := Option.map_eq_some_iff.1 hr
    refine coherent_run hkey ops (s := a.2) (r := t) ?_ ht
    by_cases hop : Op.NotNeighbors op
    · exact (right_step hkey h hop ha).2
    · cases op with
      | neighbors v =>
        simp only [State.step, Option.some.injEq] at ha
        subst ha
        unfold State.neighbors
        cases hc : s.memory.neighbors v with
        | some x => exact h
        | none => exact ⟨h.parents, h.children, h.insepParent, h.insepSon, h.chain⟩
      | _ => exact absurd trivial hop

/-- A question for a chain is answered whenever the inseparable successors end before the recursion limit, whatever happened before. -/
theorem chain_answered {key : Nat → Nat} (hkey : Function.Injective key) {g : Graph} {fuel : Nat} {ops : List Op} {answers : List Answer}
    {s : State} (h : State.run key fuel ⟨g, .empty⟩ ops = some (answers, s)) {v : Nat} {l : List Nat} (hl : SonsOf s.graph v l)
    (hlen : l.length < fuel) : ∃ r, s.step key fuel (.chain v) = some r := by
  have hc := coherent_run hkey ops (coherent_empty key g) h
  dsimp only at hc
  unfold State.step State.chain
  dsimp only
  cases hm : s.memory.chain (key v) with
  | some x => exact ⟨_, rfl⟩
  | none =>
    obtain ⟨h1, h2, h3⟩ := read_insepSon hc v
    unfold State.chainBody
    obtain ⟨son, s', hs⟩ : ∃ son s', s.insepSon v = (son, s') := ⟨_, _, rfl⟩
    rw [hs] at h1 h2 h3 ⊢
    dsimp only at h1 h2 h3 ⊢
    cases son with
    | none => exact ⟨_, rfl⟩
    | some w =>
      obtain ⟨k1, k2, k3⟩ := read_insepParent h3 v
      obtain ⟨par, s'', hs'⟩ : ∃ par s'', s'.insepParent v = (par, s'') := ⟨_, _, rfl⟩
      dsimp only
      rw [hs'] at k1 k2 k3 ⊢
      cases par with
      | some p => exact ⟨_, rfl⟩
      | none =>
        obtain ⟨r, hr⟩ := sons_answered fuel l v k3 (k2.trans h2) hl hlen
        exact ⟨_, by dsimp only; rw [hr]; rfl⟩

/-- Not proved because false: "links are read as they are".  The works linked start to start are remembered for ever: after one read, a
new link is not seen. -/
theorem neighbors_stale : ∃ (ops : List Op) (answers : List Answer) (s : State),
    State.run id 10 ⟨Graph.empty, .empty⟩ ops = some (answers, s) ∧ ¬ ∃ g', AllRight id Graph.empty ops answers g' := by
  refine ⟨[.neighbors 1, .link 1 [(0, 0, .startStart)], .neighbors 1], [.nodes [], .done, .nodes []], _, rfl, ?_⟩
  rintro ⟨g', h⟩
  cases h with
  | cons r1 h =>
    cases r1
    cases h with
    | cons r2 h =>
      cases r2
      cases h with
      | cons r3 h =>
        generalize ha : Answer.nodes [] = a at r3
        cases r3
        revert ha
        decide

/-- Not proved because false: the same for graphs in which the ids of one are used again in another, such as a graph and its copy.  The
chain of the second graph's node is that of the first graph. -/
theorem same_ids_mixed : ∃ (key : Nat → Nat) (ops : List Op) (answers : List Answer) (s : State), (∀ op ∈ ops, Op.NotNeighbors op) ∧
    State.run key 10 ⟨Graph.empty, .empty⟩ ops = some (answers, s) ∧ ¬ ∃ g', AllRight key Graph.empty ops answers g' := by
  -- nodes 0, 1 are works 0, 1 of a graph; 10, 11 are the same works of its copy
  refine ⟨fun v => v % 10, [.create 0 [], .create 1 [(0, 0, .inseparable)], .create 10 [], .create 11 [(10, 0, .inseparable)],
    .chain 0, .chain 10], [.done, .done, .done, .done, .chain (some [0, 1]), .chain (some [0, 1])], _, ?_, rfl, ?_⟩
  · intro op hop
    simp only [List.mem_cons, List.not_mem_nil, or_false] at hop
    rcases hop with rfl | rfl | rfl | rfl | rfl | rfl <;> trivial
  rintro ⟨g', h⟩
  have right := AllRight.cons (key := fun v => v % 10) (g := Graph.empty) (.created (v := 0) (ps := []) (by decide)) <|
    .cons (.created (v := 1) (ps := [(0, 0, .inseparable)]) (by decide)) <| .cons (.created (v := 10) (ps := []) (by decide)) <|
    .cons (.created (v := 11) (ps := [(10, 0, .inseparable)]) (by decide)) <|
    .cons (.chain (v := 0) (.head (w := 1) (by decide) (by decide) (.next (w := 1) (by decide) (.last (by decide))))) <|
    .cons (.chain (v := 10) (.head (w := 11) (by decide) (by decide) (.next (w := 11) (by decide) (.last (by decide))))) .nil
  have := (right_unique h right).1
  revert this
  decide

-- chains are seen to grow, and a self-link is reported
example : (State.run id 10 ⟨Graph.empty, .empty⟩ [.create 0 [], .create 1 [(0, 0, .inseparable)], .create 2 [(1, 0, .finishStart)],
    .chain 0, .link 2 [(1, 5, .inseparable)], .chain 0, .children 1, .create 3 [(3, 0, .finishStart)]]).map (·.1) =
    some [.done, .done, .done, .chain (some [0, 1]), .done, .chain (some [0, 1, 2]), .nodes [2, 2], .cycle] := by decide
example : Function.Injective (id : Nat → Nat) := Function.injective_id

end Sampo.C72
