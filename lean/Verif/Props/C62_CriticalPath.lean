import Verif.Lemmas.CriticalPath
import Mathlib.Tactic.FinCases
import Mathlib.Tactic.Linarith

/-!
# C62. The critical path of a scheduled project

Full statement: for every scheduled project `critical_path` ends and returns a path of works, each depending on the one before,
such that no path of works takes longer in the schedule.

The project graph is any graph whose chains do not depend on each other in a circle and that has one final work.  The path consists of
works and inseparable chains.  The path returned maximizes the time of its works plus the number of its chains, so the last part of
the statement is false in general (`not_longest`).
-/

namespace Sampo.C62

open CriticalPath C22

variable {g : Graph} {nodes : List Nat} {final : Nat} {chain : Nat → List Nat} {dur : Nat → Int}

/-- For every project and all durations the search ends and returns a path; no path is better in the sum of the durations of its works
and the number of its chains. -/
theorem critical_partial (h : WorkGraph g nodes) (hac : Acyclic (g.HeadDependsOn nodes)) (hf : Final g nodes final)
    (hl : ListsChains g nodes chain) (hd : ∀ v ∈ nodes, 0 ≤ dur v)
    (hb : ∀ k, g.IsHead nodes k → 2 * ((chain k).map dur).sum ≤ TIME_INF) :
    ∃ cp, schedulePath g nodes dur = some (some cp) ∧ IsPath g nodes final cp ∧
      ∀ l, IsPath g nodes final l → time chain dur l + l.length ≤ time chain dur cp + cp.length := by
  unfold schedulePath
  cases hc : Heads.collapse g nodes with
  | none => exact absurd hac ((error_iff_chain_cycle h).mp hc)
  | some r =>
    obtain ⟨order, par, chi⟩ := r
    have hg := collapse_feeds_prioritization h hc
    have ht := collapse_tables h hc
    have hmem := (collapse_preserves_dependencies h hc).2.1
    have hmore : ∀ v ∈ order, (!(g.children v).isEmpty) = true ↔ (chi.lookup v).getD [] ≠ [] := by
      intro v hv
      obtain ⟨h1, h2⟩ := more_iff h hf ((hmem v).mp hv)
      rw [Bool.not_eq_true', List.isEmpty_eq_false_iff, h1, ← h2]
      constructor
      · rintro ⟨c, hc⟩
        exact List.ne_nil_of_mem ((ht v c).2.mpr hc)
      · intro hne
        obtain ⟨c, hc⟩ := List.exists_mem_of_ne_nil _ hne
        exact ⟨c, (ht v c).2.mp hc⟩
    have hnf : ∀ v ∈ order, (chi.lookup v).getD [] ≠ [] ↔ v ≠ final := by
      intro v hv
      obtain ⟨h1, h2⟩ := more_iff h hf ((hmem v).mp hv)
      rw [← hmore v hv, Bool.not_eq_true', List.isEmpty_eq_false_iff, h1]
    have hpos : ∀ v ∈ order, 0 < cost g nodes dur v := by
      intro v hv
      have hk := (hmem v).mp hv
      obtain ⟨h1, h2⟩ := cost_eq h hl hd hk (hb v hk)
      rw [h1]
      have : (0 : ℚ) ≤ (((chain v).map dur).sum : ℚ) := by exact_mod_cast h2
      linarith
    have hne : order ≠ [] := List.ne_nil_of_mem ((hmem final).mpr ⟨hf.mem, hf.alone⟩)
    obtain ⟨cp, hcp, hpath, hall, hbest⟩ := path_spec hg hpos hne hmore
    have hcost : ∀ l : List Nat, (∀ x ∈ l, x ∈ order) → (l.map (cost g nodes dur)).sum = ((time chain dur l + l.length : Int) : ℚ) := by
      intro l hl'
      refine sum_cost l ?_
      intro k hk
      have hk' := (hmem k).mp (hl' k hk)
      exact (cost_eq h hl hd hk' (hb k hk')).1
    refine ⟨cp, hcp, ⟨hpath.imp fun x y hxy => (ht y x).1.mp hxy, ?_⟩, ?_⟩
    · intro x hx
      obtain ⟨h1, h2⟩ := hall x hx
      exact ⟨(hmem x).mp h1, (hnf x h1).mp h2⟩
    · intro l hlp
      have hall' : ∀ x ∈ l, x ∈ order ∧ (chi.lookup x).getD [] ≠ [] := fun x hx => by
        obtain ⟨h1, h2⟩ := hlp.2 x hx
        have h3 := (hmem x).mpr h1
        exact ⟨h3, (hnf x h3).mpr h2⟩
      have h1 := hbest l (hlp.1.imp fun x y hxy => (ht y x).1.mpr hxy) hall'
      rw [hcost l fun x hx => (hall' x hx).1, hcost cp fun x hx => (hall x hx).1] at h1
      exact_mod_cast h1

/-- So no path of at least as many chains takes longer, and no path at all takes longer by more than the number of chains on the
path returned. -/
theorem nearly_longest (h : WorkGraph g nodes) (hac : Acyclic (g.HeadDependsOn nodes)) (hf : Final g nodes final)
    (hl : ListsChains g nodes chain) (hd : ∀ v ∈ nodes, 0 ≤ dur v)
    (hb : ∀ k, g.IsHead nodes k → 2 * ((chain k).map dur).sum ≤ TIME_INF) {cp : List Nat}
    (hcp : schedulePath g nodes dur = some (some cp)) :
    ∀ l, IsPath g nodes final l → (cp.length ≤ l.length → time chain dur l ≤ time chain dur cp) ∧
      time chain dur l ≤ time chain dur cp + cp.length := by
  obtain ⟨cp', hcp', -, hbest⟩ := critical_partial h hac hf hl hd hb
  rw [hcp] at hcp'
  simp only [Option.some.injEq] at hcp'
  subst hcp'
  intro l hl'
  have := hbest l hl'
  constructor
  · intro hlen
    omega
  · omega

/-- A path of chains never comes back to a chain. -/
theorem path_once (hac : Acyclic (g.HeadDependsOn nodes)) {l : List Nat} (hp : IsPath g nodes final l) : l.Nodup := by
  have h1 : l.IsChain (fun x y => Relation.TransGen (g.HeadDependsOn nodes) y x) := hp.1.imp fun x y hxy => Relation.TransGen.single hxy
  have : IsTrans Nat (fun x y => Relation.TransGen (g.HeadDependsOn nodes) y x) := ⟨fun a b c hab hbc => Relation.TransGen.trans hbc hab⟩
  rw [List.isChain_iff_pairwise] at h1
  rw [List.nodup_iff_pairwise_ne]
  refine h1.imp ?_
  rintro a b hab rfl
  exact hac a hab

/-- What the user gets: the last work of every chain on the path, in order, if all these works are in the original project. -/
theorem reported (h : WorkGraph g nodes) (hac : Acyclic (g.HeadDependsOn nodes)) {cp known : List Nat}
    (hcp : schedulePath g nodes dur = some (some cp)) (hp : IsPath g nodes final cp)
    (hk : ∀ k ∈ cp, ∀ z, g.InChain k z → (∀ y, ¬ g.Follows z y) → z ∈ known) :
    ∃ r, projectPath g nodes dur known = some (some r) ∧ r.Nodup ∧
      List.Forall₂ (fun k z => g.InChain k z ∧ ∀ y, ¬ g.Follows z y) cp r := by
  have hlast : ∀ k ∈ cp, g.InChain k (lastOf g nodes.length k) ∧ ∀ y, ¬ g.Follows (lastOf g nodes.length k) y := fun k hkm =>
    ⟨(chain_list h (hp.2 k hkm).1).2.2.1, (chain_list h (hp.2 k hkm).1).2.2.2⟩
  have hnd : (cp.map (lastOf g nodes.length)).Nodup := by
    refine List.Nodup.map_on ?_ (path_once hac hp)
    intro x hx y hy heq
    exact Graph.head_unique h.chains (hp.2 x hx).1 (hp.2 y hy).1 (hlast x hx).1 (by rw [heq]; exact (hlast y hy).1)
  refine ⟨cp.map (lastOf g nodes.length), ?_, hnd, ?_⟩
  · unfold projectPath
    rw [hcp]
    simp only [Option.map_some, Option.bind_some]
    rw [report_spec cp [] (fun k hkm => hk k hkm _ (hlast k hkm).1 (hlast k hkm).2) (by simpa using hnd)]
    simp
  · rw [List.forall₂_map_right_iff, List.forall₂_same]
    exact fun k hkm => hlast k hkm

/-- In a project without inseparable works the user gets the path itself. -/
theorem reported_unchanged (h : WorkGraph g nodes) (hac : Acyclic (g.HeadDependsOn nodes)) {cp : List Nat}
    (hcp : schedulePath g nodes dur = some (some cp)) (hp : IsPath g nodes final cp) (hn : ∀ a b, ¬ g.Follows a b) :
    projectPath g nodes dur nodes = some (some cp) := by
  have hself : ∀ k z, g.InChain k z → k = z := by
    intro k z hz
    rcases Relation.ReflTransGen.cases_tail hz with heq | ⟨c, -, hc⟩
    · exact heq.symm
    · exact absurd hc (hn _ _)
  obtain ⟨r, hr, -, hf⟩ := reported (known := nodes) h hac hcp hp (fun k hk z hz _ => by
    rw [← hself k z hz]; exact (hp.2 k hk).1.1)
  rw [hr]
  congr 2
  symm
  rw [← List.forall₂_eq_eq_eq]
  exact hf.imp fun k z hkz => hself k z hkz.1

/-! ### A concrete project -/

/-- Start 0; work 1; works 2, 3, 4 in a row; final work 5. -/
def demo : Graph := Graph.ofEdges [⟨0, 1, 0, .finishStart⟩, ⟨0, 2, 0, .finishStart⟩, ⟨2, 3, 0, .finishStart⟩, ⟨3, 4, 1, .lagFinishStart⟩,
  ⟨1, 5, 0, .finishStart⟩, ⟨4, 5, 0, .finishStart⟩]

example : WorkGraph demo [0, 1, 2, 3, 4, 5] where
  once := by decide
  linked := Graph.linked_ofEdges _
  closed := Graph.closed_ofEdges (by decide)
  chains := Graph.chains_ofEdges (by decide)
  acyclic := Graph.acyclic_ofEdges id (by decide)

private theorem demo_to (v : Nat) : demo.edgesTo v = [⟨0, 1, 0, .finishStart⟩, ⟨0, 2, 0, .finishStart⟩, ⟨2, 3, 0, .finishStart⟩,
    ⟨3, 4, 1, .lagFinishStart⟩, ⟨1, 5, 0, .finishStart⟩, ⟨4, 5, 0, .finishStart⟩].filter fun e => e.finish = v := by
  unfold demo Graph.ofEdges
  rw [(Graph.foldl_addEdge _ _).1]
  rfl

private theorem demo_follows (a b : Nat) : ¬ demo.Follows a b := by
  rintro ⟨e, he, -, ht⟩
  rw [demo_to, List.mem_filter] at he
  have := he.1
  fin_cases this <;> simp at ht

private theorem demo_mem (a b : Nat) : demo.DependsOn b a ↔
    (a, b) ∈ [(0, 1), (0, 2), (2, 3), (3, 4), (1, 5), (4, 5)] := by
  constructor
  · rintro ⟨e, he, rfl, -⟩
    rw [demo_to, List.mem_filter] at he
    obtain ⟨h1, h2⟩ := he
    have h3 : e.finish = b := of_decide_eq_true h2
    subst h3
    fin_cases h1 <;> simp
  · intro hm
    fin_cases hm
    · exact ⟨⟨0, 1, 0, .finishStart⟩, by rw [demo_to]; decide, rfl, by simp⟩
    · exact ⟨⟨0, 2, 0, .finishStart⟩, by rw [demo_to]; decide, rfl, by simp⟩
    · exact ⟨⟨2, 3, 0, .finishStart⟩, by rw [demo_to]; decide, rfl, by simp⟩
    · exact ⟨⟨3, 4, 1, .lagFinishStart⟩, by rw [demo_to]; decide, rfl, by simp⟩
    · exact ⟨⟨1, 5, 0, .finishStart⟩, by rw [demo_to]; decide, rfl, by simp⟩
    · exact ⟨⟨4, 5, 0, .finishStart⟩, by rw [demo_to]; decide, rfl, by simp⟩

private theorem demo_final : Final demo [0, 1, 2, 3, 4, 5] 5 where
  mem := by decide
  alone := fun a => demo_follows a 5
  last := fun w hw => by rw [demo_mem] at hw; simp at hw
  others := by
    intro v hv hne
    fin_cases hv
    · exact ⟨1, (demo_mem _ _).mpr (by decide)⟩
    · exact ⟨5, (demo_mem _ _).mpr (by decide)⟩
    · exact ⟨3, (demo_mem _ _).mpr (by decide)⟩
    · exact ⟨4, (demo_mem _ _).mpr (by decide)⟩
    · exact ⟨5, (demo_mem _ _).mpr (by decide)⟩
    · exact absurd rfl hne

example : Final demo [0, 1, 2, 3, 4, 5] 5 := demo_final

example : ListsChains demo [0, 1, 2, 3, 4, 5] (fun v => [v]) := by
  intro k _
  refine ⟨by simp, fun x => ?_⟩
  rw [List.mem_singleton]
  constructor
  · rintro rfl; exact Relation.ReflTransGen.refl
  · intro hx
    rcases Relation.ReflTransGen.cases_tail hx with heq | ⟨c, -, hc⟩
    · exact heq
    · exact absurd hc (demo_follows _ _)

private theorem demo_head (a b : Nat) (h : demo.DependsOn b a) : demo.HeadDependsOn [0, 1, 2, 3, 4, 5] b a := by
  have hm := (demo_mem a b).mp h
  refine ⟨⟨?_, fun a => demo_follows _ _⟩, ⟨?_, fun a => demo_follows _ _⟩, ?_, b, a, Relation.ReflTransGen.refl, Relation.ReflTransGen.refl, h⟩ <;>
    fin_cases hm <;> decide

example : Acyclic (demo.HeadDependsOn [0, 1, 2, 3, 4, 5]) := by
  have hlt : ∀ a b, demo.HeadDependsOn [0, 1, 2, 3, 4, 5] a b → b < a := by
    rintro a b ⟨-, -, -, v, w, hv, hw, hd⟩
    have h1 : ∀ k z, demo.InChain k z → z = k := fun k z hz => by
      rcases Relation.ReflTransGen.cases_tail hz with heq | ⟨c, -, hc⟩
      · exact heq
      · exact absurd hc (demo_follows _ _)
    rw [h1 _ _ hv, h1 _ _ hw, demo_mem] at hd
    fin_cases hd <;> decide
  intro x hx
  have : ∀ a b, Relation.TransGen (demo.HeadDependsOn [0, 1, 2, 3, 4, 5]) a b → b < a := by
    intro a b hab
    induction hab with
    | single h => exact hlt _ _ h
    | tail _ h ih => exact Nat.lt_trans (hlt _ _ h) ih
  exact Nat.lt_irrefl _ (this x x hx)

/-- Work 1 takes four units, works 2 to 4 one each. -/
def demoDur (v : Nat) : Int := if v = 1 then 4 else if v = 2 ∨ v = 3 ∨ v = 4 then 1 else 0

/-- Not proved because false: the path returned takes the longest time.  The project has a path of four units of time, the path
returned takes three. -/
theorem not_longest : schedulePath demo [0, 1, 2, 3, 4, 5] demoDur = some (some [0, 2, 3, 4]) ∧ IsPath demo [0, 1, 2, 3, 4, 5] 5 [0, 1] ∧
    time (fun v => [v]) demoDur [0, 2, 3, 4] < time (fun v => [v]) demoDur [0, 1] := by
  refine ⟨by decide +kernel, ⟨?_, ?_⟩, by decide⟩
  · rw [List.isChain_cons_cons]
    exact ⟨demo_head _ _ ((demo_mem _ _).mpr (by decide)), List.isChain_singleton _⟩
  · intro x hx
    fin_cases hx
    · exact ⟨⟨by decide, fun a => demo_follows _ _⟩, by decide⟩
    · exact ⟨⟨by decide, fun a => demo_follows _ _⟩, by decide⟩

example : projectPath demo [0, 1, 2, 3, 4, 5] (fun v => 4 * demoDur v) [0, 1, 2, 3, 4, 5] = some (some [0, 1]) := by decide +kernel

/-- Start 0, inseparable works 1 and 2, final work 3. -/
def chained : Graph := Graph.ofEdges [⟨0, 1, 0, .finishStart⟩, ⟨1, 2, 0, .inseparable⟩, ⟨2, 3, 0, .finishStart⟩]

/-- Not proved because false: the user gets all works of the path.  Work 1 is on the only path, but only the last work of its chain
is reported. -/
theorem chain_omitted : projectPath chained [0, 1, 2, 3] (fun v => if v = 1 then 7 else 1) [0, 1, 2, 3] = some (some [0, 2]) := by
  decide +kernel

end Sampo.C62
