import Verif.Model.Lifetime
import Verif.Props.C31_RoundTrip

/-!
# C70: copies of work graphs, and graphs that share works
-/

namespace Sampo.C70

open Lifetime

/-- The works have the links of `g`: those to predecessors in the same order, those to successors in any order. -/
def Whole (g : Graph) (s : Store) (nodes : List Nat) : Prop :=
  ∀ v ∈ nodes, s.edgesTo v = some (g.edgesTo v) ∧ ∃ l, s.edgesFrom v = some l ∧ l.Perm (g.edgesFrom v)

/-- The works have lost their links: every use of `parents` or `edges_to` raises. -/
def Lost (s : Store) (nodes : List Nat) : Prop := ∀ v ∈ nodes, s.edgesTo v = none ∧ s.edgesFrom v = none

variable {g : Graph} {start finish : Nat} {nodes : List Nat}

/-- Rounds of the traversal that always suffice. -/
def enough (g : Graph) (nodes : List Nat) : Nat := (1 + (nodes.map fun v => (g.edgesFrom v).length).sum) ^ 2

/-- A graph object of a project has its start and finish and all its works. -/
theorem constructed (hp : g.Project start nodes) {fuel : Nat} (hf : enough g nodes ≤ fuel) :
    ∃ o, construct g fuel start finish = some o ∧ o.start = start ∧ o.finish = finish ∧ o.nodes.Perm nodes := by
  obtain ⟨order, h1, h2⟩ := C33.ends hp hf
  refine ⟨⟨start, finish, order⟩, ?_, rfl, rfl, h2⟩
  unfold construct
  rw [h1]
  rfl

private theorem copied (hp : g.Project start nodes) (hfin : finish ∈ nodes) (hlead : ∀ v ∈ nodes, g.Reaches v finish) {fuel : Nat}
    (hf : enough g nodes ≤ fuel) {o : Obj} (ho : construct g fuel start finish = some o) :
    ∃ g', Graph.deserialize (g.serialize o.nodes) = some (start, finish, g') ∧
      (∀ v ∈ nodes, g'.edgesTo v = g.edgesTo v ∧ (g'.edgesFrom v).Perm (g.edgesFrom v)) ∧
      ∃ o', construct g' fuel start finish = some o' ∧ o'.start = start ∧ o'.finish = finish ∧ o'.nodes.Perm nodes := by
  unfold construct at ho
  obtain ⟨order, h1, rfl⟩ := Option.map_eq_some_iff.1 ho
  obtain ⟨g', h2, h3, h4⟩ := C31.round_trip_partial hp hfin hlead h1
  refine ⟨g', h2, h4, constructed h3 ?_⟩
  have : enough g' nodes = enough g nodes := by
    unfold enough
    congr 3
    apply List.map_congr_left
    intro v hv
    exact (h4 v hv).2.length_eq
  omega

/-- A copy made with `dill` has the same start, finish, works and links. -/
theorem dill_copy (hp : g.Project start nodes) (hfin : finish ∈ nodes) (hlead : ∀ v ∈ nodes, g.Reaches v finish) {fuel : Nat}
    (hf : enough g nodes ≤ fuel) {o : Obj} (ho : construct g fuel start finish = some o) :
    ∃ o' s, dillCopy g fuel o = some (some (o', s)) ∧ o'.start = start ∧ o'.finish = finish ∧ o'.nodes.Perm nodes ∧
      Whole g s nodes := by
  obtain ⟨g', h1, h2, o', h3, h4, h5, h6⟩ := copied hp hfin hlead hf ho
  refine ⟨o', Store.ofGraph g', ?_, h4, h5, h6, fun v hv => ⟨congrArg some (h2 v hv).1, _, rfl, (h2 v hv).2⟩⟩
  unfold dillCopy recreate
  rw [h1]
  dsimp only
  rw [h3]
  rfl

/-- Partial: a copy made with `copy.deepcopy` or `pickle` has the same start, finish and works.  Its links are missing
(`deepcopy_lost`). -/
theorem deepcopy_works_partial (hp : g.Project start nodes) (hfin : finish ∈ nodes) (hlead : ∀ v ∈ nodes, g.Reaches v finish)
    {fuel : Nat} (hf : enough g nodes ≤ fuel) {o : Obj} (ho : construct g fuel start finish = some o) :
    ∃ o' s, deepcopy g fuel o = some (some (o', s)) ∧ o'.start = start ∧ o'.finish = finish ∧ o'.nodes.Perm nodes := by
  obtain ⟨g', h1, -, o', h3, h4, h5, h6⟩ := copied hp hfin hlead hf ho
  refine ⟨o', discard o' (Store.ofGraph g'), ?_, h4, h5, h6⟩
  unfold deepcopy setState
  rw [h1]
  dsimp only
  rw [h3]
  simp only [Option.bind_some]
  rw [h4, h5, h3]
  rfl

/-- Not proved because false: "a copy made with `copy.deepcopy` or `pickle` has the links of the graph".  No work of any copy has
links. -/
theorem deepcopy_lost (hp : g.Project start nodes) (hfin : finish ∈ nodes) (hlead : ∀ v ∈ nodes, g.Reaches v finish) {fuel : Nat}
    (hf : enough g nodes ≤ fuel) {o : Obj} (ho : construct g fuel start finish = some o) :
    ∃ o' s, deepcopy g fuel o = some (some (o', s)) ∧ Lost s nodes := by
  obtain ⟨g', h1, -, o', h3, h4, h5, h6⟩ := copied hp hfin hlead hf ho
  refine ⟨o', discard o' (Store.ofGraph g'), ?_, fun v hv => ?_⟩
  · unfold deepcopy setState
    rw [h1]
    dsimp only
    rw [h3]
    simp only [Option.bind_some]
    rw [h4, h5, h3]
    rfl
  · have : v ∈ o'.nodes := h6.mem_iff.2 hv
    exact ⟨if_pos this, if_pos this⟩

/-- The end of a graph object leaves the works of graphs that share no work with it alone. -/
theorem end_spares_others (o : Obj) {other : List Nat} (hno : ∀ v ∈ other, v ∉ o.nodes) {g' : Graph} {s : Store}
    (h : Whole g' s other) : Whole g' (discard o s) other := by
  intro v hv
  have := hno v hv
  obtain ⟨h1, l, h2, h3⟩ := h v hv
  exact ⟨by rw [← h1]; exact if_neg this, l, by rw [← h2]; exact if_neg this, h3⟩

/-- Not proved because false: "a graph can be used as long as it is needed, whatever happens to other graphs".  A second graph object
over the same works takes all links with it. -/
theorem end_takes_shared_links {fuel : Nat} {first second : Obj}
    (h1 : construct g fuel start finish = some first) (h2 : construct g fuel start finish = some second) :
    Lost (discard second (Store.ofGraph g)) first.nodes := by
  rw [h1, Option.some.injEq] at h2
  subst h2
  exact fun v hv => ⟨if_pos hv, if_pos hv⟩

-- a concrete project of seven works
private def object : Obj := ⟨0, 6, [0, 1, 4, 2, 3, 5, 6]⟩
example : (construct C31.demo 30 0 6).map (·.nodes) = some object.nodes := by decide +kernel
example : ((dillCopy C31.demo 30 object).bind id).map (fun r => (r.1.finish, (r.2.edgesTo 4).map (·.length))) = some (6, some 2) := by
  decide +kernel
example : ((deepcopy C31.demo 30 object).bind id).map (fun r => (r.1.finish, (r.2.edgesTo 4).map (·.length))) = some (6, none) := by
  decide +kernel

end Sampo.C70
