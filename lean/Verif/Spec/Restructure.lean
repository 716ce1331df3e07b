import Verif.Model.Restructure
import Verif.Spec.Sched

/-!
# Specification vocabulary: restructured graphs
-/

namespace Sampo.Restructure

/-- The given graph: `nodes` are its works in a topological order of all edges, and both ends of every edge know it. -/
structure WellFormed (G : OGraph) (nodes : List Nat) : Prop where
  nodup : nodes.Nodup
  entering : ∀ v ∈ nodes, ∀ e ∈ G.edgesTo v, e.finish = v ∧ e ∈ G.edgesFrom e.start
  leaving : ∀ v ∈ nodes, ∀ e ∈ G.edgesFrom v, e.start = v ∧ e.finish ∈ nodes ∧ e ∈ G.edgesTo e.finish
  topo : TopoList (fun v => (G.edgesTo v).map (·.start)) nodes

/-- From one work to another there is at most one edge of the types start-start and lagged finish-start, and at most one of
the types finish-finish and lagged finish-start. -/
structure Simple (G : OGraph) (nodes : List Nat) : Prop where
  from_to : ∀ v ∈ nodes,
    (((G.edgesTo v).filter fun e => e.type = .startStart ∨ e.type = .lagFinishStart).map (·.start)).Nodup
  from_from : ∀ v ∈ nodes,
    (((G.edgesFrom v).filter fun e => e.type = .startStart ∨ e.type = .lagFinishStart).map (·.finish)).Nodup
  to_to : ∀ v ∈ nodes,
    (((G.edgesTo v).filter fun e => e.type = .finishFinish ∨ e.type = .lagFinishStart).map (·.start)).Nodup

/-- The new nodes made from work `v`, in order. -/
def stagesOf (N : New) (v : Nat) : List (NewId × Unit_) := N.nodes.filter (·.1.work = v)

/-- The first stage of a work. -/
def firstOf (N : New) (v : Nat) : NewId := ((stagesOf N v).map (·.1)).headD (.last v)

/-- The last stage of a work. -/
def lastOf (N : New) (v : Nat) : NewId := ((stagesOf N v).map (·.1)).getLastD (.last v)

/-- Volume of the stages of the same work before stage `x`. -/
def volumeBefore (N : New) (x : NewId) : ℚ :=
  (((stagesOf N x.work).takeWhile fun n => n.1 ≠ x).map (·.2.volume)).sum

/-- Volume of the stages of the same work up to and including stage `x`. -/
def volumeUpTo (N : New) (x : NewId) : ℚ :=
  volumeBefore N x + (((stagesOf N x.work).filter fun n => n.1 = x).map (·.2.volume)).sum

/-- The part of a work that the lag of an edge stands for: lags count only if they are optimized and do not exceed the volume
of the work the edge comes from. -/
def lagShare (G : OGraph) (opt : Bool) (e : OEdge) : ℚ :=
  if opt = true ∧ 0 < e.lag ∧ e.lag ≤ (G.wu e.start).volume then e.lag / (G.wu e.start).volume else 0

/-- The work the edge leads to starts after the part of its predecessor that the lag stands for. -/
def StartAfterPart (G : OGraph) (opt : Bool) (N : New) (e : OEdge) : Prop :=
  ∃ a ∈ (stagesOf N e.start).map (·.1), ⟨a, firstOf N e.finish, 0, .finishStart⟩ ∈ N.edges ∧
    volumeUpTo N a = (G.wu e.start).volume * lagShare G opt e

/-- The part of the work that the lag stands for, its last one, starts after the predecessor has finished. -/
def FinishAfter (G : OGraph) (opt : Bool) (N : New) (e : OEdge) : Prop :=
  ∃ b ∈ (stagesOf N e.finish).map (·.1), ⟨lastOf N e.start, b, 0, .finishStart⟩ ∈ N.edges ∧
    volumeBefore N b = (G.wu e.finish).volume * (1 - lagShare G opt e)

/-- What becomes of an edge. -/
def Realized (G : OGraph) (opt : Bool) (N : New) (e : OEdge) : Prop :=
  match e.type with
  | .finishStart => ⟨lastOf N e.start, firstOf N e.finish, ⌈e.lag⌉, .finishStart⟩ ∈ N.edges
  | .inseparable => ⟨lastOf N e.start, firstOf N e.finish, 0, .inseparable⟩ ∈ N.edges
  | .startStart => StartAfterPart G opt N e
  | .finishFinish => FinishAfter G opt N e
  | .lagFinishStart =>
    if opt then StartAfterPart G opt N e ∧ FinishAfter G opt N e
    else ⟨lastOf N e.start, firstOf N e.finish, 0, .finishStart⟩ ∈ N.edges

/-- Times of new nodes that follow the edges of the new graph. -/
structure Follows (N : New) (start finish : NewId → ℚ) : Prop where
  duration : ∀ x ∈ N.ids, start x ≤ finish x
  edges : ∀ e ∈ N.edges, finish e.start + e.lag ≤ start e.finish

end Sampo.Restructure
