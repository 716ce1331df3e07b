import Verif.Model.Synthetic
import Verif.Spec.Graph

/-!
# Specification vocabulary for synthetic work graphs
-/

namespace Sampo.Synthetic

/-- What the random number generator can give: numbers from 0 to 1, and integers within the borders asked for. -/
structure Possible (d : Draw) : Prop where
  pipeNodes : 0 ≤ d.pipeNodes ∧ d.pipeNodes ≤ 1
  pipeNet : 0 ≤ d.pipeNet ∧ d.pipeNet ≤ 1
  masts : 0 ≤ d.masts ∧ d.masts ≤ 1
  boreholes : 0 ≤ d.boreholes ∧ d.boreholes ≤ 1
  extra : 0 ≤ d.extra ∧ d.extra ≤ 1
  branch : 0 ≤ d.branch ∧ d.branch ≤ 1
  pick : ∀ a b, a ≤ b → a ≤ d.pick a b ∧ d.pick a b ≤ b

/-- The number of works, without the two service works. -/
def WorkGraph.works (wg : WorkGraph) : Nat := wg.kinds.length

/-- `vertex_count`: the number of nodes, with the two service works. -/
def WorkGraph.vertices (wg : WorkGraph) : Nat := wg.kinds.length + 2

/-- The number of works of a kind. -/
def WorkGraph.countOf (wg : WorkGraph) (k : Kind) : Nat := wg.kinds.count k

/-- The last works of the clusters ("cluster handing"), in the order of creation. -/
def handings (kinds : List Kind) : List Nat := (List.range kinds.length).filter fun v => kinds[v]? = some .handing

/-- The number of clusters. -/
def WorkGraph.clusters (wg : WorkGraph) : Nat := wg.countOf .handing

/-- A usable project: the nodes are the works and the two service works, each once; nothing precedes the start and nothing follows
the finish; every node is reached from the start and leads to the finish; there is no cycle. -/
structure WorkGraph.Usable (wg : WorkGraph) : Prop where
  service : wg.start = wg.works ∧ wg.finish = wg.works + 1
  project : wg.graph.Project wg.start (wg.start :: wg.finish :: List.range wg.works)
  source : wg.graph.edgesTo wg.start = []
  sink : wg.graph.edgesFrom wg.finish = []
  finishes : ∀ v ∈ wg.start :: wg.finish :: List.range wg.works, wg.graph.Reaches v wg.finish

end Sampo.Synthetic
