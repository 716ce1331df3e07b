import Verif.Model.PlainPipeline

/-!
# A project for the pipeline from a list of works
-/

namespace Sampo.PlainPipeline

/-- `WorkGraph.from_nodes` (schemas/graph.py:352-359) with the list of works that `WorkGraph.reinit` makes of the finished graph (341-347,
475-476).  The requirements and priorities of works are given.  Outer `none`: the traversal does not end within the fuel; inner `none`:
`from_nodes` raises an error. -/
def build (g : Graph) (start finish : Nat) (nodes : List Nat) (reqs : Nat → List WorkerReq) (prio : Nat → Int) (fuel : Nat) :
    Option (Option Project) :=
  match g.fromNodes start finish nodes with
  | none => some none
  | some g' => (g'.traverse fuel start).map fun order => some ⟨g', order, reqs, prio⟩

end Sampo.PlainPipeline
