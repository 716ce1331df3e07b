import Verif.Model.Blocks
import Verif.Spec.Order

/-!
# Specification vocabulary for block graphs
-/

namespace Sampo.Blocks

/-- The user's block graph: blocks, and pairs (a, b) meaning that `b` depends on `a`. -/
structure Plan where
  blocks : List Nat
  edges : List (Nat × Nat)

/-- The graph built for it by `BlockGraph.pure` and `add_edge`. -/
def Plan.graph (p : Plan) : BlockGraph := (BlockGraph.pure p.blocks).addEdges p.edges

/-- Dependencies are between blocks of the plan and form no cycle. -/
structure Plan.Valid (p : Plan) : Prop where
  known : ∀ e ∈ p.edges, e.1 ∈ p.blocks ∧ e.2 ∈ p.blocks
  acyclic : Acyclic fun a b => (a, b) ∈ p.edges

/-- One step in the whole work graph, as far as starts and finishes of blocks are concerned: a link between blocks, or from
the start of a block to its finish. -/
def Plan.Leads (p : Plan) (x y : BlockGraph.Port) : Prop :=
  (x, y) ∈ p.graph.links ∨ ∃ b ∈ p.blocks, x = .start b ∧ y = .finish b

end Sampo.Blocks
