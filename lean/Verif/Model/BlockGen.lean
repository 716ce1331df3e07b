import Verif.Spec.Blocks

/-!
# Generated block graphs (`sampo/scheduler/multi_agency/block_generator.py`)

A block is the number of its place in the list of nodes; its work graph is its number of works (`vertex_count`), at least two.
Simplified: the types of the work graphs are not modelled; before Python 3.12 `rand.sample` raises if no block is asked for.
-/

namespace Sampo.Blocks

/-- `SyntheticBlockGraphType` (block_generator.py:13-24) without queues. -/
inductive Kind
  | sequential
  | parallel
  | random
deriving DecidableEq

/-- `BlockNode.is_service` (block_graph.py:25-26) of block `i`; the two blocks after the generated ones, the global start and the global end,
are empty graphs (block_generator.py:31-34, 68). -/
def service (sizes : List Nat) (i : Nat) : Bool := sizes.getD i 2 == 2

/-- The links between generated blocks (block_generator.py:73-88).  `draw i j` is whether `rand.randint(0, rev_edge_prob)` is 0. -/
def innerEdges (kind : Kind) (sizes : List Nat) (draw : Nat → Nat → Bool) : List (Nat × Nat) :=
  match kind with
  | .sequential => (List.range sizes.length).flatMap fun i =>
      if 2 < sizes.getD i 2 ∧ 2 < sizes.getD (i + 1) 2 then [(i, i + 1)] else []
  | .parallel => []
  | .random => (List.range (sizes.length + 2)).flatMap fun i => (List.range' i (sizes.length + 2 - i)).flatMap fun j =>
      if service sizes i = false ∧ service sizes j = false then if i = j ∨ draw i j = false then [] else [(i, j)] else []

/-- The links to the global start and the global end (block_generator.py:90-93). -/
def outerEdges (sizes : List Nat) : List (Nat × Nat) :=
  (List.range (sizes.length + 2)).flatMap fun i =>
    if service sizes i then [] else [(sizes.length, i), (i, sizes.length + 1)]

/-- The block graph as it is built by `generate_blocks` (block_generator.py:66-93) before it is logged. -/
def builtPlan (kind : Kind) (sizes : List Nat) (draw : Nat → Nat → Bool) : Plan :=
  ⟨List.range (sizes.length + 2), innerEdges kind sizes draw ++ outerEdges sizes⟩

/-- `generate_blocks` (block_generator.py:37-98).  `none`: `AttributeError`: the log line (block_generator.py:95-96) reads `model_name` of the
type of every block that is not empty, which types do not have. -/
def generateBlocks (kind : Kind) (sizes : List Nat) (draw : Nat → Nat → Bool) : Option Plan :=
  if sizes.any fun s => s != 2 then none else some (builtPlan kind sizes draw)

/-- The loop of `generate_queues` (block_generator.py:157-182): the links; `p` is `parent`, followed by the blocks of the queue and by
`next_parent`. -/
def queueEdges : List Nat → Nat → List (Nat × Nat)
  | [], _ => []
  | n :: rest, p => ((List.range n).flatMap fun i => [(p, p + 1 + i), (p + 1 + i, p + 1 + n)]) ++ queueEdges rest (p + 1 + n)

/-- `generate_queues` (block_generator.py:133-189) for `queues_num` and `queues_blocks`.  `none`: `IndexError`. -/
def generateQueues (num : Nat) (blocks : List Nat) : Option Plan :=
  if num ≤ blocks.length then
    some ⟨List.range (((blocks.take num).map (· + 1)).sum + 1), queueEdges (blocks.take num) 0⟩
  else none

end Sampo.Blocks
