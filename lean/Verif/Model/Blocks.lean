import Verif.Model.Time
import Mathlib.Data.List.Basic

/-!
# Block graphs and auctions (`sampo/scheduler/multi_agency/block_graph.py`, `multi_agency.py`)

A block is represented by its id, the id of the start of its work graph (block_graph.py:21-23); blocks of a graph are
supposed to have different ids, as `node_dict` supposes as well.
-/

namespace Sampo.Blocks

/-- `BlockGraph` and the lists `blocks_to`, `blocks_from` of its `BlockNode`s (block_graph.py:10-39). -/
structure BlockGraph where
  nodes : List Nat
  to_ : Nat → List Nat
  from_ : Nat → List Nat

namespace BlockGraph

/-- `BlockGraph.pure` (block_graph.py:41-50). -/
def pure (nodes : List Nat) : BlockGraph := ⟨nodes, fun _ => [], fun _ => []⟩

/-- `BlockGraph.add_edge` (block_graph.py:121-124). -/
def addEdge (g : BlockGraph) (start finish : Nat) : BlockGraph :=
  ⟨g.nodes, fun b => if b = start then g.to_ b ++ [finish] else g.to_ b,
    fun b => if b = finish then g.from_ b ++ [start] else g.from_ b⟩

/-- Calls of `add_edge` one after the other. -/
def addEdges (g : BlockGraph) (edges : List (Nat × Nat)) : BlockGraph := edges.foldl (fun g e => g.addEdge e.1 e.2) g

/-- `BlockGraph.__copy__` (block_graph.py:58-67).  An id that is not in the graph (`KeyError`) is not modelled. -/
def copy (g : BlockGraph) : BlockGraph :=
  (pure g.nodes).addEdges (g.nodes.flatMap fun node => (g.to_ node).map fun parent => (parent, node))

/-- A work of the work graph built from blocks at which blocks are linked. -/
inductive Port
  | globalStart
  | globalEnd
  | start (block : Nat)
  | finish (block : Nat)
deriving DecidableEq, Repr

/-- The loop of `to_work_graph` (block_graph.py:84-89) on the copied graph: edges between blocks so far, and the blocks of
`nodes_without_children`.  Inside a block nothing precedes its start and nothing follows its finish. -/
def linkLoop (copied : BlockGraph) : List Nat → List (Port × Port) × List Nat → List (Port × Port) × List Nat
  | [], r => r
  | b :: bs, (links, last) =>
    let parents := (copied.to_ b).map fun a => (Port.finish a, Port.start b)
    let links := links ++ if parents.isEmpty then [(Port.globalStart, Port.start b)] else parents
    linkLoop copied bs (links, if links.any fun l => l.1 = Port.finish b then last else last ++ [b])

/-- The edges of `to_work_graph` (block_graph.py:69-96) that are not inside blocks.  The copies of the blocks themselves
are those of C31. -/
def links (g : BlockGraph) : List (Port × Port) :=
  let r := linkLoop g.copy g.copy.nodes ([], [])
  r.1 ++ r.2.map fun b => (Port.finish b, Port.globalEnd)

/-- `dfs` in `toposort` (block_graph.py:107-112) with `visited` and `ans`.  The fuel is the depth of recursion (`none`: out
of fuel). -/
def dfs (to_ : Nat → List Nat) : Nat → Nat → List Nat × List Nat → Option (List Nat × List Nat)
  | 0, _, _ => none
  | fuel + 1, u, (visited, ans) =>
    ((to_ u).foldlM (fun st v => if v ∈ st.1 then some st else dfs to_ fuel v st) (u :: visited, ans)).map fun st =>
      (st.1, st.2 ++ [u])

/-- `BlockGraph.toposort` (block_graph.py:98-119). -/
def toposort (g : BlockGraph) (fuel : Nat) : Option (List Nat) :=
  (g.nodes.foldlM (fun st v => if v ∈ st.1 then some st else dfs g.to_ fuel v st) ([], [])).map fun st => st.2.reverse

end BlockGraph

/-! ## Auctions -/

/-- What `Agent.offer` returns (multi_agency.py:36-49), without the schedule.  `τ`: timelines. -/
structure Offer (τ : Type) where
  start : Int
  finish : Int
  timeline : τ

/-- The mutable part of an `Agent` (multi_agency.py:28-34). -/
structure Agent (τ : Type) where
  name : Nat
  timeline : Option τ
  last : Int
  downtime : Int

/-- `update_stat` (multi_agency.py:64-71). -/
def Agent.updateStat {τ : Type} (a : Agent τ) (start : Int) : Agent τ :=
  { a with downtime := tAdd a.downtime (max 0 (tSub start a.last)) }

/-- `confirm` (multi_agency.py:51-62). -/
def Agent.confirm {τ : Type} (a : Agent τ) (o : Offer τ) : Agent τ :=
  { a.updateStat o.start with timeline := some o.timeline, last := o.finish }

/-- `Agent.offer` as an oracle: it may depend on the agent's scheduler and contractors (through the name), its timeline (of
which it gets a copy), the block, the parent time and the state of the random generator, which it changes. -/
abbrev Offering (τ ρ : Type) := Nat → Option τ → Nat → Int → ρ → Offer τ × ρ

/-- `offers = [...]` (multi_agency.py:182). -/
def offers {τ ρ : Type} (offer : Offering τ ρ) (block : Nat) (parent : Int) : List (Agent τ) → ρ → List (Agent τ × Offer τ) × ρ
  | [], r => ([], r)
  | a :: as, r =>
    let (o, r) := offer a.name a.timeline block parent r
    let (os, r) := offers offer block parent as r
    ((a, o) :: os, r)

/-- The loop over the offers (multi_agency.py:184-190): best agent and best finish so far. -/
def choose {τ : Type} : List (Agent τ × Offer τ) → Option (Agent τ) × Int → Option (Agent τ) × Int
  | [], best => best
  | (a, o) :: os, best => choose os (if o.finish < best.2 then (some a, o.finish) else best)

/-- `Manager.run_auction` (multi_agency.py:168-199): the winner, the offer used, the agents and the random state afterwards.
`none`: no finite offer (`AttributeError` on `None`).  Agents are told apart by their names, which are supposed to be
different. -/
def runAuction {τ ρ : Type} (offer : Offering τ ρ) (agents : List (Agent τ)) (block : Nat) (parent : Int) (r : ρ) :
    Option (Agent τ × Offer τ × List (Agent τ) × ρ) :=
  let (os, r) := offers offer block parent agents r
  (choose os (none, timeInf)).1.map fun best =>
    let (o, r) := offer best.name best.timeline block parent r
    (best, o, agents.map fun a => if a.name ≠ best.name then a.updateStat o.start else a.confirm o, r)

/-- `ScheduledBlock` (multi_agency.py:96-121). -/
structure SBlock where
  id : Nat
  agent : Nat
  start : Int
  finish : Int
deriving DecidableEq, Repr

/-- `id2sblock[id]`. -/
def lookup (done : List SBlock) (b : Nat) : Option SBlock := done.find? fun s => s.id = b

/-- `max_parent_time` (multi_agency.py:147); `none`: `KeyError`. -/
def parentTime (done : List SBlock) (parents : List Nat) : Option Int :=
  (parents.mapM fun p => (lookup done p).map (·.finish)).map fun l => tAdd (l.max?.getD 0) 1

/-- The loop of `Manager.manage_blocks` and `NeuralManager.manage_blocks` (multi_agency.py:145-160, 292-307) with any auction
(winner's name, start, finish).  `none`: an exception, among them the failed assertion on the start time. -/
def manageLoop {σ : Type} (auction : Nat → Int → σ → Option (Nat × Int × Int × σ)) (from_ : Nat → List Nat) :
    List Nat → List SBlock → σ → Option (List SBlock × σ)
  | [], done, s => some (done, s)
  | b :: bs, done, s =>
    (parentTime done (from_ b)).bind fun t =>
      (auction b t s).bind fun r =>
        if t ≤ r.2.1 then manageLoop auction from_ bs (done ++ [⟨b, r.1, r.2.1, r.2.2.1⟩]) r.2.2.2 else none

/-- `Manager.manage_blocks` (multi_agency.py:137-160) with any auction.  Obstructions, which change the work graphs of blocks
before they are offered, belong to the auction. -/
def manageBlocks {σ : Type} (auction : Nat → Int → σ → Option (Nat × Int × Int × σ)) (fuel : Nat) (g : BlockGraph) (s : σ) :
    Option (List SBlock × σ) :=
  (g.toposort fuel).bind fun order => manageLoop auction g.from_ order [] s

/-- The auctions of `Manager` as used by `manage_blocks`. -/
def managerAuction {τ ρ : Type} (offer : Offering τ ρ) (b : Nat) (t : Int) (s : List (Agent τ) × ρ) :
    Option (Nat × Int × Int × (List (Agent τ) × ρ)) :=
  (runAuction offer s.1 b t s.2).map fun r => (r.1.name, r.2.1.start, r.2.1.finish, r.2.2)

/-- `_check_block_dependencies` (block_validation.py:28-38): the assertions hold; an unknown parent (`KeyError`) counts as a
failure. -/
def checkDependencies (g : BlockGraph) (schedule : List SBlock) : Bool :=
  schedule.all fun s => (g.from_ s.id).all fun p => match lookup schedule p with
    | some q => decide (q.start ≤ q.finish) && decide (q.finish ≤ s.start) && decide (s.start ≤ s.finish)
    | none => false

end Sampo.Blocks
