import Verif.Model.Graph
import Verif.Model.Pipeline

/-!
# Synthetic work graphs

`sampo/generator/pipeline/cluster.py`, `sampo/generator/pipeline/project.py`, `sampo/generator/config/gen_counts.py`,
`sampo/schemas/interval.py`.

Works are numbered in the order of their creation.  Ids, groups, volumes and lengths are not modelled: no link and no number of
works depends on them.  Random numbers are parameters.
-/

namespace Sampo.Synthetic

/-- The kinds of works of the generator, by `granular_name` (cluster.py:17-197). -/
inductive Kind
  | minRoad | tempRoad | finalRoad | engineering | powerLine | highPowerLine | pipe | pipeNode | looping
  | metering | ktpNep | drainageTank | waterBlock | automationBlock | dosageBlock | startFilters | firewallTank
  | borehole | pipeNet | powerNet | mast | handing
deriving DecidableEq, Repr

/-- The works created so far: their kinds in the order of creation, and the edges in the order in which they were added. -/
structure Build where
  kinds : List Kind
  edges : List Edge
deriving DecidableEq, Repr

/-- Nothing created yet. -/
def Build.nil : Build := ⟨[], []⟩

/-- The nodes with their edges (`GraphNode.add_parents`, graph.py:105-125). -/
def Build.graph (b : Build) : Graph := b.edges.foldl Graph.addEdge Graph.empty

/-- `node.add_parents(edges)` (graph.py:105-125). -/
def Build.link (b : Build) (v : Nat) (parents : List (Nat × Int × EdgeType)) : Build :=
  ⟨b.kinds, b.edges ++ parents.map fun p => ⟨p.1, v, p.2.1, p.2.2⟩⟩

/-- `GraphNode(work_unit, parents)` (graph.py:54-64): the new node and everything created. -/
def Build.add (b : Build) (k : Kind) (parents : List (Nat × Int × EdgeType)) : Nat × Build :=
  (b.kinds.length, Build.link ⟨b.kinds ++ [k], b.edges⟩ b.kinds.length parents)

/-- Plain parents: finish-start edges without lag (graph.py:113-114). -/
def plain (parents : List Nat) : List (Nat × Int × EdgeType) := parents.map fun p => (p, 0, .finishStart)

/-- Several nodes with the same plain parents, one after another. -/
def Build.addAll (b : Build) (parents : List Nat) : List Kind → List Nat × Build
  | [] => ([], b)
  | k :: ks =>
    let r := b.add k (plain parents)
    let rest := r.2.addAll parents ks
    (r.1 :: rest.1, rest.2)

/-- The dict of the three roads of a cluster. -/
structure Roads where
  min : Nat
  temp : Nat
  final : Nat
deriving DecidableEq, Repr

/-- `roads.values()`. -/
def Roads.values (r : Roads) : List Nat := [r.min, r.temp, r.final]

/-- `_get_roads` with no parents (cluster.py:17-33).  The lag of 0.05 between the roads is 0 here, as in schedules, which use
`int(lag)`. -/
def getRoads (b : Build) : Roads × Build :=
  let m := b.add .minRoad []
  let t := m.2.add .tempRoad [(m.1, 0, .lagFinishStart)]
  let f := t.2.add .finalRoad [(t.1, 0, .lagFinishStart)]
  (⟨m.1, t.1, f.1⟩, f.2)

/-- The numbers a cluster is made for (arguments of `get_cluster_works`, cluster.py:200-207). -/
structure Counts where
  pipeNodes : Nat
  pipeNet : Nat
  masts : Nat
  boreholes : List Nat
deriving DecidableEq, Repr

/-- `_get_power_lines` (cluster.py:46-72): two lines, and a high one if there is a distance to the parent. -/
def powerKinds (master : Bool) : List Kind := [.powerLine, .powerLine] ++ if master then [.highPowerLine] else []

/-- The pipes and nodes of `_get_pipe_lines` (cluster.py:75-98): a pipe, then a node and a pipe for each further distance. -/
def pipeKinds (nodes : Nat) : List Kind := .pipe :: (List.replicate nodes [Kind.pipeNode, Kind.pipe]).flatten

/-- `_get_boreholes_equipment_shared` (cluster.py:128-147). -/
def sharedKinds : List Kind := [.waterBlock, .automationBlock, .dosageBlock, .startFilters, .firewallTank]

/-- `_get_boreholes_equipment_general` (cluster.py:160-187). -/
def generalKinds (c : Counts) : List Kind := List.replicate c.pipeNet .pipeNet ++ [.powerNet] ++ List.replicate c.masts .mast

/-- `_get_boreholes_equipment_group` (cluster.py:108-125). -/
def groupKinds : List Kind := [.metering, .ktpNep, .drainageTank]

/-- The loop over the groups of boreholes (cluster.py:252-259): the boreholes, the number of works counted, everything created. -/
def getGroups (prep shared : List Nat) : Build → List Nat → List Nat × Nat × Build
  | b, [] => ([], 0, b)
  | b, n :: ns =>
    let eq := b.addAll prep groupKinds
    let holes := eq.2.addAll (eq.1 ++ shared) (List.replicate n .borehole)
    let rest := getGroups prep shared holes.2 ns
    (holes.1 ++ rest.1, eq.1.length + holes.1.length + rest.2.1, rest.2.2)

/-- `get_cluster_works` (cluster.py:200-266): the last work of the cluster, its roads, the count returned, everything created.
`roads` are those of the master cluster, if any.  Counts are not negative. -/
def getCluster (b : Build) (c : Counts) (roads : Option Roads) : Nat × Roads × Nat × Build :=
  let r := match roads with
    | some r => (r, 0, b)
    | none => let x := getRoads b; (x.1, x.1.values.length, x.2)
  let eng := r.2.2.addAll [r.1.min] [.engineering]
  let prep := [r.1.temp] ++ eng.1
  let power := eng.2.addAll prep (powerKinds roads.isNone)
  let pipes := power.2.addAll prep (pipeKinds c.pipeNodes)
  let loop := pipes.2.addAll (pipes.1.take 1) [.looping]
  let shared := loop.2.addAll prep sharedKinds
  let general := shared.2.addAll prep (generalKinds c)
  let groups := getGroups prep shared.1 general.2 c.boreholes
  let all := [r.1.final] ++ power.1 ++ (pipes.1 ++ loop.1) ++ groups.1 ++ general.1
  let hand := groups.2.2.addAll all [.handing]
  (groups.2.2.kinds.length, r.1,
    r.2.1 + prep.length + power.1.length + (pipes.1 ++ loop.1).length + shared.1.length + general.1.length + groups.2.1, hand.2)

/-! ## Random numbers -/

/-- `random.uniform(lo, hi)` for a number `u` of `random()`; floating point numbers are rationals here. -/
def uniform (lo hi u : ℚ) : ℚ := lo + (hi - lo) * u

/-- `IntervalUniform.rand_int` (interval.py:68-80); `EPS` is 100000. -/
def uniformInt (lo hi u : ℚ) : Int :=
  Min.min (Max.max (Pipeline.roundHalfEven (uniform lo hi u)) (Pipeline.toInt (lo - 100000))) (Pipeline.toInt (hi + 100000))

/-- The random numbers used in one round of the loop of `get_graph`. -/
structure Draw where
  pipeNodes : ℚ
  pipeNet : ℚ
  masts : ℚ
  boreholes : ℚ
  /-- for `_add_addition_work` -/
  extra : ℚ
  /-- for the branching of the general mode -/
  branch : ℚ
  /-- `rand.randint(a, b)` -/
  pick : Nat → Nat → Nat

/-- The counts of `get_small_graph` (project.py:20-23, gen_counts.py:22-27). -/
def smallCounts (d : Draw) : Counts where
  pipeNodes := (uniformInt 1 3 d.pipeNodes).toNat
  pipeNet := (uniformInt 2 8 d.pipeNet).toNat
  masts := (uniformInt 1 3 d.masts).toNat
  boreholes := [(uniformInt 4 12 d.boreholes).toNat]

/-- `MAX_BOREHOLES_PER_BLOCK` (gen_counts.py:37). -/
def MAX_BOREHOLES : Nat := 14

/-- The counts of `_get_cluster_graph` (project.py:36-44, gen_counts.py:29-34). -/
def clusterCounts (d : Draw) : Counts where
  pipeNodes := (uniformInt 1 5 d.pipeNodes).toNat
  pipeNet := (uniformInt 6 20 d.pipeNet).toNat
  masts := (uniformInt 2 4 d.masts).toNat
  boreholes :=
    let n := (uniformInt 8 28 d.boreholes).toNat
    if n ≤ MAX_BOREHOLES then [n] else [MAX_BOREHOLES, n - MAX_BOREHOLES]

/-! ## Graphs -/

/-- A generated work graph: the kinds of the works (numbers `0, 1, ...`), the two service works and the edges. -/
structure WorkGraph where
  kinds : List Kind
  start : Nat
  finish : Nat
  graph : Graph

/-- `WorkGraph.from_nodes` (graph.py:352-359) for nodes created before.  `none`: an exception. -/
def ofNodes (b : Build) (nodes : List Nat) : Option WorkGraph :=
  (b.graph.fromNodes b.kinds.length (b.kinds.length + 1) nodes).map fun g =>
    ⟨b.kinds, b.kinds.length, b.kinds.length + 1, g⟩

/-- `get_small_graph` (project.py:11-28). -/
def smallGraph (d : Draw) : Option WorkGraph :=
  let r := getCluster .nil (smallCounts d) none
  ofNodes r.2.2.2 (r.2.1.values ++ [r.1])

/-- `_get_cluster_graph` (project.py:31-62): the last works of the clusters, their roads, the number of works, everything
created.  `prob`: `addition_cluster_probability`. -/
def getClusters (b : Build) (d : Draw) (prob : ℚ) : List Nat × Roads × Nat × Build :=
  let m := getCluster b (clusterCounts d) none
  if uniform 0 1 d.extra ≤ prob then
    let s := getCluster m.2.2.2 (clusterCounts d) (some m.2.1)
    ([m.1, s.1], m.2.1, m.2.2.1 + s.2.2.1, s.2.2.2)
  else ([m.1], m.2.1, m.2.2.1, m.2.2.2)

/-- `SyntheticGraphType` (types.py:7-17). -/
inductive Mode
  | general
  | parallel
  | sequential
deriving DecidableEq, Repr

/-- `_graph_mode_to_callable` and the three functions (project.py:131-162): the node the new clusters wait for. -/
def rootOf (mode : Mode) (stages : List (Nat × Roads)) (branching : ℚ) (d : Draw) : Option Nat :=
  match mode with
  | .parallel => stages.head?.map (·.1)
  | .sequential => stages.getLast?.map (·.1)
  | .general =>
    let ind := if d.branch ≤ branching ∧ 2 < stages.length then d.pick 1 (stages.length - 2) else stages.length - 1
    (stages[ind]?).map (·.2.min)

/-- Adds the root to the parents of the last works of the new clusters (project.py:110-113). -/
def linkRoot (root : Option Nat) (checkpoints : List Nat) (b : Build) : Build :=
  match root with
  | none => b
  | some r => checkpoints.foldl (fun b c => b.link c (plain [r])) b

/-- The arguments of `get_graph` (project.py:65-72). -/
structure Params where
  mode : Mode
  clusters : Int
  bottom : Int
  top : Int
  branching : ℚ
  addition : ℚ

/-- What the loop of `get_graph` goes on with: everything created, the number of works counted and the stages (last work and
roads of each cluster). -/
structure LoopState where
  build : Build
  works : Nat
  stages : List (Nat × Roads)

/-- One round of the loop of `get_graph` (project.py:104-117): the new state, the number of works of the round and the
probability for the next rounds. -/
def round (p : Params) (prob : ℚ) (d : Draw) (s : LoopState) : LoopState × Nat × ℚ :=
  let prob := if 0 < p.clusters ∧ p.clusters = (s.stages.length : Int) - 1 then 0 else prob
  let r := getClusters s.build d prob
  let b := linkRoot (rootOf p.mode s.stages p.branching d) r.1 r.2.2.2
  (⟨b, s.works + r.2.2.1, s.stages ++ r.1.map fun c => (c, r.2.1)⟩, r.2.2.1, prob)

/-- The condition for leaving the loop (project.py:119-121) after a round with `count` works; the bottom border switches the
top border off (project.py:97-98). -/
def leaves (p : Params) (s : LoopState) (count : Nat) : Bool :=
  (0 < p.bottom && p.bottom ≤ s.works)
    || (0 < (if 0 < p.bottom then 0 else p.top) && (if 0 < p.bottom then 0 else p.top) < (count : Int) + s.works)
    || (0 < p.clusters && p.clusters ≤ (s.stages.length : Int) - 1)

/-- The loop of `get_graph` (project.py:99-121).  `none`: not ended within the fuel. -/
def loop (p : Params) (draws : Nat → Draw) : Nat → Nat → ℚ → LoopState → Option LoopState
  | 0, _, _, _ => none
  | fuel + 1, i, prob, s =>
    let r := round p prob (draws i) s
    if leaves p r.1 r.2.1 then some r.1 else loop p draws fuel (i + 1) r.2.2 r.1

/-- `get_graph` (project.py:65-128).  Outer `none`: the loop has not ended; inner `none`: an `AssertionError`, or an exception of
`from_nodes`.  For a single cluster a small graph is returned, which is made with random numbers of its own (`small`), not with
the given generator (project.py:123-124). -/
def getGraph (p : Params) (fuel : Nat) (draws : Nat → Draw) (small : Draw) : Option (Option WorkGraph) :=
  if p.clusters + p.bottom + p.top ≤ 0 ∨ p.clusters < 0 ∨ p.branching < 0 ∨ p.top < 0 then some none
  else
    (loop p draws fuel 0 p.addition ⟨.nil, 0, []⟩).map fun s =>
      if s.stages.length = 1 then smallGraph small
      else ofNodes s.build ((s.stages.map fun x => x.2.values).flatten ++ s.stages.map (·.1))

end Sampo.Synthetic
