import Mathlib.Data.List.Basic

/-!
# The tables of a landscape configuration (`LandscapeConfiguration.__init__`, `sampo/schemas/landscape.py`)

Nodes, holders and works are numbers.  Nodes with holders are told from platforms by their ids.
-/

namespace Sampo.LandTables

/-- `LandGraphNode` (schemas/landscape_graph.py:39-61, 84-86): its id and its works. -/
structure Node where
  id : Nat
  works : List Nat
deriving DecidableEq

/-- `ResourceHolder` (schemas/landscape.py:64-83): its id and the id of its node. -/
structure Holder where
  id : Nat
  node : Nat
deriving DecidableEq

/-- A dictionary: the value set last for a key. -/
def setLast {β : Type} (d : List (Nat × β)) (k : Nat) : Option β := (d.filter fun e => e.1 = k).getLast?.map (·.2)

/-- `LandscapeConfiguration.platforms` (schemas/landscape.py:204-210), with a land graph. -/
def platforms (nodes : List Node) (holders : List Holder) : List Node :=
  nodes.filter fun n => !(holders.map (·.node)).contains n.id

/-- `works2platform` (schemas/landscape.py:106-109). -/
def platformOf (nodes : List Node) (holders : List Holder) (work : Nat) : Option Node :=
  setLast ((platforms nodes holders).flatMap fun n => n.works.map fun w => (w, n)) work

/-- `holder_node_id2resource_holder` (schemas/landscape.py:102). -/
def holderAt (holders : List Holder) (node : Nat) : Option Holder := setLast (holders.map fun h => (h.node, h)) node

end Sampo.LandTables
