import Verif.Model.Supply
import Verif.Model.Heads

/-!
# Generated transport networks (`get_landscape_by_wg`, `sampo/generator/environment/landscape.py`)

Materials are numbers, platforms are the nodes `0, 1, …` of the network and holders come after them, as in the list given to `LandGraph`
(environment/landscape.py:174).  Random choices are parameters.  `platforms` is `math.ceil(math.log(wg.vertex_count))` and `holders` is
`math.ceil(math.sqrt(math.log(wg.vertex_count)))` (environment/landscape.py:85, 129), parameters here because they are real functions.
-/

namespace Sampo.LandGen

open Supply (Mat)
open Heads (heads)

/-- Random choices, by the number of the node that is linked: `rnd.randint(lo, hi)`, `rnd.choices(options, k=k)`; `rnd.shuffle(list)`. -/
structure Draw where
  number : Nat → Nat → Nat → Nat
  choices : Nat → List Nat → Nat → List Nat
  shuffle : List Nat → List Nat

/-- One step of the loop over materials (environment/landscape.py:78-83): the greatest count of each name, in the order of their first use. -/
def noteMaterial (m : List Mat) (x : Mat) : List Mat :=
  if m.any fun p => p.name = x.name then m.map fun p => if p.name = x.name then ⟨p.name, max p.count x.count⟩ else p else m ++ [x]

/-- `max_materials` (environment/landscape.py:76-83); `works`: what each node needs. -/
def maxMaterials (works : List (List Mat)) : List Mat := works.flatten.foldl noteMaterial []

/-- A road: its ends, length and bandwidth (`LandEdge`, landscape_graph.py:11-21). -/
structure Link where
  a : Nat
  b : Nat
  length : Nat
  bandwidth : Nat
deriving DecidableEq, Repr

/-- `node.neighbours` (landscape_graph.py:66-70), which is read only before the node gets the roads it chooses itself. -/
def neighbours (links : List Link) (v : Nat) : List Nat :=
  links.flatMap fun l => (if l.a = v then [l.b] else []) ++ if l.b = v then [l.a] else []

/-- The removal of neighbours that are joined already (environment/landscape.py:105-109, 151-155). -/
def keepNew (old chosen : List Nat) : List Nat := chosen.foldl (fun tmp x => if x ∈ old then tmp.erase x else tmp) chosen

/-- `add_neighbours` with lengths 50, 100, … (environment/landscape.py:113-116, 159-162). -/
def addRoads (links : List Link) (v : Nat) (to_ : List Nat) (bandwidth : Nat) : List Link :=
  links ++ to_.mapIdx fun i x => ⟨v, x, (i + 1) * 50, bandwidth⟩

/-- Roads of platform `i` (environment/landscape.py:100-116); `n` is `wg.vertex_count`. -/
def linkPlatform (d : Draw) (platforms n : Nat) (links : List Link) (i : Nat) : List Link :=
  if i + 1 = platforms then links
  else
    let later := (List.range platforms).drop (i + 1)
    addRoads links i (keepNew (neighbours links i) (d.choices i later (d.number i 1 ((later.length + 2) / 3)))) n

/-- Roads of holder `j` (environment/landscape.py:149-162). -/
def linkHolder (d : Draw) (platforms n : Nat) (links : List Link) (j : Nat) : List Link :=
  let others := (List.range j).map (platforms + ·) ++ List.range platforms
  let v := platforms + j
  addRoads links v (keepNew (neighbours links v) (d.choices v others (d.number v 1 others.length))) (n * 2)

/-- All roads. -/
def roads (d : Draw) (platforms holders n : Nat) : List Link :=
  (List.range holders).foldl (linkHolder d platforms n) ((List.range platforms).foldl (linkPlatform d platforms n) [])

/-- `platforms_tmp` (environment/landscape.py:120-122). -/
def slots (d : Draw) (platforms heads : Nat) : List Nat :=
  d.shuffle ((List.replicate (heads / platforms) (List.range platforms)).flatten ++ (List.range platforms).take (heads % platforms))

/-- The works added to platform `p` (environment/landscape.py:124-127). -/
def placed (g : Graph) (nodes : List Nat) (service : Nat → Bool) (slots : List Nat) (p : Nat) : List Nat :=
  ((heads g nodes).zip slots).flatMap fun x => if x.2 = p ∧ service x.1 = false then g.chainWithSelf nodes.length x.1 else []

/-- What is generated: the roads; the works of each platform; what a platform can store; the holders with their nodes, vehicles, what one
vehicle carries, and what they have. -/
structure Landscape where
  links : List Link
  works : Nat → List Nat
  capacity : List Mat
  depots : List Supply.Depot

/-- `get_landscape_by_wg` (environment/landscape.py:74-175).  `needs`: what a work needs.  The slice of `sample_materials_for_holders` for a holder
(environment/landscape.py:133-148) is the whole list of names.  `none`: `ZeroDivisionError` without platforms, or `NoAvailableResources` for a node
without a road (landscape_graph.py:72-76, 132-145). -/
def generate (d : Draw) (platforms holders : Nat) (g : Graph) (nodes : List Nat) (service : Nat → Bool) (needs : Nat → List Mat) :
    Option Landscape :=
  if platforms = 0 then none
  else
    let n := nodes.length
    let m := maxMaterials (nodes.map needs)
    let links := roads d platforms holders n
    let s := slots d platforms (heads g nodes).length
    if ∃ v < platforms + holders, neighbours links v = [] then none
    else some ⟨links, placed g nodes service s, m.map fun x => ⟨x.name, max x.count 1⟩,
      (List.range holders).map fun j => ⟨j, platforms + j, 20, m.map fun x => ⟨x.name, x.count / 2⟩,
        m.map fun x => ⟨x.name, max x.count 1 * n⟩⟩⟩

/-- `works2platform` (schemas/landscape.py:106-109): the last platform that has the work. -/
def Landscape.platformOf (l : Landscape) (platforms : Nat) (w : Nat) : Option Nat :=
  (List.range platforms).reverse.find? fun p => w ∈ l.works p

end Sampo.LandGen
