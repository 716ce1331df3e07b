import Verif.Model.Blocks

/-!
# Auctions of the stochastic and of the neural manager (`sampo/scheduler/multi_agency/multi_agency.py`)

`offer random` is `Agent.offer` with productivity of workers fixed (`false`) or random (`true`).
-/

namespace Sampo.Blocks

/-- `start + (end - start) * confidence` (multi_agency.py:230, 238-239).  `lowered` says how many times 0.1 was added to the confidence 1;
`scale d lowered` is the time `d * confidence`, which is computed in floats. -/
def weighted (scale : Int → Nat → Int) (lowered : Nat) {τ : Type} (o : Offer τ) : Int :=
  tAdd o.start (scale (tSub o.finish o.start) lowered)

/-- `StochasticManager.run_auction` (multi_agency.py:212-251): the winner, the offer used, the agents, the confidences and the random state
afterwards.  `none`: no finite offer. -/
def runStochastic {τ ρ : Type} (scale : Int → Nat → Int) (offer : Bool → Offering τ ρ) (agents : List (Agent τ)) (confidence : Nat → Nat)
    (block : Nat) (parent : Int) (r : ρ) : Option (Agent τ × Offer τ × List (Agent τ) × (Nat → Nat) × ρ) :=
  let (os, r) := offers (offer false) block parent agents r
  let c := choose (os.map fun p => (p.1, { p.2 with finish := weighted scale (confidence p.1.name) p.2 })) (none, timeInf)
  c.1.map fun best =>
    let (o, r) := offer true best.name best.timeline block parent r
    (best, o, agents.map (fun a => if a.name ≠ best.name then a.updateStat o.start else a.confirm o),
      if c.2 < weighted scale (confidence best.name) o then fun n => if n = best.name then confidence n + 1 else confidence n
      else confidence, r)

/-- The inner `auction` of the neural manager (multi_agency.py:350-364): the first agent with the least distance of its workers from the
predicted ones, below 10⁹.  Distances are floats there; they are only compared.  An agent whose first contractor has another number of
kinds of workers (`ValueError`) is not modelled. -/
def nearest {τ : Type} (distance : Nat → Int) : List (Agent τ) → Option (Agent τ) × Int → Option (Agent τ)
  | [], best => best.1
  | a :: as, best => nearest distance as (if distance a.name < best.2 then (some a, distance a.name) else best)

/-- The groups of agents and the choice among them (multi_agency.py:335-373).  `suits` is whether the scheduler of an agent is of the
predicted kind. -/
def pickAgent {τ : Type} (suits : Nat → Bool) (distance : Nat → Int) (agents : List (Agent τ)) (parent : Int) : Option (Agent τ) :=
  let free := agents.filter fun a => decide (a.last < parent)
  let busy := agents.filter fun a => !decide (a.last < parent)
  let best (l : List (Agent τ)) := nearest distance l (none, 10 ^ 9)
  if free.filter (fun a => suits a.name) ≠ [] then best (free.filter fun a => suits a.name)
  else if free.filter (fun a => !suits a.name) ≠ [] then best (free.filter fun a => !suits a.name)
  else if busy.filter (fun a => suits a.name) ≠ [] then best (busy.filter fun a => suits a.name)
  else best (busy.filter fun a => !suits a.name)

/-- `NeuralManager.run_auction` (multi_agency.py:317-381).  What the networks predict for the block is `suits` and `distance`.  `none`: no
agent is chosen (`AttributeError`). -/
def runNeural {τ ρ : Type} (offer : Offering τ ρ) (suits : Nat → Bool) (distance : Nat → Int) (agents : List (Agent τ)) (block : Nat)
    (parent : Int) (r : ρ) : Option (Agent τ × Offer τ × List (Agent τ) × ρ) :=
  (pickAgent suits distance agents parent).map fun best =>
    let (o, r) := offer best.name best.timeline block parent r
    (best, o, agents.map (fun a => if a.name ≠ best.name then a.updateStat o.start else a.confirm o), r)

end Sampo.Blocks
