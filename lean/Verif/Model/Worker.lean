/-!
# Workers (`sampo/schemas/resources.py`) and contractors' worker pool
-/

namespace Sampo

/-- `Worker` (resources.py): name, contractor and count.  Productivity and cost play no role for timelines and are
dropped. -/
structure Worker where
  contractor : Nat
  name : Nat
  count : Int
deriving DecidableEq, Repr

/-- Key of a worker type of a contractor. -/
abbrev AgentId := Nat × Nat

/-- `Worker.get_agent_id` (resources.py): the pair (contractor id, worker name). -/
def Worker.agent (w : Worker) : AgentId := (w.contractor, w.name)

end Sampo
