import Verif.Model.LandNodes

/-!
# What a history of a transport network means

The history says which roads were laid between which nodes; nothing else matters for the network.
-/

namespace Sampo.LandNodes

/-- A road that was laid, as the user gave it. -/
structure Laid where
  a : Nat
  b : Nat
  weight : Nat
  bandwidth : Nat
deriving DecidableEq, Repr

/-- The roads laid in a history, in order. -/
def laid (ops : List Op) : List Laid :=
  ops.flatMap fun op => match op with
    | .add a ns => ns.map fun x => ⟨a, x.1, x.2.1, x.2.2⟩
    | _ => []

/-- The road joins the two nodes, in one direction or the other. -/
def Laid.Joins (l : Laid) (x y : Nat) : Prop := (l.a = x ∧ l.b = y) ∨ (l.a = y ∧ l.b = x)

instance (l : Laid) (x y : Nat) : Decidable (l.Joins x y) := inferInstanceAs (Decidable (_ ∨ _))

/-- The length of the road laid last between two nodes; `none`: they are not joined. -/
def lastLength (roads : List Laid) (x y : Nat) : Option Nat := (roads.reverse.find? fun l => l.Joins x y).map Laid.weight

/-- The entry of a list of roads is the road laid, seen from one of its ends. -/
def Edge.Shows (e : Edge) (l : Laid) : Prop :=
  ((e.start = l.a ∧ e.finish = l.b) ∨ (e.start = l.b ∧ e.finish = l.a)) ∧ e.weight = l.weight ∧ e.bandwidth = l.bandwidth

/-- The network is closed: the nodes are different, each has a road, and roads of these nodes end in these nodes. -/
structure Complete (roads : List Laid) (nodes : List Nat) : Prop where
  distinct : nodes.Nodup
  road : ∀ v ∈ nodes, ∃ l ∈ roads, l.a = v ∨ l.b = v
  closed : ∀ l ∈ roads, l.a ∈ nodes ↔ l.b ∈ nodes

end Sampo.LandNodes
