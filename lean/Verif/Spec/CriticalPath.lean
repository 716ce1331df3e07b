import Verif.Spec.Graph

/-! # Specification: paths of chains -/

namespace Sampo.CriticalPath

/-- `l` is a path of chains (given by their first works), each of which depends on the one before, not including the final work. -/
def IsPath (g : Graph) (nodes : List Nat) (final : Nat) (l : List Nat) : Prop :=
  l.IsChain (fun x y => g.HeadDependsOn nodes y x) ∧ ∀ x ∈ l, g.IsHead nodes x ∧ x ≠ final

/-- `chain h` lists the works of the chain that starts with `h`. -/
def ListsChains (g : Graph) (nodes : List Nat) (chain : Nat → List Nat) : Prop :=
  ∀ h, g.IsHead nodes h → (chain h).Nodup ∧ ∀ x, x ∈ chain h ↔ g.InChain h x

/-- The time the works of a path take one after another. -/
def time (chain : Nat → List Nat) (dur : Nat → Int) (l : List Nat) : Int := (l.map fun h => ((chain h).map dur).sum).sum

/-- There is one final work, on which nothing depends and which is not part of a chain; something depends on every other work. -/
structure Final (g : Graph) (nodes : List Nat) (final : Nat) : Prop where
  mem : final ∈ nodes
  alone : ∀ a, ¬ g.Follows a final
  last : ∀ w, ¬ g.DependsOn w final
  others : ∀ v ∈ nodes, v ≠ final → ∃ w, g.DependsOn w v

end Sampo.CriticalPath
