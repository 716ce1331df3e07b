import Verif.Model.Table
import Mathlib.Logic.Relation

/-!
# Specification vocabulary: what a user writes into a table of works
-/

namespace Sampo.Table

/-- A link: the id of the predecessor, the type and the lag. -/
structure Link where
  pred : Token
  type : EdgeType
  lag : Int
deriving DecidableEq

/-- A work with its links. -/
structure Work where
  id : Token
  links : List Link
deriving DecidableEq

/-- A text that can be one element of a cell: not empty, without commas, not the text of a missing value. -/
structure Plain (t : Token) : Prop where
  nonempty : t ≠ []
  comma : ',' ∉ t
  given : t ≠ "nan".toList

/-- The cell holds the elements, separated by commas; without elements it is empty. -/
def Holds (c : Cell) (ts : List Token) : Prop := (ts = [] ∧ (c = none ∨ c = some [])) ∨ (ts ≠ [] ∧ c = some ([','].intercalate ts))

/-- The row of the table is written for the work: each of the three cells has one element for each link.  An id written as a number means
the id that `normalize` gives. -/
structure Written (readLag : Token → Option Int) (readModel : Token → Bool) (r : Raw) (w : Work) : Prop where
  id : r.id = w.id
  model : readModel r.model = true
  preds : ∃ texts, Holds r.preds texts ∧ List.Forall₂ (fun t (l : Link) => Plain t ∧ normalize t = l.pred) texts w.links
  types : Holds r.types (w.links.map fun l => typeText l.type)
  lags : ∃ texts, Holds r.lags texts ∧ List.Forall₂ (fun t (l : Link) => Plain t ∧ readLag t = some l.lag) texts w.links

/-- `p` is written as a predecessor of the work `v`. -/
def Precedes (works : List Work) (p v : Token) : Prop := ∃ w ∈ works, w.id = v ∧ ∃ l ∈ w.links, l.pred = p

/-- A type of link that makes a work a dependency successor. -/
def _root_.Sampo.EdgeType.Dependency (t : EdgeType) : Prop := t = .finishStart ∨ t = .lagFinishStart ∨ t = .inseparable

instance (t : EdgeType) : Decidable t.Dependency := by unfold EdgeType.Dependency; infer_instance

/-- What `nx.topological_sort` and `sort_values` deliver: for links without a cycle, a permutation of the rows in which every predecessor
that has a row comes before. -/
def Sorts (sort : List (Nat × List (Nat × Int × EdgeType)) → List (Nat × List (Nat × Int × EdgeType))) : Prop :=
  ∀ infos, (infos.map (·.1)).Nodup →
    (∀ x, ¬ Relation.TransGen (fun p v => ∃ i ∈ infos, i.1 = v ∧ ∃ l ∈ i.2, l.1 = p) x x) →
    (sort infos).Perm infos ∧
      ∀ before i after, sort infos = before ++ i :: after → ∀ l ∈ i.2, l.1 ∈ infos.map (·.1) → l.1 ∈ before.map (·.1)

/-- A table of works with distinct ids (none of them the text for a missing predecessor), the numbers of the ids, the orders taken by
library functions, and the ids of the two new works. -/
structure Setting (code : Token → Nat) (readLag : Token → Option Int) (readModel : Token → Bool) (table : List Raw) (works : List Work)
    (sort : List (Nat × List (Nat × Int × EdgeType)) → List (Nat × List (Nat × Int × EdgeType))) (arrange : List Nat → List Nat)
    (start finish : Nat) : Prop where
  written : List.Forall₂ (Written readLag readModel) table works
  code_inj : Function.Injective code
  some_work : works ≠ []
  distinct : (works.map (·.id)).Nodup
  proper : "-1".toList ∉ works.map (·.id)
  sorts : Sorts sort
  arranges : ∀ l, (arrange l).Perm l
  start_new : start ∉ works.map fun w => code w.id
  finish_new : finish ∉ works.map fun w => code w.id
  start_finish : start ≠ finish

/-- The edge of a link. -/
def Link.edge (code : Token → Nat) (v : Token) (l : Link) : Edge := ⟨code l.pred, code v, l.lag, l.type⟩

/-- The edges into a work are those given and, if there is no dependency among them, one from the start of the project. -/
def EdgesInto (g : Graph) (start v : Nat) (es : List Edge) : Prop :=
  g.edgesTo v = es ++ if es.any fun e => e.type.Dependency then [] else [⟨start, v, 0, .finishStart⟩]

/-- The entries of history that become new links of a work, in the order of history: those of works of the table that are not yet its
predecessors, and only the first for every one. -/
structure NewLinks (ids given : List Nat) (past new : List Past) : Prop where
  part : new.Sublist past
  once : (new.map (·.pred)).Nodup
  exactly : ∀ h, h ∈ new ↔ h.pred ∈ ids ∧ h.pred ∉ given ∧ past.find? (fun h' => h'.pred = h.pred) = some h

/-- The edge of an entry of history. -/
def Past.edge (v : Nat) (h : Past) : Edge := ⟨h.pred, v, h.lag, h.type⟩

/-- The edge of a link whose type and lag are taken from history, if there is an entry for it. -/
def Link.edgeBy (code : Token → Nat) (past : Nat → List Past) (v : Token) (l : Link) : Edge :=
  match (past (code v)).find? (fun h => h.pred = code l.pred) with
  | none => l.edge code v
  | some h => h.edge (code v)

end Sampo.Table
