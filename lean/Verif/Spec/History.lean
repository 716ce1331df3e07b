import Verif.Model.History

/-!
# Specification vocabulary: records of past projects
-/

namespace Sampo.History

/-- The record has these two dates. -/
def Rec.Has (r : Rec) (s : Span) : Prop := r.first = some s.first ∧ r.last = some s.last

/-- Records of two works at one site. -/
structure Meet (history : List Rec) (a b : Nat) (r1 r2 : Rec) : Prop where
  mem1 : r1 ∈ history
  mem2 : r2 ∈ history
  name1 : r1.name = a
  name2 : r2.name = b
  site : r1.site = r2.site
  known : r1.site ≠ none

/-- All dates are given. -/
def Dated (history : List Rec) : Prop := ∀ r ∈ history, r.first.isSome ∧ r.last.isSome

/-- No work has two records at one site. -/
def OncePerSite (history : List Rec) : Prop := history.Pairwise fun r s => ¬ (r.site = s.site ∧ r.site ≠ none ∧ r.name = s.name)

/-- The pairs of dates of records of two works at one site. -/
def together (history : List Rec) (a b : Nat) : List (Span × Span) :=
  history.flatMap fun r1 => history.filterMap fun r2 =>
    if r1.name = a ∧ r2.name = b ∧ r1.site = r2.site ∧ r1.site ≠ none then
      match r1.first, r1.last, r2.first, r2.last with
      | some s1, some f1, some s2, some f2 => some (⟨s1, f1⟩, ⟨s2, f2⟩)
      | _, _, _, _ => none
    else none

/-- The two entries link the same two works. -/
def SameTwo (a b c d : Nat) : Prop := (a = c ∧ b = d) ∨ (a = d ∧ b = c)

/-- Rounding to two decimals. -/
def Rounds (round2 : ℚ → ℚ) : Prop := ∀ x, ∃ n : Int, round2 x = n / 100 ∧ x - 1 / 200 ≤ n / 100 ∧ n / 100 ≤ x + 1 / 200

end Sampo.History
