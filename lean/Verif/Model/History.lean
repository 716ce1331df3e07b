import Verif.Model.Graph
import Mathlib.Algebra.Order.Ring.Rat
import Mathlib.Algebra.Order.Field.Rat
import Mathlib.Data.List.Sort
import Mathlib.Data.List.Dedup

/-!
# Links between works from the records of past projects (`userinput/parser/history.py`)

Dates are numbers of days: the program compares the texts of dates, which for the texts `YYYY-MM-DD` is the same.  Floats are rational
numbers.  Names and sites are numbers.
-/

namespace Sampo.History

/-- One row of the history: the site (`upper_works`), the name (`granular_name`) and the two dates; `none` stands for a missing value. -/
structure Rec where
  site : Option Nat
  name : Nat
  first : Option Int
  last : Option Int
deriving DecidableEq, Repr

/-- First and last day of a work. -/
structure Span where
  first : Int
  last : Int
deriving DecidableEq, Repr

/-- `get_delta_between_dates` (history.py:35-37). -/
def delta (a b : Int) : Int := max (a - b) 1

/-- The counts and shares of `gather_links_types_statistics` (history.py:56-60); the absolute lags are never used. -/
structure Stats where
  fs12 : Nat
  fs21 : Nat
  ss12 : Nat
  ss12Lags : List ℚ
  ss21 : Nat
  ss21Lags : List ℚ
  ffs12 : Nat
  ffs12Lags : List ℚ
  ffs21 : Nat
  ffs21Lags : List ℚ
deriving DecidableEq

/-- All counts zero (history.py:56-60, 135-141). -/
def Stats.zero : Stats := ⟨0, 0, 0, [], 0, [], 0, [], 0, []⟩

/-- The share of the duration of `a` that has passed when `b` begins (history.py:76); the duration is never 0 (`get_delta_between_dates`
gives at least 1), so the other branch is never taken. -/
def share (a b : Span) : ℚ := if delta a.last a.first ≠ 0 then (delta b.first a.first : ℚ) / (delta a.last a.first : ℚ) else 0

/-- `gather_links_types_statistics` (history.py:44-103). -/
def gather (a b : Span) : Stats :=
  let s := if a.first = b.first ∧ a.last = b.last then { Stats.zero with ffs12 := 1, ffs12Lags := [1 / 100] } else Stats.zero
  if b.last ≤ a.first then { s with fs21 := s.fs21 + 1 }
  else if a.last ≤ b.first then { s with fs12 := s.fs12 + 1 }
  else if a.first ≤ b.first then
    if a.last ≤ b.last then { s with ffs12 := s.ffs12 + 1, ffs12Lags := s.ffs12Lags ++ [share a b] }
    else { s with ss12 := s.ss12 + 1, ss12Lags := s.ss12Lags ++ [share a b] }
  else if b.last ≤ a.last then { s with ffs21 := s.ffs21 + 1, ffs21Lags := s.ffs21Lags ++ [share b a] }
  else { s with ss21 := s.ss21 + 1, ss21Lags := s.ss21Lags ++ [share b a] }

/-- The sums (history.py:166-181). -/
def Stats.add (s t : Stats) : Stats :=
  ⟨s.fs12 + t.fs12, s.fs21 + t.fs21, s.ss12 + t.ss12, s.ss12Lags ++ t.ss12Lags, s.ss21 + t.ss21, s.ss21Lags ++ t.ss21Lags,
    s.ffs12 + t.ffs12, s.ffs12Lags ++ t.ffs12Lags, s.ffs21 + t.ffs21, s.ffs21Lags ++ t.ffs21Lags⟩

/-- `sort_values(by=['first_day', 'last_day'])`: a missing value comes last. -/
def dayLE : Option Int → Option Int → Bool
  | _, none => true
  | none, some _ => false
  | some a, some b => a ≤ b

/-- Order of rows by the two columns. -/
def rowLE (a b : Option Int × Option Int) : Bool := if a.1 = b.1 then dayLE a.2 b.2 else dayLE a.1 b.1

/-- Rows of one work at one site, sorted (history.py:146-152). -/
def sorted (history : List Rec) (site name : Nat) : List (Option Int × Option Int) :=
  ((history.filter fun r => r.site = some site ∧ r.name = name).map fun r => (r.first, r.last)).insertionSort fun a b => rowLE a b = true

/-- A pair of rows without missing dates (history.py:155-159). -/
def complete : (Option Int × Option Int) × (Option Int × Option Int) → Option (Span × Span)
  | ((some s1, some f1), (some s2, some f2)) => some (⟨s1, f1⟩, ⟨s2, f2⟩)
  | _ => none

/-- The sites, each once: `groupby('upper_works')` (history.py:119), which drops missing values.  (The program takes them in sorted
order; the order of sites makes no difference, as is proved.) -/
def sites (history : List Rec) : List Nat := (history.filterMap (·.site)).dedup

/-- The pairs of dates that are compared for two works (history.py:143-159): at every site the first row of one with the first row of
the other and so on.  (A site without one of the two works gives no pairs.) -/
def common (history : List Rec) (w1 w2 : Nat) : List (Span × Span) :=
  (sites history).flatMap fun s => ((sorted history s w1).zip (sorted history s w2)).filterMap complete

/-- `np.mean`. -/
def mean (l : List ℚ) : ℚ := l.sum / l.length

/-- The square of `np.std`. -/
def variance (l : List ℚ) : ℚ := mean (l.map fun x => (x - mean l) ^ 2)

/-- `find_min_without_outliers` (history.py:40-41); `x >= mean - 3 * std` is written without the square root.  `none`: `ValueError`,
minimum of nothing. -/
def findMin (round2 : ℚ → ℚ) (l : List ℚ) : Option ℚ :=
  match l.filter fun x => mean l ≤ x ∨ (mean l - x) ^ 2 ≤ 9 * variance l with
  | [] => none
  | x :: xs => some (round2 (xs.foldl min x))

/-- A link: the predecessor, the type, the lag and the count. -/
structure Entry where
  pred : Nat
  type : EdgeType
  lag : ℚ
  count : Nat
deriving DecidableEq

/-- The counts of all pairs (history.py:134-181). -/
def total (pairs : List (Span × Span)) : Stats := pairs.foldl (fun s p => s.add (gather p.1 p.2)) Stats.zero

/-- Type and lag of a link from the counts and shares of its direction (history.py:194-225); the two branches on `order_con` in every
case differ in nothing but the direction.  Inner `none`: no link; outer `none`: an exception. -/
def kind (round2 : ℚ → ℚ) (fs ss ffs : Nat) (ssLags ffsLags : List ℚ) : Option (Option (EdgeType × ℚ)) :=
  if max fs (max ss ffs) ≠ 0 then
    if fs > ss then
      if ffs > 0 then (findMin round2 ffsLags).map fun l => some (.lagFinishStart, l)
      else some (some (.finishStart, 0))
    else if ss > ffs then (findMin round2 ssLags).map fun l => some (.startStart, l)
    else (findMin round2 ffsLags).map fun l => some (.lagFinishStart, l)
  else some none

/-- What is added to the links for two works of the table with these pairs of dates (history.py:134-225): nothing, or the work that gets
an entry and the entry.  Outer `none`: an exception. -/
def entryOf (round2 : ℚ → ℚ) (id1 id2 : Nat) (pairs : List (Span × Span)) : Option (Option (Nat × Entry)) :=
  let s := total pairs
  if s.fs12 + s.ffs12 + s.ss12 ≥ s.fs21 + s.ffs21 + s.ss21 then
    (kind round2 s.fs12 s.ss12 s.ffs12 s.ss12Lags s.ffs12Lags).map fun r => r.map fun k => (id2, ⟨id1, k.1, k.2, pairs.length⟩)
  else (kind round2 s.fs21 s.ss21 s.ffs21 s.ss21Lags s.ffs21Lags).map fun r => r.map fun k => (id1, ⟨id2, k.1, k.2, pairs.length⟩)

/-- The pairs of rows of the table (history.py:19-26, 124-125). -/
def tasks : List (Nat × Nat) → List ((Nat × Nat) × (Nat × Nat))
  | [] => []
  | w :: ws => ws.map (fun v => (w, v)) ++ tasks ws

/-- `get_all_seq_statistic` (history.py:106-227) for works given by id and name: the entries in the order in which they are added, each
with the work that gets it.  `none`: an exception. -/
def statistics (round2 : ℚ → ℚ) (history : List Rec) (works : List (Nat × Nat)) : Option (List (Nat × Entry)) :=
  (tasks works).foldl (fun acc t => acc.bind fun links =>
    if t.1.2 ≠ t.2.2 then
      (entryOf round2 t.1.1 t.2.1 (common history t.1.2 t.2.2)).map fun e => links ++ e.toList
    else some links) (some [])

end Sampo.History
