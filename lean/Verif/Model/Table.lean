import Verif.Model.Records
import Mathlib.Data.List.Basic
import Mathlib.Data.List.Infix
import Verif.Model.Graph
import Verif.Model.Cycles

/-!
# From a table of works to a work graph (`sampo/userinput/parser/general_build.py`, `csv_parser.py`, `history.py:240-329`)

Cells are read as text.  Ids are compared as text and numbered by an injective function `code` for the graph.  Volumes, names,
requirements and the other columns, which become attributes of the works, are left out.
-/

namespace Sampo.Table

abbrev Token := List Char

/-- The text of a cell; `none` is NaN, an empty cell or a missing column (general_build.py:165-169). -/
abbrev Cell := Option Token

/-- `NONE_ELEM` (general_build.py:21). -/
def noneElem : Token := ['-', '1']

/-- `str(math.nan)`. -/
def nan : Token := ['n', 'a', 'n']

/-- A list of elements; the first that cannot be cast raises. -/
def castAll {α : Type} (cast : Token → Option α) : List Token → Option (List α)
  | [] => some []
  | t :: ts => (cast t).bind fun a => (castAll cast ts).map (a :: ·)

/-- `fix_df_column_with_arrays` (general_build.py:149-154) for one cell. -/
def parseCell {α : Type} (cast : Token → Option α) (none' : α) : Cell → Option (List α)
  | none => some [none']
  | some s =>
    if s = nan then some [none']
    else castAll (fun t => if t = [] ∨ t = nan then some none' else cast t) (s.splitOn ',')

/-- The number of a sequence of digits. -/
def value (s : Token) : Nat := s.foldl (fun n c => 10 * n + (c.toNat - '0'.toNat)) 0

/-- `s.replace('.', '', 1).isdigit()` (general_build.py:160) for the ten ASCII digits. -/
def isNumber (s : Token) : Bool := !(s.erase '.').isEmpty && (s.erase '.').all Char.isDigit

/-- `normalize_if_number` (general_build.py:159-162): `str(int(float(s)))`, with exact numbers in place of floats. -/
def normalize (s : Token) : Token :=
  if isNumber s then Nat.toDigits 10 (value (s.takeWhile (· ≠ '.'))) else s

/-- `EdgeType(...)` of a text (graph.py:20-28); `none`: `ValueError`. -/
def edgeType (s : Token) : Option EdgeType :=
  if s = "IFS".toList then some .inseparable else if s = "FFS".toList then some .lagFinishStart
  else if s = "SS".toList then some .startStart else if s = "FF".toList then some .finishFinish
  else if s = "FS".toList then some .finishStart else none

/-- The values of `EdgeType` (graph.py:20-28). -/
def typeText : EdgeType → Token
  | .inseparable => "IFS".toList
  | .lagFinishStart => "FFS".toList
  | .startStart => "SS".toList
  | .finishFinish => "FF".toList
  | .finishStart => "FS".toList

/-- One row of the given table; `model` is the text in the column `model_name`, empty if there is none (general_build.py:171-172). -/
structure Raw where
  id : Token
  model : Token
  preds : Cell
  types : Cell
  lags : Cell

/-- One row after `preprocess_graph_df`: the lists of its cells, of any lengths. -/
structure Row where
  id : Nat
  preds : List Nat
  types : List EdgeType
  lags : List Int
  counts : List Int
deriving DecidableEq, Repr

/-- `np.iinfo(np.int64).max`. -/
def maxCount : Int := 9223372036854775807

/-- `preprocess_graph_df` (general_build.py:157-201) for one row.  `readLag` is `float` on a text (lags are integers here).  A missing lag
becomes the text '-1', which schedules read as the number -1 (graph.py:290).  `readModel` says whether `map_activity` (174-180) can read
the text of `model_name`: `eval` gives a dictionary which has a `granular_name`, or the name mapper does.  The code does this for the
whole column before it reads the links; both end in an exception.  `none`: an exception. -/
def preprocess (code : Token → Nat) (readLag : Token → Option Int) (readModel : Token → Bool) (r : Raw) : Option Row :=
  if readModel r.model then
    (parseCell (fun t => some (code (normalize t))) (code noneElem) r.preds).bind fun preds =>
      (parseCell edgeType .finishStart r.types).bind fun types =>
      (parseCell readLag (-1) r.lags).map fun lags =>
        ⟨code r.id, preds, types, lags, List.replicate lags.length maxCount⟩
  else none

/-- A list of rows; the first that raises ends the program. -/
def mapAll {α β : Type} (f : α → Option β) : List α → Option (List β)
  | [] => some []
  | a :: as => (f a).bind fun b => (mapAll f as).map (b :: ·)

/-! ### Links from history -/

/-- An entry of the statistics: predecessor, type, lag, count (history.py:195-228). -/
structure Past where
  pred : Nat
  type : EdgeType
  lag : Int
  count : Int
deriving DecidableEq, Repr

/-- `list[i] = value`; `none`: `IndexError`. -/
def setAt {α : Type} (l : List α) (i : Nat) (a : α) : Option (List α) := if i < l.length then some (l.set i a) else none

/-- `update_connections` (history.py:246-254) from position `i` on. -/
def updateFrom (past : List Past) : Nat → List Nat → Row → Option Row
  | _, [], r => some r
  | i, p :: ps, r =>
    match past.find? (·.pred = p) with
    | none => updateFrom past (i + 1) ps r
    | some h =>
      (setAt r.types i h.type).bind fun types => (setAt r.lags i h.lag).bind fun lags => (setAt r.counts i h.count).bind fun counts =>
        updateFrom past (i + 1) ps { r with types := types, lags := lags, counts := counts }

/-- `append_new_connections` (history.py:256-264). -/
def append (none' : Nat) (works : List Nat) (r : Row) : List Past → Row
  | [] => r
  | h :: hs =>
    if h.pred ∉ r.preds ∧ h.pred ≠ none' ∧ h.pred ∈ works then
      append none' works ⟨r.id, r.preds ++ [h.pred], r.types ++ [h.type], r.lags ++ [h.lag], r.counts ++ [h.count]⟩ hs
    else append none' works r hs

/-- The loop which fills up the lists (history.py:318-321).  `none`: it does not end. -/
def pad (r : Row) : Option Row :=
  if r.types.length ≤ r.preds.length then
    let n := r.preds.length - r.types.length
    some { r with types := r.types ++ List.replicate n .finishStart, lags := r.lags ++ List.replicate n 1,
                  counts := r.counts ++ List.replicate n 0 }
  else none

/-- The two options of `read_graph_info`, and whether the table and the history have a column `granular_name`. -/
structure Options where
  all : Bool
  change : Bool
  granular : Bool

/-- The links of one row in `set_connections_info` (history.py:270-322), with the entries of the statistics for this work.  Without
entries the code goes on with one entry '-1'.  Outer `none`: the loop does not end; inner `none`: an exception. -/
def connect (o : Options) (none' : Nat) (works : List Nat) (past : List Past) (r : Row) : Option (Option Row) :=
  let past' := if past.isEmpty then [⟨none', .finishStart, 1, maxCount⟩] else past
  if o.all then
    if !o.change then some (some { r with counts := List.replicate r.preds.length maxCount })
    else
      if r.preds = [none'] then
        (pad ⟨r.id, past'.map (·.pred), past'.map (·.type), past'.map (·.lag), past'.map (·.count)⟩).map some
      else
        let found := past'.filter fun h => h.pred ∈ r.preds
        let found := if found.isEmpty then [⟨none', .finishStart, 1, maxCount⟩] else found
        (pad ⟨r.id, r.preds, found.map (·.type), found.map (·.lag), found.map (·.count)⟩).map some
  else
    let r := { r with counts := List.replicate r.lags.length maxCount }
    match if o.change then updateFrom past' 0 r.preds r else some r with
    | none => some none
    | some r => (pad (append none' works r past')).map some

/-- The loop over the rows (history.py:283-324); ids of rows are distinct. -/
def connectAll (o : Options) (none' : Nat) (works : List Nat) (past : Nat → List Past) : List Row → Option (Option (List Row))
  | [] => some (some [])
  | r :: rs =>
    match connect o none' works (past r.id) r with
    | none => none
    | some none => some none
    | some (some r') => (connectAll o none' works past rs).map fun res => res.map (r' :: ·)

/-! ### Cycles -/

/-- The four lists of a row, cut to the shortest: `zip(...)` (general_build.py:126-130). -/
def Row.links (r : Row) : List (Nat × EdgeType × Int × Int) := r.preds.zip (r.types.zip (r.lags.zip r.counts))

/-- The edges of the graph in which cycles are looked for (general_build.py:124-130). -/
def rowEdges (none' : Nat) (rows : List Row) : List (Nat × Nat × Option Int) :=
  rows.flatMap fun r => (r.links.filter fun l => l.1 ≠ none').map fun l => (l.1, r.id, some l.2.2.2)

/-- The loop that deletes links (general_build.py:134-145): predecessors still to see, and the rest of the other lists from the same
position on.  `none`: `IndexError`. -/
def dropLinks (keep : Nat → Bool) : List Nat → List EdgeType → List Int → List Int →
    Option (List Nat × List EdgeType × List Int × List Int)
  | [], ts, ls, cs => some ([], ts, ls, cs)
  | p :: ps, ts, ls, cs =>
    if keep p then
      (dropLinks keep ps ts.tail ls.tail cs.tail).map fun r =>
        (p :: r.1, ts.take 1 ++ r.2.1, ls.take 1 ++ r.2.2.1, cs.take 1 ++ r.2.2.2)
    else
      match ts, ls, cs with
      | _ :: ts, _ :: ls, _ :: cs => dropLinks keep ps ts ls cs
      | _, _, _ => none

/-- `break_loops_in_input_graph` (general_build.py:116-146).  Outer `none`: out of fuel; inner `none`: an exception. -/
def breakLoops (fuel : Nat) (none' : Nat) (rows : List Row) : Option (Option (List Row)) :=
  (Cycles.eliminateCycles fuel (Cycles.build (rowEdges none' rows))).map fun res => res.bind fun g =>
    mapAll (fun r : Row => (dropLinks (fun p => p ∉ g.2.keys || (g.2.adj p).any fun n => n.1 = r.id) r.preds r.types r.lags r.counts).map
      fun l => ⟨r.id, l.1, l.2.1, l.2.2.1, l.2.2.2⟩) rows

/-! ### The graph -/

/-- `add_graph_info` (general_build.py:204-220) for one row: the edges (predecessor, lag, type).  `none`: `IndexError`. -/
def edgesOf (works : List Nat) : List Nat → List EdgeType → List Int → Option (List (Nat × Int × EdgeType))
  | [], _, _ => some []
  | p :: ps, ts, ls =>
    if p ∈ works then
      match ts, ls with
      | t :: ts, l :: ls => (edgesOf works ps ts ls).map fun es => (p, l, t) :: es
      | _, _ => none
    else edgesOf works ps ts.tail ls.tail

/-- `build_work_graph` (general_build.py:246-276) over the sorted rows; `none`: `KeyError` for a predecessor without a node. -/
def buildNodes : List (Nat × List (Nat × Int × EdgeType)) → List Nat → Graph → Option Graph
  | [], _, g => some g
  | (v, ps) :: rows, known, g =>
    if ps.all fun p => known.contains p.1 then buildNodes rows (known ++ [v]) (g.addParents v ps) else none

/-- `CSVParser.work_graph` (csv_parser.py:96-137).  `sort` is the order in which `nx.topological_sort` and `sort_values` put the rows;
`start` and `finish` are the ids of the two new works; the nodes are given to `from_nodes` in the order `arrange` of a set. -/
def workGraph (sort : List (Nat × List (Nat × Int × EdgeType)) → List (Nat × List (Nat × Int × EdgeType)))
    (arrange : List Nat → List Nat) (start finish : Nat) (rows : List Row) : Option Graph :=
  (mapAll (fun r : Row => (edgesOf (rows.map (·.id)) r.preds r.types r.lags).map fun es => (r.id, es)) rows).bind fun infos =>
    (buildNodes (sort infos) [] .empty).bind fun g => g.fromNodes start finish (arrange (infos.map (·.1)))

/-- `CSVParser.read_graph_info` (csv_parser.py:87-93); `past` are the statistics of `get_all_seq_statistic`, which raises a `KeyError`
without columns `granular_name` (history.py:23, 118-123).  Outer `none`: a loop does not end (or out of fuel); inner `none`: an exception. -/
def readTable (code : Token → Nat) (readLag : Token → Option Int) (readModel : Token → Bool) (o : Options) (past : Nat → List Past) (fuel : Nat)
    (table : List Raw) : Option (Option (List Row)) :=
  match mapAll (preprocess code readLag readModel) table with
  | none => some none
  | some rows =>
    if (!o.all || o.change) && !o.granular then some none else
    match connectAll o (code noneElem) (rows.map (·.id)) past rows with
    | none => none
    | some none => some none
    | some (some rows') => breakLoops fuel (code noneElem) rows'

/-- The columns of the links in `WorkGraph.to_frame` (graph.py:376-421).  `name` are the ids, `writeLag` is `str` of a lag.  There is no
column `model_name`. -/
def frameRows (name : Nat → Token) (writeLag : Int → Token) (g : Graph) (start finish : Nat) (nodes : List Nat) : List Raw :=
  (nodes.filter fun v => v ≠ start ∧ v ≠ finish).map fun v =>
    let es := (g.edgesTo v).filter fun e => e.start ≠ start ∧ e.start ≠ finish
    ⟨name v, [], some ([','].intercalate (es.map fun e => name e.start)), some ([','].intercalate (es.map fun e => typeText e.type)),
      some ([','].intercalate (es.map fun e => writeLag e.lag))⟩

/-- The entries `to_frame` reads of the dictionary of a work (graph.py:386-391). -/
def frameKeys : List String := ["id", "display_name", "name", "volume", "volume_type", "priority"]

/-- Whether reading the entries raises no `KeyError`. -/
def hasFrameKeys : Option Json.Val → Bool
  | some (.dict d) => frameKeys.all fun k => (d.lookup k).isSome
  | _ => false

/-- `WorkGraph.to_frame` (graph.py:361-421); `dump` are the dictionaries of the works (`node.dumpd()['work_unit']`).  `none`: an
exception. -/
def toFrame (dump : Nat → Option Json.Val) (name : Nat → Token) (writeLag : Int → Token) (g : Graph) (start finish : Nat)
    (nodes : List Nat) : Option (List Raw) :=
  if (nodes.filter fun v => v ≠ start ∧ v ≠ finish).all fun v => hasFrameKeys (dump v) then
    some (frameRows name writeLag g start finish nodes)
  else none

end Sampo.Table
