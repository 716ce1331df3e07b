import Verif.Lemmas.TableRead
import Verif.Lemmas.TableSort

/-!
# C65: a table of works becomes a work graph with exactly its works and links
-/

namespace Sampo.C65

open Table

variable {code : Token → Nat} {readLag : Token → Option Int} {readModel : Token → Bool} {table : List Raw} {works : List Work}
  {sort : List (Nat × List (Nat × Int × EdgeType)) → List (Nat × List (Nat × Int × EdgeType))} {arrange : List Nat → List Nat}
  {start finish fuel : Nat} {o : Options} {past : Nat → List Past}

/-- The mode that takes all links from the table as they are; or, with a column `granular_name`, a mode that does not take all links from the
table, without history. -/
def Unchanged (o : Options) (past : Nat → List Past) : Prop :=
  (o.all = true ∧ o.change = false) ∨ (o.all = false ∧ o.granular = true ∧ ∀ v, past v = [])

private theorem connectE_unchanged (h : Unchanged o past) {ids : List Nat} (hno : code noneElem ∉ ids) (v : Nat) (w : Work) :
    (connectE o (code noneElem) ids (past v) (given code w)).filter (fun l => l.1 ≠ code noneElem) = proper code w ∧
      (connectE o (code noneElem) ids (past v) (given code w)).length ≤ w.links.length + 1 := by
  have hlen : (given code w).length ≤ w.links.length + 1 := by
    unfold given
    split
    · simp
    · simp [entries]
  unfold connectE
  rcases h with ⟨h1, h2⟩ | ⟨h1, -, h2⟩
  · rw [if_pos h1]
    exact ⟨filter_given code w, hlen⟩
  · rw [if_neg (by rw [h1]; simp), h2 v]
    have hp : pastOr (code noneElem) [] = [⟨code noneElem, .finishStart, 1, maxCount⟩] := rfl
    have happ : ∀ es, appendE (code noneElem) ids es (pastOr (code noneElem) []) = es := by
      intro es
      rw [hp, appendE, if_neg (fun h => hno h.2.2), appendE]
    rw [happ]
    split
    · refine ⟨?_, by rw [List.length_map]; exact hlen⟩
      rw [← filter_given, List.filter_map]
      have hcomp : ((fun l : Entry => decide (l.1 ≠ code noneElem)) ∘ updateE (pastOr (code noneElem) [])) =
          fun l : Entry => decide (l.1 ≠ code noneElem) := by
        funext l
        simp [updateE_fst]
      rw [hcomp]
      conv_rhs => rw [← List.map_id ((given code w).filter fun l => decide (l.1 ≠ code noneElem))]
      apply List.map_congr_left
      intro l hl
      have hn : l.1 ≠ code noneElem := by simpa using (List.mem_filter.mp hl).2
      unfold updateE
      rw [hp]
      simp [Ne.symm hn]
    · exact ⟨filter_given code w, hlen⟩

private theorem back {edges : List (Nat × Nat × Option Int)} (hinj : Function.Injective code)
    (he : ∀ u v c, (u, v, c) ∈ edges ↔ ∃ w ∈ works, code w.id = v ∧ ∃ l ∈ proper code w, l.1 = u ∧ some l.2.2.2 = c) {p v : Token}
    (h : LightestOnCycle edges (code p) (code v)) : Relation.ReflTransGen (Precedes works) v p := by
  obtain ⟨c, _, ⟨-, hc, hw⟩, ⟨a, b, rfl⟩, -, -⟩ := h
  have hb := walk_back (r := EdgeTo edges) hc hw
  have key : ∀ y, Relation.ReflTransGen (EdgeTo edges) (code v) y → ∃ t, y = code t ∧ Relation.ReflTransGen (Precedes works) v t := by
    intro y hy
    induction hy with
    | refl => exact ⟨v, rfl, .refl⟩
    | tail _ hstep ih =>
      obtain ⟨t, rfl, ht⟩ := ih
      obtain ⟨c, hc⟩ := hstep
      obtain ⟨w, hw, rfl, l, hl, hlt, -⟩ := (he _ _ _).mp hc
      obtain ⟨l', hl', rfl⟩ := List.mem_map.mp (List.mem_filter.mp hl).1
      exact ⟨w.id, rfl, ht.tail ⟨w, hw, rfl, l', hl', hinj hlt⟩⟩
  obtain ⟨t, ht, hr⟩ := key _ hb
  rw [hinj ht]
  exact hr

/-- Reading the table and building the graph end without an exception.  The works of the graph are those of the table, a start and a
finish; every work lies on a way from the start to the finish.  The edges into a work are, in the order of its cells and with their
types and lags, the links to works of the table that were kept.  A link is given up only if it closes a cycle of links of the table. -/
theorem table_to_graph (hs : Setting code readLag readModel table works sort arrange start finish) (hm : Unchanged o past)
    (hf : 5 * ((works.map fun w => w.links.length + 1).sum) + 1 ≤ fuel) :
    ∃ (kept : Token → Token → Bool) (rows : List Row) (g : Graph),
      readTable code readLag readModel o past fuel table = some (some rows) ∧ workGraph sort arrange start finish rows = some g ∧
      g.Project start (start :: finish :: works.map fun w => code w.id) ∧
      (∀ v ∈ start :: finish :: works.map fun w => code w.id, g.Reaches v finish) ∧
      (∀ w ∈ works, EdgesInto g start (code w.id)
        ((w.links.filter fun l => l.pred ∈ works.map (·.id) ∧ kept l.pred w.id).map (Link.edge code w.id))) ∧
      ∀ p v, p ≠ "-1".toList → Precedes works p v → kept p v = false → Relation.ReflTransGen (Precedes works) v p := by
  have hno' : code noneElem ∉ works.map fun w => code w.id := by
    intro h
    obtain ⟨w, hw, he⟩ := List.mem_map.mp h
    have he : w.id = "-1".toList := hs.code_inj he
    exact hs.proper (he ▸ List.mem_map_of_mem hw)
  have ho : ¬ (o.all = true ∧ o.change = true) := by
    rintro ⟨h1, h2⟩
    rcases hm with ⟨_, h⟩ | ⟨h, _⟩
    · rw [h] at h2; simp at h2
    · rw [h] at h1; simp at h1
  have hlen : ((linksOf code o past works).flatMap (·.2)).length ≤ (works.map fun w => w.links.length + 1).sum := by
    unfold linksOf
    generalize (works.map fun w => code w.id) = ids at hno'
    clear hs hf
    induction works with
    | nil => simp
    | cons w ws ih =>
      rw [List.map_cons, List.flatMap_cons, List.length_append, List.map_cons, List.sum_cons]
      exact Nat.add_le_add (connectE_unchanged hm hno' (code w.id) w).2 ih
  obtain ⟨keep, rows, g, edges, h1, h2, h3, h4, h5, h6, h7⟩ := read_graph (o := o) (past := past) (fuel := fuel) ho
    (by rcases hm with ⟨h, _⟩ | ⟨_, h, _⟩; exacts [Or.inl h, Or.inr h]) hs.written
    hs.some_work hs.code_inj hs.distinct hs.proper hs.sorts hs.arranges hs.start_new hs.finish_new hs.start_finish (by omega)
    (proper code) (fun w _ => (connectE_unchanged hm hno' (code w.id) w).1.symm)
  refine ⟨fun p v => keep (code p) (code v), rows, g, h1, h2, h3, h4, fun w hw => h5 w hw _ ?_, fun p v hp hpv hk => ?_⟩
  · unfold proper entries
    rw [List.filter_filter, List.filter_map, List.map_map]
    congr 1
    apply List.filter_congr
    intro l _
    have hmem : (code l.pred ∈ works.map fun w => code w.id) ↔ l.pred ∈ works.map (·.id) := by
      simp only [List.mem_map]
      constructor
      · rintro ⟨w', hw', he⟩; exact ⟨w', hw', hs.code_inj he⟩
      · rintro ⟨w', hw', he⟩; exact ⟨w', hw', by rw [he]⟩
    rw [Bool.eq_iff_iff]
    simp only [Function.comp, decide_eq_true_eq, Bool.and_eq_true, hmem]
    constructor
    · rintro ⟨h1, h2⟩
      exact ⟨⟨h1, h2⟩, fun he => hno' (by rw [← he]; exact hmem.mpr h1)⟩
    · rintro ⟨h1, _⟩; exact h1
  · obtain ⟨w, hw, rfl, l, hl, rfl⟩ := hpv
    have hl' : (code l.pred, l.type, l.lag, maxCount) ∈ proper code w := by
      unfold proper
      rw [List.mem_filter]
      refine ⟨List.mem_map.mpr ⟨l, hl, rfl⟩, ?_⟩
      have : code l.pred ≠ code noneElem := fun he => hp (hs.code_inj he)
      simpa using this
    exact back hs.code_inj h6 (h7 w hw _ hl' hk)

/-- If no work of the table comes, over links of the table, before itself, the edges into every work are all its links to works of the
table. -/
theorem acyclic_table_to_graph (hs : Setting code readLag readModel table works sort arrange start finish) (hm : Unchanged o past)
    (hf : 5 * ((works.map fun w => w.links.length + 1).sum) + 1 ≤ fuel)
    (hac : ∀ v, ¬ Relation.TransGen (Precedes works) v v) :
    ∃ (rows : List Row) (g : Graph),
      readTable code readLag readModel o past fuel table = some (some rows) ∧ workGraph sort arrange start finish rows = some g ∧
      g.Project start (start :: finish :: works.map fun w => code w.id) ∧
      (∀ v ∈ start :: finish :: works.map fun w => code w.id, g.Reaches v finish) ∧
      ∀ w ∈ works, EdgesInto g start (code w.id) ((w.links.filter fun l => l.pred ∈ works.map (·.id)).map (Link.edge code w.id)) := by
  obtain ⟨kept, rows, g, h1, h2, h3, h4, h5, h6⟩ := table_to_graph hs hm hf
  refine ⟨rows, g, h1, h2, h3, h4, fun w hw => ?_⟩
  have : (w.links.filter fun l => l.pred ∈ works.map (·.id)) =
      w.links.filter fun l => l.pred ∈ works.map (·.id) ∧ kept l.pred w.id := by
    apply List.filter_congr
    intro l hl
    by_cases hin : l.pred ∈ works.map (·.id)
    · cases hk : kept l.pred w.id with
      | true => simp [hin]
      | false =>
        have hp : Precedes works l.pred w.id := ⟨w, hw, rfl, l, hl, rfl⟩
        have := h6 l.pred w.id (fun he => hs.proper (he ▸ hin)) hp hk
        exact absurd (Relation.TransGen.head' hp this) (hac l.pred)
    · simp [hin]
  rw [this]
  exact h5 w hw

/-- A predecessor written as a decimal number, possibly with a point and further digits, means the work whose id is the whole part of the
number without leading zeros; any other text means itself. -/
theorem predecessor_meant (n : Nat) (z : Token) (hz : ∀ c ∈ z, c.isDigit = true) (t : Token) (ht : ∃ c ∈ t, c.isDigit = false ∧ c ≠ '.') :
    normalize (Nat.toDigits 10 n) = Nat.toDigits 10 n ∧ normalize (Nat.toDigits 10 n ++ '.' :: z) = Nat.toDigits 10 n ∧ normalize t = t :=
  ⟨normalize_number n (Or.inl rfl), normalize_number n (Or.inr ⟨z, rfl, hz⟩), normalize_word ht⟩

/-! ### Tables that are read differently -/

private def cell (s : String) : Cell := some s.toList

private def into (table : List Raw) (o : Options) (past : Nat → List Past) (v : String) : Option (Option (Option (List Edge))) :=
  (readTable number readDigit (fun m => !m.isEmpty) o past 100 table).map fun r => r.map fun rows =>
    (workGraph id id 1 2 rows).map fun g => g.edgesTo (number v.toList)

/-- Two works, the second after the first with a lag of 3. -/
example : into [⟨"a".toList, "m".toList, none, none, none⟩, ⟨"b".toList, "m".toList, cell "a", cell "FFS", cell "3"⟩] ⟨true, false, false⟩ (fun _ => []) "b" =
    some (some (some [⟨number "a".toList, number "b".toList, 3, .lagFinishStart⟩])) := by decide +kernel

/-- Not proved because false: the link to a work whose id is written in both places with leading zeros, as in "007", is lost: the
predecessor is read as "7", the id is not changed.  The work starts with the project. -/
theorem leading_zeros_lose_link :
    into [⟨"007".toList, "m".toList, none, none, none⟩, ⟨"8".toList, "m".toList, cell "007", cell "FS", cell "0"⟩] ⟨true, false, false⟩ (fun _ => []) "8" =
      some (some (some [⟨1, number "8".toList, 0, .finishStart⟩])) := by decide +kernel

/-- Not proved because false: a space after the comma loses the link. -/
theorem space_loses_link :
    into [⟨"a".toList, "m".toList, none, none, none⟩, ⟨"b".toList, "m".toList, none, none, none⟩, ⟨"c".toList, "m".toList, cell "a, b", cell "FS,FS", cell "0,0"⟩]
      ⟨true, false, false⟩ (fun _ => []) "c" = some (some (some [⟨number "a".toList, number "c".toList, 0, .finishStart⟩])) := by
  decide +kernel

/-- Not proved because false: a work with two predecessors and no lags (the column `lags` is optional) raises an exception, with or
without the option to take all links from the table. -/
theorem missing_lags_raise (all : Bool) :
    into [⟨"a".toList, "m".toList, none, none, none⟩, ⟨"b".toList, "m".toList, none, none, none⟩, ⟨"c".toList, "m".toList, cell "a,b", cell "FS,FS", none⟩]
      ⟨all, false, true⟩ (fun _ => []) "c" = some (some none) := by
  cases all <;> decide +kernel

/-- Not proved because false: one predecessor without a lag gets the lag -1. -/
theorem missing_lag_negative :
    into [⟨"a".toList, "m".toList, none, none, none⟩, ⟨"b".toList, "m".toList, cell "a", cell "FFS", none⟩] ⟨true, false, false⟩ (fun _ => []) "b" =
      some (some (some [⟨number "a".toList, number "b".toList, -1, .lagFinishStart⟩])) := by decide +kernel

/-- Not proved because false: in the default mode a work with more types than predecessors is never read: the loop that fills up the
lists adds to the wrong one.  This holds for any number of steps. -/
theorem more_types_hang (fuel : Nat) (past : Nat → List Past) (hp : ∀ v, past v = []) :
    readTable number readDigit (fun m => !m.isEmpty) ⟨false, false, true⟩ past fuel [⟨"a".toList, "m".toList, none, cell "FS,SS", none⟩] = none := by
  have : past = fun _ => [] := funext hp
  subst this
  have h1 : mapAll (preprocess number readDigit fun m => !m.isEmpty) [⟨"a".toList, "m".toList, none, cell "FS,SS", none⟩] =
      some [⟨number "a".toList, [number noneElem], [.finishStart, .startStart], [-1], [maxCount]⟩] := by decide +kernel
  have h2 : connectAll ⟨false, false, true⟩ (number noneElem) [number "a".toList] (fun _ => [])
      [⟨number "a".toList, [number noneElem], [.finishStart, .startStart], [-1], [maxCount]⟩] = none := by decide +kernel
  unfold readTable
  rw [h1]
  dsimp only
  rw [List.map_cons, List.map_nil, h2]
  rfl

/-- Not proved because false: a table with nothing but the columns of the documentation raises an exception, whatever is in it: without
a column `model_name` the program evaluates an empty text, which is a `SyntaxError`. -/
theorem documented_columns_raise (hne : table ≠ []) (hm : ∀ r ∈ table, r.model = []) (he : readModel [] = false) :
    readTable code readLag readModel o past fuel table = some none := by
  cases table with
  | nil => exact absurd rfl hne
  | cons r rs =>
    have : preprocess code readLag readModel r = none := by
      unfold preprocess
      rw [hm r (by simp), if_neg (by simp [he])]
    unfold readTable
    simp [mapAll, this]

/-- Not proved because false: every mode but the one that takes all links from the table as they are raises an exception without a column
`granular_name` in the table and in the history, which the documentation calls optional. -/
theorem no_granular_names_raise (ho : ¬ (o.all = true ∧ o.change = false)) (hg : o.granular = false) :
    readTable code readLag readModel o past fuel table = some none := by
  unfold readTable
  cases mapAll (preprocess code readLag readModel) table with
  | none => rfl
  | some rows =>
    dsimp only
    rw [if_pos]
    rw [hg]
    cases h1 : o.all with
    | false => rfl
    | true =>
      cases h2 : o.change with
      | false => exact absurd ⟨h1, h2⟩ ho
      | true => rfl

/-- Not proved because false: with the two options to take all links from the table and to change them, all types and lags are
overwritten even if there is no history at all. -/
theorem change_without_history :
    into [⟨"a".toList, "m".toList, none, none, none⟩, ⟨"b".toList, "m".toList, cell "a", cell "SS", cell "3"⟩] ⟨true, true, true⟩ (fun _ => []) "b" =
      some (some (some [⟨number "a".toList, number "b".toList, 1, .finishStart⟩])) := by decide +kernel

/-! ### The hypotheses can be met -/

example : ∃ sort, Setting number readDigit (fun m => !m.isEmpty)
    [⟨"a".toList, "m".toList, none, none, none⟩, ⟨"b".toList, "m".toList, cell "a", cell "FFS", cell "3"⟩, ⟨"7".toList, "m".toList, cell "b,a", cell "FS,SS", cell "0,2"⟩,
      ⟨"d".toList, "m".toList, cell "7.0", cell "IFS", cell "0"⟩]
    [⟨"a".toList, []⟩, ⟨"b".toList, [⟨"a".toList, .lagFinishStart, 3⟩]⟩,
      ⟨"7".toList, [⟨"b".toList, .finishStart, 0⟩, ⟨"a".toList, .startStart, 2⟩]⟩, ⟨"d".toList, [⟨"7".toList, .inseparable, 0⟩]⟩]
    sort id 1 2 := by
  obtain ⟨sort, hs⟩ := sorts_exist
  have plain : ∀ t : Token, t ≠ [] ∧ ',' ∉ t ∧ t ≠ "nan".toList → Plain t := fun t h => ⟨h.1, h.2.1, h.2.2⟩
  refine ⟨sort, ⟨?_, number_injective, by simp, by decide, by decide, hs, fun _ => .refl _, by decide +kernel, by decide +kernel, by decide⟩⟩
  refine .cons ⟨rfl, rfl, ⟨[], Or.inl ⟨rfl, Or.inl rfl⟩, .nil⟩, Or.inl ⟨rfl, Or.inl rfl⟩, ⟨[], Or.inl ⟨rfl, Or.inl rfl⟩, .nil⟩⟩ ?_
  refine .cons ⟨rfl, rfl, ⟨["a".toList], Or.inr ⟨by simp, rfl⟩, .cons ⟨plain _ (by decide), by decide⟩ .nil⟩, Or.inr ⟨by simp, rfl⟩,
    ⟨["3".toList], Or.inr ⟨by simp, rfl⟩, .cons ⟨plain _ (by decide), by decide⟩ .nil⟩⟩ ?_
  refine .cons ⟨rfl, rfl, ⟨["b".toList, "a".toList], Or.inr ⟨by simp, rfl⟩,
      .cons ⟨plain _ (by decide), by decide⟩ (.cons ⟨plain _ (by decide), by decide⟩ .nil)⟩, Or.inr ⟨by simp, rfl⟩,
    ⟨["0".toList, "2".toList], Or.inr ⟨by simp, rfl⟩,
      .cons ⟨plain _ (by decide), by decide⟩ (.cons ⟨plain _ (by decide), by decide⟩ .nil)⟩⟩ ?_
  exact .cons ⟨rfl, rfl, ⟨["7.0".toList], Or.inr ⟨by simp, rfl⟩, .cons ⟨plain _ (by decide), by decide +kernel⟩ .nil⟩, Or.inr ⟨by simp, rfl⟩,
    ⟨["0".toList], Or.inr ⟨by simp, rfl⟩, .cons ⟨plain _ (by decide), by decide⟩ .nil⟩⟩ .nil

end Sampo.C65
