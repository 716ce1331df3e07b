import Verif.Lemmas.Table

/-!
# Reading a table: cells and links
-/

namespace Sampo.Table

theorem castAll_eq {α β : Type} {cast : Token → Option α} {f : β → α} : ∀ {ts : List Token} {bs : List β},
    List.Forall₂ (fun t b => cast t = some (f b)) ts bs → castAll cast ts = some (bs.map f)
  | _, _, .nil => rfl
  | t :: ts, b :: bs, .cons h hs => by simp [castAll, h, castAll_eq hs]

theorem parseCell_eq {α β : Type} {cast : Token → Option α} {none' : α} {f : β → α} {c : Cell} {ts : List Token} {bs : List β}
    (hc : Holds c ts) (h : List.Forall₂ (fun t b => Plain t ∧ cast t = some (f b)) ts bs) :
    parseCell cast none' c = some (if bs = [] then [none'] else bs.map f) := by
  rcases hc with ⟨rfl, rfl | rfl⟩ | ⟨hne, rfl⟩
  · cases h
    rfl
  · cases h
    simp [parseCell, nan, castAll]
  · have hbs : bs ≠ [] := by
      rintro rfl
      exact hne (List.forall₂_nil_right_iff.mp h)
    have hpl : ∀ t ∈ ts, Plain t := by
      clear hne hbs
      induction h with
      | nil => simp
      | cons h _ ih =>
        intro t ht
        rcases List.mem_cons.mp ht with rfl | ht
        · exact h.1
        · exact ih t ht
    have hsplit := List.splitOn_intercalate ',' (fun t ht => (hpl t ht).comma) hne
    rw [if_neg hbs, parseCell, if_neg, hsplit]
    · refine castAll_eq (h.imp fun t b hb => ?_)
      rw [if_neg, hb.2]
      rintro (h0 | h0)
      · exact hb.1.nonempty h0
      · exact hb.1.given h0
    · intro hn
      rw [hn] at hsplit
      have : ts = [nan] := by rw [← hsplit]; decide
      exact (hpl nan (by rw [this]; simp)).given rfl

theorem edgeType_text (t : EdgeType) : Plain (typeText t) ∧ edgeType (typeText t) = some t := by
  refine ⟨⟨?_, ?_, ?_⟩, ?_⟩ <;> cases t <;> decide

/-- The links of a work with the numbers of the ids. -/
def entries (code : Token → Nat) (w : Work) : List Entry := w.links.map fun l => (code l.pred, l.type, l.lag, maxCount)

/-- The row of a work without links. -/
def emptyEntry (none' : Nat) (lag : Int) : Entry := (none', .finishStart, lag, maxCount)

theorem preprocess_eq {code : Token → Nat} {readLag : Token → Option Int} {readModel : Token → Bool} {r : Raw} {w : Work}
    (h : Written readLag readModel r w) : preprocess code readLag readModel r = some (aligned (code w.id, if w.links = [] then [emptyEntry (code noneElem) (-1)] else entries code w)) := by
  obtain ⟨ps, hps, hpp⟩ := h.preds
  obtain ⟨ls, hls, hll⟩ := h.lags
  have h1 := parseCell_eq (cast := fun t => some (code (normalize t))) (none' := code noneElem)
    (f := fun l : Link => code l.pred) hps (hpp.imp fun t l hl => ⟨hl.1, by rw [hl.2]⟩)
  have h2 := parseCell_eq (cast := edgeType) (none' := EdgeType.finishStart) (f := fun l : Link => l.type) (bs := w.links) h.types (by
    rw [List.forall₂_map_left_iff, List.forall₂_same]
    exact fun l _ => edgeType_text l.type)
  have h3 := parseCell_eq (cast := readLag) (none' := (-1 : Int)) (f := fun l : Link => l.lag) hls hll
  unfold preprocess
  rw [if_pos h.model, h1, Option.bind_some, h2, Option.bind_some, h3, Option.map_some, h.id]
  by_cases hl : w.links = []
  · simp [hl, aligned, emptyEntry]
  · simp [hl, aligned, entries, List.map_map, Function.comp_def, List.map_const']

theorem pad_aligned (a : Nat × List Entry) : pad (aligned a) = some (aligned a) := by
  unfold pad aligned
  simp

/-- An entry of history as a link. -/
def Past.entry (h : Past) : Entry := (h.pred, h.type, h.lag, h.count)

/-- The links after those of history are added. -/
def appendE (none' : Nat) (works : List Nat) (es : List Entry) : List Past → List Entry
  | [] => es
  | h :: hs =>
    if h.pred ∉ es.map (·.1) ∧ h.pred ≠ none' ∧ h.pred ∈ works then appendE none' works (es ++ [h.entry]) hs
    else appendE none' works es hs

theorem append_aligned (none' : Nat) (works : List Nat) (v : Nat) : ∀ (past : List Past) (es : List Entry),
    append none' works (aligned (v, es)) past = aligned (v, appendE none' works es past)
  | [], es => rfl
  | h :: hs, es => by
    rw [append, appendE]
    have : (aligned (v, es)).preds = es.map (·.1) := rfl
    rw [this]
    split
    · rw [← append_aligned none' works v hs (es ++ [h.entry])]
      simp [aligned, Past.entry]
    · exact append_aligned none' works v hs es

/-- A link after the change of its data. -/
def updateE (past : List Past) (e : Entry) : Entry :=
  match past.find? (·.pred = e.1) with
  | none => e
  | some h => (e.1, h.type, h.lag, h.count)

theorem updateE_fst (past : List Past) (e : Entry) : (updateE past e).1 = e.1 := by
  unfold updateE
  split <;> rfl

theorem setAt_append {α β : Type} (f : β → α) (pre : List β) (b c : β) (post : List β) :
    setAt ((pre ++ b :: post).map f) pre.length (f c) = some ((pre ++ c :: post).map f) := by
  unfold setAt
  rw [if_pos (by simp)]
  simp [List.set_append]

theorem updateFrom_aligned (past : List Past) (v : Nat) : ∀ (cur pre : List Entry),
    updateFrom past pre.length (cur.map (·.1)) (aligned (v, pre ++ cur)) = some (aligned (v, pre ++ cur.map (updateE past)))
  | [], pre => rfl
  | e :: cur, pre => by
    rw [List.map_cons, List.map_cons, updateFrom]
    have ih := updateFrom_aligned past v cur (pre ++ [updateE past e])
    rw [List.length_append, List.length_singleton] at ih
    simp only [List.append_assoc, List.singleton_append] at ih
    cases hf : past.find? (·.pred = e.1) with
    | none =>
      have : updateE past e = e := by unfold updateE; rw [hf]
      rw [this] at ih ⊢
      exact ih
    | some h =>
      have hu : updateE past e = (e.1, h.type, h.lag, h.count) := by unfold updateE; rw [hf]
      have h1 := setAt_append (fun l : Entry => l.2.1) pre e (updateE past e) cur
      have h2 := setAt_append (fun l : Entry => l.2.2.1) pre e (updateE past e) cur
      have h3 := setAt_append (fun l : Entry => l.2.2.2) pre e (updateE past e) cur
      have h0 : (pre ++ updateE past e :: cur).map (fun l : Entry => l.1) = (pre ++ e :: cur).map fun l => l.1 := by
        simp [updateE_fst]
      rw [← ih]
      simp only [aligned, h0]
      rw [hu] at h1 h2 h3 ⊢
      dsimp only at h1 h2 h3 ⊢
      rw [h1, Option.bind_some, h2, Option.bind_some, h3, Option.bind_some]

/-- The entries of history the code works with. -/
def pastOr (none' : Nat) (past : List Past) : List Past := if past.isEmpty then [⟨none', .finishStart, 1, maxCount⟩] else past

/-- The links of a row after the change in a mode; for the mode that takes all links from the table and changes them, nothing. -/
def connectE (o : Options) (none' : Nat) (works : List Nat) (past : List Past) (es : List Entry) : List Entry :=
  if o.all then es
  else appendE none' works (if o.change then es.map (updateE (pastOr none' past)) else es) (pastOr none' past)

theorem connect_aligned {o : Options} (ho : ¬ (o.all = true ∧ o.change = true)) (none' : Nat) (works : List Nat) (past : List Past)
    (v : Nat) (es : List Entry) (hc : ∀ e ∈ es, e.2.2.2 = maxCount) :
    connect o none' works past (aligned (v, es)) = some (some (aligned (v, connectE o none' works past es))) := by
  have hcounts : es.map (·.2.2.2) = List.replicate es.length maxCount := by
    rw [List.eq_replicate_iff]
    refine ⟨by simp, fun b hb => ?_⟩
    obtain ⟨e, he, rfl⟩ := List.mem_map.mp hb
    exact hc e he
  have hself : ({ aligned (v, es) with counts := List.replicate (aligned (v, es)).preds.length maxCount } : Row) = aligned (v, es) := by
    simp [aligned, hcounts]
  have hself' : ({ aligned (v, es) with counts := List.replicate (aligned (v, es)).lags.length maxCount } : Row) = aligned (v, es) := by
    simp [aligned, hcounts]
  unfold connect connectE
  cases hall : o.all with
  | true =>
    have hch : o.change = false := by
      cases h : o.change with
      | false => rfl
      | true => exact absurd ⟨hall, h⟩ ho
    simp only [hch, Bool.not_false, if_true]
    rw [hself]
  | false =>
    simp only [Bool.false_eq_true, if_false]
    rw [hself']
    have hpast : (if past.isEmpty = true then [⟨none', .finishStart, 1, maxCount⟩] else past) = pastOr none' past := rfl
    rw [hpast]
    cases hch : o.change with
    | false =>
      simp only [Bool.false_eq_true, if_false]
      rw [append_aligned, pad_aligned]
      rfl
    | true =>
      simp only [if_true]
      have := updateFrom_aligned (pastOr none' past) v es []
      rw [List.length_nil, List.nil_append, List.nil_append] at this
      rw [show (aligned (v, es)).preds = es.map (·.1) from rfl, this]
      dsimp only
      rw [append_aligned, pad_aligned]
      rfl

/-- The links read from the cells of a work. -/
def given (code : Token → Nat) (w : Work) : List Entry :=
  if w.links = [] then [emptyEntry (code noneElem) (-1)] else entries code w

theorem given_count (code : Token → Nat) (w : Work) : ∀ e ∈ given code w, e.2.2.2 = maxCount := by
  unfold given
  split
  · simp [emptyEntry]
  · intro e he
    obtain ⟨l, _, rfl⟩ := List.mem_map.mp he
    rfl

theorem mapAll_forall {α β γ : Type} {f : α → Option β} {R : α → γ → Prop} {k : γ → β} (h : ∀ a c, R a c → f a = some (k c)) :
    ∀ {l : List α} {m : List γ}, List.Forall₂ R l m → mapAll f l = some (m.map k)
  | _, _, .nil => rfl
  | a :: l, c :: m, .cons h1 h2 => by simp [mapAll, h a c h1, mapAll_forall h h2]

theorem connectAll_map {o : Options} {none' : Nat} {works : List Nat} {past : Nat → List Past} {f g : Work → Row}
    (h : ∀ w, connect o none' works (past (f w).id) (f w) = some (some (g w))) : ∀ ws : List Work,
    connectAll o none' works past (ws.map f) = some (some (ws.map g))
  | [] => rfl
  | w :: ws => by
    rw [List.map_cons, connectAll, h w]
    simp only [connectAll_map h ws]
    rfl

/-- The links of all works before cycles are looked for. -/
def linksOf (code : Token → Nat) (o : Options) (past : Nat → List Past) (works : List Work) : List (Nat × List Entry) :=
  works.map fun w => (code w.id, connectE o (code noneElem) (works.map fun w => code w.id) (past (code w.id)) (given code w))

theorem readTable_eq {code : Token → Nat} {readLag : Token → Option Int} {readModel : Token → Bool} {o : Options} (ho : ¬ (o.all = true ∧ o.change = true))
    (hg : o.all = true ∨ o.granular = true)
    {past : Nat → List Past} {fuel : Nat} {table : List Raw} {works : List Work} (h : List.Forall₂ (Written readLag readModel) table works) :
    readTable code readLag readModel o past fuel table = breakLoops fuel (code noneElem) ((linksOf code o past works).map aligned) := by
  unfold readTable
  rw [mapAll_forall (fun r w hr => preprocess_eq (code := code) hr) h]
  dsimp only
  rw [if_neg]
  swap
  · rw [Bool.and_eq_true, Bool.or_eq_true, Bool.not_eq_true', Bool.not_eq_true']
    rintro ⟨h1, h2⟩
    rcases hg with hg | hg
    · rcases h1 with h1 | h1
      · rw [hg] at h1; exact absurd h1 (by simp)
      · exact ho ⟨hg, h1⟩
    · rw [hg] at h2; exact absurd h2 (by simp)
  have hids : ((works.map fun w => aligned (code w.id, if w.links = [] then [emptyEntry (code noneElem) (-1)] else entries code w)).map
      (·.id)) = works.map fun w => code w.id := by
    rw [List.map_map]; rfl
  rw [hids]
  rw [connectAll_map (g := fun w => aligned (code w.id, connectE o (code noneElem) (works.map fun w => code w.id) (past (code w.id))
    (given code w)))]
  · dsimp only
    unfold linksOf
    rw [List.map_map]
    rfl
  · intro w
    exact connect_aligned ho _ _ _ _ (given code w) (given_count code w)

/-- From the links to the graph. -/
theorem table_graph {sort : List (Nat × List (Nat × Int × EdgeType)) → List (Nat × List (Nat × Int × EdgeType))}
    {arrange : List Nat → List Nat} {start finish none' fuel : Nat} (ws : List (Nat × List Entry)) (hne : ws ≠ [])
    (hnd : (ws.map (·.1)).Nodup) (hno : none' ∉ ws.map (·.1)) (hs : Sorts sort) (har : ∀ l, (arrange l).Perm l)
    (hst : start ∉ ws.map (·.1)) (hfi : finish ∉ ws.map (·.1)) (hsf : start ≠ finish)
    (hf : 5 * (ws.flatMap (·.2)).length + 1 ≤ fuel) :
    ∃ (keep : Nat → Nat → Bool) (rows : List Row) (g : Graph),
      breakLoops fuel none' (ws.map aligned) = some (some rows) ∧
      workGraph sort arrange start finish rows = some g ∧ g.Project start (start :: finish :: ws.map (·.1)) ∧
      (∀ v ∈ start :: finish :: ws.map (·.1), g.Reaches v finish) ∧
      (∀ a ∈ ws, ∀ es, es = keptEdges (ws.map (·.1)) (a.1, a.2.filter fun l => keep l.1 a.1) → g.edgesTo a.1 = es ++
        if es.any fun e => e.type.Dependency then [] else [⟨start, a.1, 0, .finishStart⟩]) ∧
      (∀ a ∈ ws, ∀ l ∈ a.2, l.1 ≠ none' → keep l.1 a.1 = false → LightestOnCycle (rowEdges none' (ws.map aligned)) l.1 a.1) := by
  obtain ⟨keep, h1, h2, h3⟩ := breakLoops_aligned (none' := none') ws hf
  set ws' := ws.map fun a => (a.1, a.2.filter fun l => keep l.1 a.1) with hws'
  have hids : ws'.map (·.1) = ws.map (·.1) := by rw [hws', List.map_map]; rfl
  have hrows : (ws.map fun a => aligned (a.1, a.2.filter fun l => keep l.1 a.1)) = ws'.map aligned := by
    rw [hws', List.map_map]; rfl
  obtain ⟨g, g1, g2, g3, g4, -, -⟩ := workGraph_aligned (sort := sort) (arrange := arrange) (start := start) (finish := finish) ws'
    (by simpa [hws'] using hne) (by rw [hids]; exact hnd) hs har (by rw [hids]; exact hst) (by rw [hids]; exact hfi) hsf (by
    intro x hx
    refine h2 x (Relation.TransGen.mono ?_ x x hx)
    rintro p v ⟨hp, a', ha', rfl, l, hl, rfl⟩
    obtain ⟨a, ha, rfl⟩ := List.mem_map.mp ha'
    obtain ⟨hl, hk⟩ := List.mem_filter.mp hl
    exact ⟨fun h => hno (by rw [hids] at hp; rw [← h]; exact hp), hk, a, ha, rfl, l, hl, rfl⟩)
  rw [hids] at g2 g3 g4
  refine ⟨keep, _, g, h1, by rw [hrows]; exact g1, g2, g3, fun a ha es hes => ?_, h3⟩
  subst hes
  exact g4 _ (List.mem_map_of_mem ha)

/-! ### Modes -/

theorem filter_ids {ids : List Nat} {none' : Nat} (hno : none' ∉ ids) (k : Nat → Bool) (es : List Entry) :
    ((es.filter fun l => k l.1).filter fun l => l.1 ∈ ids) =
      (es.filter fun l => l.1 ≠ none').filter fun l => decide (l.1 ∈ ids) && k l.1 := by
  rw [List.filter_filter, List.filter_filter]
  apply List.filter_congr
  intro l _
  by_cases h : l.1 ∈ ids
  · have : l.1 ≠ none' := fun he => hno (he ▸ h)
    simp [h, this]
  · simp [h]

/-- From the table to the graph, for links `links w` of every work after the change by a mode. -/
theorem read_graph {code : Token → Nat} {readLag : Token → Option Int} {readModel : Token → Bool} {o : Options} (ho : ¬ (o.all = true ∧ o.change = true))
    (hg : o.all = true ∨ o.granular = true)
    {past : Nat → List Past} {fuel : Nat} {table : List Raw} {works : List Work} (hw : List.Forall₂ (Written readLag readModel) table works)
    {sort : List (Nat × List (Nat × Int × EdgeType)) → List (Nat × List (Nat × Int × EdgeType))}
    {arrange : List Nat → List Nat} {start finish : Nat} (hne : works ≠ []) (hinj : Function.Injective code)
    (hnd : (works.map (·.id)).Nodup) (hno : noneElem ∉ works.map (·.id)) (hs : Sorts sort) (har : ∀ l, (arrange l).Perm l)
    (hst : start ∉ works.map fun w => code w.id) (hfi : finish ∉ works.map fun w => code w.id) (hsf : start ≠ finish)
    (hf : 5 * ((linksOf code o past works).flatMap (·.2)).length + 1 ≤ fuel) (links : Work → List Entry)
    (hl : ∀ w ∈ works, links w = (connectE o (code noneElem) (works.map fun w => code w.id) (past (code w.id)) (given code w)).filter
      fun l => l.1 ≠ code noneElem) :
    ∃ (keep : Nat → Nat → Bool) (rows : List Row) (g : Graph) (edges : List (Nat × Nat × Option Int)),
      readTable code readLag readModel o past fuel table = some (some rows) ∧
      workGraph sort arrange start finish rows = some g ∧ g.Project start (start :: finish :: works.map fun w => code w.id) ∧
      (∀ v ∈ start :: finish :: works.map fun w => code w.id, g.Reaches v finish) ∧
      (∀ w ∈ works, ∀ es, es = (((links w).filter fun l => decide (l.1 ∈ works.map fun w => code w.id) && keep l.1 (code w.id)).map
        fun l => (⟨l.1, code w.id, l.2.2.1, l.2.1⟩ : Edge)) → g.edgesTo (code w.id) = es ++
        if es.any fun e => e.type.Dependency then [] else [⟨start, code w.id, 0, .finishStart⟩]) ∧
      (∀ u v c, (u, v, c) ∈ edges ↔ ∃ w ∈ works, code w.id = v ∧ ∃ l ∈ links w, l.1 = u ∧ some l.2.2.2 = c) ∧
      ∀ w ∈ works, ∀ l ∈ links w, keep l.1 (code w.id) = false → LightestOnCycle edges l.1 (code w.id) := by
  have hids : (linksOf code o past works).map (·.1) = works.map fun w => code w.id := by
    unfold linksOf; rw [List.map_map]; rfl
  have hno' : code noneElem ∉ works.map fun w => code w.id := by
    intro h
    obtain ⟨w, hw, he⟩ := List.mem_map.mp h
    exact hno (hinj he ▸ List.mem_map_of_mem hw)
  obtain ⟨keep, rows, g, h1, h2, h3, h4, h5, h6⟩ := table_graph (sort := sort) (arrange := arrange) (start := start) (finish := finish)
    (none' := code noneElem) (linksOf code o past works) (by unfold linksOf; simpa using hne)
    (by
      rw [hids]
      have := (List.nodup_map_iff hinj).mpr hnd
      rwa [List.map_map] at this)
    (by rw [hids]; exact hno') hs har (by rw [hids]; exact hst) (by rw [hids]; exact hfi) hsf hf
  rw [hids] at h3 h4 h5
  have hmem : ∀ {w : Work}, w ∈ works → (code w.id, connectE o (code noneElem) (works.map fun w => code w.id) (past (code w.id))
      (given code w)) ∈ linksOf code o past works := fun hw => List.mem_map_of_mem hw
  refine ⟨keep, rows, g, rowEdges (code noneElem) ((linksOf code o past works).map aligned), by rw [readTable_eq ho hg hw]; exact h1, h2, h3, h4, fun w hw es hes => ?_, fun u v c => ?_,
    fun w hw l hlw hk => ?_⟩
  · refine h5 _ (hmem hw) es ?_
    rw [hes, hl w hw]
    unfold keptEdges
    rw [filter_ids hno' fun p => keep p (code w.id)]
  · rw [mem_rowEdges]
    constructor
    · rintro ⟨a, ha, rfl, l, hla, rfl, hn, hc⟩
      obtain ⟨w, hw, rfl⟩ := List.mem_map.mp ha
      exact ⟨w, hw, rfl, l, by rw [hl w hw, List.mem_filter]; exact ⟨hla, by simpa using hn⟩, rfl, hc⟩
    · rintro ⟨w, hw, rfl, l, hlw, rfl, hc⟩
      rw [hl w hw, List.mem_filter] at hlw
      exact ⟨_, hmem hw, rfl, l, hlw.1, rfl, by simpa using hlw.2, hc⟩
  · rw [hl w hw, List.mem_filter] at hlw
    exact h6 _ (hmem hw) l hlw.1 (by simpa using hlw.2) hk

/-- The links written for a work, without those to no work. -/
def proper (code : Token → Nat) (w : Work) : List Entry := (entries code w).filter fun l => l.1 ≠ code noneElem

theorem filter_given (code : Token → Nat) (w : Work) : (given code w).filter (fun l => l.1 ≠ code noneElem) = proper code w := by
  unfold given proper
  split
  · rename_i h
    simp [emptyEntry, entries, h]
  · rfl

/-- The entries of history for new links, in their order: the first one of every new predecessor. -/
def newLinks (works seen : List Nat) : List Past → List Past
  | [] => []
  | h :: hs => if h.pred ∉ seen ∧ h.pred ∈ works then h :: newLinks works (seen ++ [h.pred]) hs else newLinks works seen hs

theorem appendE_eq {none' : Nat} {works : List Nat} (hno : none' ∉ works) : ∀ (past : List Past) (es : List Entry),
    appendE none' works es past = es ++ (newLinks works (es.map (·.1)) past).map Past.entry
  | [], es => by simp [appendE, newLinks]
  | h :: hs, es => by
    rw [appendE, newLinks]
    by_cases hc : h.pred ∉ es.map (·.1) ∧ h.pred ∈ works
    · rw [if_pos ⟨hc.1, fun he => hno (he ▸ hc.2), hc.2⟩, if_pos hc, appendE_eq hno hs]
      simp [Past.entry]
    · rw [if_neg (fun h' => hc ⟨h'.1, h'.2.2⟩), if_neg hc]
      exact appendE_eq hno hs es

theorem newLinks_sublist (works : List Nat) : ∀ (past : List Past) (seen : List Nat), (newLinks works seen past).Sublist past
  | [], _ => .slnil
  | h :: hs, seen => by
    rw [newLinks]
    split
    · exact (newLinks_sublist works hs _).cons₂ h
    · exact (newLinks_sublist works hs _).cons h

theorem mem_newLinks {works : List Nat} : ∀ {past : List Past} {seen : List Nat} {h : Past},
    h ∈ newLinks works seen past ↔ h.pred ∉ seen ∧ h.pred ∈ works ∧ past.find? (·.pred = h.pred) = some h
  | [], seen, h => by simp [newLinks]
  | x :: xs, seen, h => by
    rw [newLinks, List.find?_cons]
    by_cases hc : x.pred ∉ seen ∧ x.pred ∈ works
    · rw [if_pos hc, List.mem_cons, mem_newLinks]
      by_cases hx : x.pred = h.pred
      · simp only [hx, decide_true, Option.some.injEq, List.mem_append, List.mem_singleton, or_true, not_true_eq_false, false_and,
          or_false]
        constructor
        · rintro rfl; exact ⟨hc.1, hc.2, rfl⟩
        · rintro ⟨_, _, h3⟩; exact h3.symm
      · have : h ≠ x := fun he => hx (by rw [he])
        simp [hx, this, Ne.symm hx]
    · rw [if_neg hc, mem_newLinks]
      by_cases hx : x.pred = h.pred
      · simp only [hx, decide_true, Option.some.injEq]
        constructor
        · rintro ⟨h1, h2, _⟩; exact absurd ⟨hx ▸ h1, hx ▸ h2⟩ hc
        · rintro ⟨h1, h2, _⟩; exact absurd ⟨hx ▸ h1, hx ▸ h2⟩ hc
      · simp [hx]

theorem newLinks_nodup {works : List Nat} : ∀ (past : List Past) (seen : List Nat), ((newLinks works seen past).map (·.pred)).Nodup
  | [], seen => by simp [newLinks]
  | h :: hs, seen => by
    rw [newLinks]
    split
    · rw [List.map_cons, List.nodup_cons]
      refine ⟨fun hm => ?_, newLinks_nodup hs _⟩
      obtain ⟨x, hx, he⟩ := List.mem_map.mp hm
      exact (mem_newLinks.mp hx).1 (by simp [he])
    · exact newLinks_nodup hs _

theorem newLinks_seen {works : List Nat} {none' : Nat} (hno : none' ∉ works) : ∀ (past : List Past) (s s' : List Nat),
    (∀ x, x ≠ none' → (x ∈ s ↔ x ∈ s')) → newLinks works s past = newLinks works s' past
  | [], _, _, _ => rfl
  | h :: hs, s, s', he => by
    rw [newLinks, newLinks]
    by_cases hw : h.pred ∈ works
    · have hn : h.pred ≠ none' := fun hx => hno (hx ▸ hw)
      simp only [he _ hn]
      split
      · rw [newLinks_seen hno hs (s ++ [h.pred]) (s' ++ [h.pred]) fun x hx => by simp [he x hx]]
      · exact newLinks_seen hno hs s s' he
    · rw [if_neg (fun h' => hw h'.2), if_neg (fun h' => hw h'.2)]
      exact newLinks_seen hno hs s s' he

end Sampo.Table
