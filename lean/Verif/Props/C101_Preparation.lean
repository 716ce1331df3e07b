import Verif.Spec.Preparation
import Verif.Props.C47_Generated
import Verif.Props.C66_History
import Verif.Props.C67_FrameRoundTrip
import Verif.Props.C87_Structure

/-!
# C101: the preparation pipeline builds the graph and the contractors that were given
-/

namespace Sampo.C101

open Table hiding given
open Preparation

variable {E : Env} {p : Prep} {works : List Work} {wg : Project} {history : Option History} {contractors : Info} {calls : List Call}

private theorem last_snoc {α : Type} {value : Call → Option α} {first x : α} {calls : List Call} {c : Call} (h : Last value first calls x) :
    Last value first (calls ++ [c]) ((value c).getD x) := by
  cases hv : value c with
  | some y => exact Or.inr ⟨calls, c, [], rfl, hv, by simp⟩
  | none =>
    rcases h with ⟨rfl, h⟩ | ⟨before, d, after, rfl, h1, h2⟩
    · refine Or.inl ⟨rfl, fun d hd => ?_⟩
      rcases List.mem_append.mp hd with hd | hd
      · exact h d hd
      · rw [List.mem_singleton.mp hd]; exact hv
    · refine Or.inr ⟨before, d, after ++ [c], by simp, h1, fun d hd => ?_⟩
      rcases List.mem_append.mp hd with hd | hd
      · exact h2 d hd
      · rw [List.mem_singleton.mp hd]; exact hv

/-- The pipeline works with what was given last, by the constructor or by calls in any order; the two options about history are on exactly
if they were called for. -/
theorem settings (h : After wg history contractors calls p) :
    Last Call.project wg calls p.wg ∧ Last Call.past (history.getD .none) calls p.history ∧ Last Call.info contractors calls p.contractors ∧
      Last Call.restruct none calls p.estimator ∧ (p.fix = true ↔ Call.fix ∈ calls) ∧ (p.fill = true ↔ Call.fill ∈ calls) := by
  unfold After at h
  subst h
  induction calls using List.reverseRecOn with
  | nil => exact ⟨Or.inl ⟨rfl, by simp⟩, Or.inl ⟨rfl, by simp⟩, Or.inl ⟨rfl, by simp⟩, Or.inl ⟨rfl, by simp⟩, by simp [new], by simp [new]⟩
  | append_singleton calls c ih =>
    obtain ⟨h1, h2, h3, h4, h5, h6⟩ := ih
    rw [List.foldl_append, List.foldl_cons, List.foldl_nil]
    generalize hq : calls.foldl apply (new wg history contractors) = q at h1 h2 h3 h4 h5 h6
    have g1 := last_snoc (c := c) h1
    have g2 := last_snoc (c := c) h2
    have g3 := last_snoc (c := c) h3
    have g4 := last_snoc (c := c) h4
    cases c <;> refine ⟨g1, g2, g3, g4, ?_, ?_⟩ <;> simp [apply, h5, h6]

private theorem build_of (hn : p.estimator = none) {rows : List Row} {g : Graph} (h : prepare E p = some (some rows))
    (hg : workGraph E.sort E.arrange E.start E.finish rows = some g) : buildWg E p = some (some g) := by
  unfold buildWg
  rw [h, hn]
  show some ((workGraph E.sort E.arrange E.start E.finish rows).bind _) = _
  rw [hg]
  rfl

private theorem prepare_of {linked : Bool} {table : List Raw} (hw : p.wg = .frame linked table)
    (hl : linked = true ∨ p.history.rows = true) : prepare E p =
      readTable E.code E.readLag E.readModel ⟨!p.fix && !p.fill, p.fix, p.history.granular⟩ p.history.past E.fuel table := by
  unfold prepare
  rw [hw]
  show readInfo E p linked table = _
  unfold readInfo
  rw [if_neg]
  rcases hl with h | h <;> simp [h]

private theorem sums {code : Token → Nat} {past : Nat → List Past} : ∀ {works : List Work},
    (works.map fun w => w.links.length + 1).sum ≤ (works.map fun w => w.links.length + (past (code w.id)).length + 1).sum
  | [] => by simp
  | w :: works => by
    have := sums (code := code) (past := past) (works := works)
    simp only [List.map_cons, List.sum_cons]
    omega

/-- Without the two options the graph has exactly the works and links of the table, a start and a finish, whatever history was given.
(No work comes before itself over links of the table.) -/
theorem only_the_table (hr : Reads E p works) (hf : Enough E p works) (hfix : p.fix = false) (hfill : p.fill = false)
    (hn : p.estimator = none) (hac : ∀ v, ¬ Relation.TransGen (Precedes works) v v) :
    ∃ g, buildWg E p = some (some g) ∧ g.Project E.start (E.start :: E.finish :: works.map fun w => E.code w.id) ∧
      ∀ w ∈ works, EdgesInto g E.start (E.code w.id) ((w.links.filter fun l => l.pred ∈ works.map (·.id)).map (Link.edge E.code w.id)) := by
  obtain ⟨linked, table, hw, hl, hs⟩ := hr.table
  unfold Enough at hf
  have hsum := sums (code := E.code) (past := p.history.past) (works := works)
  obtain ⟨rows, g, h1, h2, h3, -, h5⟩ := C65.acyclic_table_to_graph (fuel := E.fuel) (o := ⟨true, false, p.history.granular⟩)
    (past := p.history.past) hs (Or.inl ⟨rfl, rfl⟩) (by omega) hac
  refine ⟨g, build_of hn ?_ h2, h3, h5⟩
  rw [prepare_of hw hl, hfix, hfill]
  exact h1

/-- With the option to fill up, and not the one to change links, the graph has the works of the table; the links of every work are those of
the table, unchanged, followed by links that history adds. -/
theorem fill_keeps_links (hr : Reads E p works) (hf : Enough E p works) (hfix : p.fix = false) (hfill : p.fill = true)
    (hg : p.history.granular = true) (hn : p.estimator = none) (hc : ∀ v, ∀ h ∈ p.history.past v, h.count < maxCount)
    (hac : ∀ v, ¬ Relation.TransGen (Precedes works) v v) :
    ∃ (kept : Nat → Nat → Bool) (g : Graph), buildWg E p = some (some g) ∧
      g.Project E.start (E.start :: E.finish :: works.map fun w => E.code w.id) ∧
      ∀ w ∈ works, ∃ new,
        NewLinks (works.map fun w => E.code w.id) (w.links.map fun l => E.code l.pred) (p.history.past (E.code w.id)) new ∧
        EdgesInto g E.start (E.code w.id)
          (((w.links.filter fun l => l.pred ∈ works.map (·.id)).map (Link.edge E.code w.id)) ++
            (new.filter fun h => kept h.pred (E.code w.id)).map (Past.edge (E.code w.id))) := by
  obtain ⟨linked, table, hw, hl, hs⟩ := hr.table
  obtain ⟨kept, rows, g, h1, h2, h3, h4⟩ := C66.own_links_stay hs hf hc hac
  refine ⟨kept, g, build_of hn ?_ h2, h3, h4⟩
  rw [prepare_of hw hl, hfix, hfill, hg]
  exact h1

/-- With the option to change links, the links of every work are those of the table, with the types and lags that history gives, and
**also** links that history adds; links are given up only if they have the smallest number of records on a cycle. -/
theorem fix_changes_links (hr : Reads E p works) (hf : Enough E p works) (hfix : p.fix = true) (hg : p.history.granular = true)
    (hn : p.estimator = none) :
    ∃ (kept : Nat → Nat → Bool) (g : Graph) (edges : List (Nat × Nat × Option Int)), buildWg E p = some (some g) ∧
      g.Project E.start (E.start :: E.finish :: works.map fun w => E.code w.id) ∧
      (∀ w ∈ works, ∃ new,
        NewLinks (works.map fun w => E.code w.id) (w.links.map fun l => E.code l.pred) (p.history.past (E.code w.id)) new ∧
        EdgesInto g E.start (E.code w.id)
          (((w.links.filter fun l => l.pred ∈ works.map (·.id) ∧ kept (E.code l.pred) (E.code w.id)).map
              (Link.edgeBy E.code p.history.past w.id)) ++
            (new.filter fun h => kept h.pred (E.code w.id)).map (Past.edge (E.code w.id)))) ∧
      C66.Weighted E.code works p.history.past true edges ∧
      ∀ u v, EdgeTo edges u v → kept u v = false → LightestOnCycle edges u v := by
  obtain ⟨linked, table, hw, hl, hs⟩ := hr.table
  obtain ⟨kept, rows, g, edges, h1, h2, h3, -, h5, h6, h7⟩ := C66.links_with_history (change := true) hs hf
  refine ⟨kept, g, edges, build_of hn ?_ h2, h3, h5, h6, h7⟩
  rw [prepare_of hw hl, hfix, hg]
  exact h1

/-- Not proved because false: "the option to fill up matters if the one to change links is on".  It makes no difference. -/
theorem fill_without_effect (hfix : p.fix = true) :
    buildWg E { p with fill := true } = buildWg E p ∧ buildBoth E { p with fill := true } = buildBoth E p := by
  have : prepare E { p with fill := true } = prepare E p := by
    unfold prepare readInfo
    simp only [hfix, Bool.not_true, Bool.false_and]
  unfold buildWg buildBoth
  rw [this]
  exact ⟨rfl, rfl⟩

/-- Without history, and without a column for links, both methods raise. -/
theorem no_links_raise {table : List Raw} (hw : p.wg = .frame false table) (hr : p.history.rows = false) :
    buildWg E p = some none ∧ buildBoth E p = some none := by
  have : prepare E p = some none := by
    unfold prepare
    rw [hw]
    simp [readInfo, hr]
  unfold buildWg buildBoth
  rw [this]
  exact ⟨rfl, rfl⟩

/-- Not proved because false: "history is optional".  With one of the two options and no history, or one without a column `granular_name`,
both methods raise. -/
theorem history_needed {linked : Bool} {table : List Raw} (hw : p.wg = .frame linked table) (hopt : p.fix = true ∨ p.fill = true)
    (hg : p.history.granular = false) : buildWg E p = some none ∧ buildBoth E p = some none := by
  have : prepare E p = some none := by
    unfold prepare
    rw [hw]
    show readInfo E p linked table = _
    unfold readInfo
    split
    · rfl
    · unfold readTable
      split
      · rfl
      · rw [if_pos]
        rcases hopt with h | h <;> simp [h, hg]
  unfold buildWg buildBoth
  rw [this]
  exact ⟨rfl, rfl⟩

/-- Not proved because false: "the project can be given as a work graph".  For every work graph with a work both methods raise. -/
theorem graph_raises {g : Graph} {start finish : Nat} {nodes : List Nat} (units : Nat → Json.WorkUnit)
    (hd : E.dump = fun v => Json.dumpd Json.classes (units v).val) (hw : p.wg = .graph g start finish nodes)
    (hn : ∃ v ∈ nodes, v ≠ start ∧ v ≠ finish) : buildWg E p = some none ∧ buildBoth E p = some none := by
  have : prepare E p = some none := by
    unfold prepare
    rw [hw]
    dsimp only
    rw [hd, C67.frame_not_made units hn]
  unfold buildWg buildBoth
  rw [this]
  exact ⟨rfl, rfl⟩

/-! ### The contractors -/

private theorem both_of {rows : List Row} {g : Graph} {cs : List Party} (h : prepare E p = some (some rows))
    (hg : workGraph E.sort E.arrange E.start E.finish rows = some g) (hcs : given E p.contractors = some cs) :
    buildBoth E p = some ((if cs.isEmpty then generate E g p.contractors else some cs).map fun cs => (g, cs)) := by
  unfold buildBoth
  rw [h, hcs]
  show some ((workGraph E.sort E.arrange E.start E.finish rows).bind _) = _
  rw [hg]
  rfl

/-- Without a structure estimator, and with at least one contractor in the list, `build_wg_and_contractors` gives the graph of `build_wg`
and exactly the contractors given. -/
theorem same_graph (hn : p.estimator = none) {cs : List Party} (hc : p.contractors = .list cs) (hne : cs ≠ []) (g : Graph) (cs' : List Party) :
    buildBoth E p = some (some (g, cs')) ↔ buildWg E p = some (some g) ∧ cs' = cs := by
  unfold buildBoth buildWg
  rw [hn, hc]
  have he : cs.isEmpty = false := by cases cs with | nil => exact absurd rfl hne | cons _ _ => rfl
  cases prepare E p with
  | none => simp
  | some r =>
    cases r with
    | none => simp
    | some rows =>
      cases hg : workGraph E.sort E.arrange E.start E.finish rows with
      | none => simp [given, hg]
      | some g' =>
        simp only [given, Option.map_some, Option.bind_some, hg, he, Bool.false_eq_true, if_false, Option.some.injEq, Prod.mk.injEq]
        exact ⟨fun h => ⟨h.1, h.2.symm⟩, fun h => ⟨h.1, h.2.symm⟩⟩

private theorem workersOf_spec {int : String → Option Int} : ∀ {xs : List (String × String)} {ws : List (String × Int)},
    ws.map (·.1) = xs.map (·.1) → (∀ (i : Nat) (w : String × Int), ws[i]? = some w → ∃ x, xs[i]? = some x ∧ int x.2 = some w.2) →
    workersOf int xs = some ws
  | [], [], _, _ => rfl
  | [], _ :: _, h, _ => by simp at h
  | _ :: _, [], h, _ => by simp at h
  | x :: xs, w :: ws, h, hc => by
    rw [List.map_cons, List.map_cons, List.cons.injEq] at h
    obtain ⟨y, hy, hi⟩ := hc 0 w rfl
    have hy : x = y := by simpa using hy
    subst hy
    unfold workersOf
    rw [hi, workersOf_spec h.2 fun i w' hw => hc (i + 1) w' (by simpa using hw)]
    show some ((x.1, w.2) :: ws) = _
    rw [← h.1]

private theorem party_described {f : ContractorFile} {kinds : List String} (hcol : f.columns = "contractor_id" :: "name" :: kinds) {i : Nat}
    {row : List String} {c : Party} (h : Describes E kinds row c) : partyOf E f i row = some c := by
  obtain ⟨h1, h2, h3, h4, h5⟩ := h
  match row, h1, h2, h3, h5 with
  | [], h1, _, _, _ => simp at h1
  | [_], h1, _, _, _ => simp at h1
  | a :: b :: cells, h1, h2, h3, h5 =>
    have ha : a = c.id := by simpa using h2
    have hb : b = c.name := by simpa using h3
    have hlen : cells.length = kinds.length := by simpa using h1
    have hw : workersOf E.int (kinds.zip cells) = some c.workers := by
      refine workersOf_spec ?_ fun i w hw => ?_
      · rw [h4, List.map_fst_zip (by omega)]
      · obtain ⟨t, ht, hi⟩ := h5 i w hw
        have hk : kinds[i]? = some w.1 := by rw [← h4, List.getElem?_map, hw]; rfl
        refine ⟨(w.1, t), ?_, hi⟩
        have ht : cells[i]? = some t := by simpa using ht
        rw [List.getElem?_zip_eq_some]
        exact ⟨hk, ht⟩
    unfold partyOf cell
    rw [hcol, if_pos (by simp), if_pos (by simp)]
    show (some a).bind _ = _
    have hl : List.lookup "name" (("contractor_id" :: "name" :: kinds).zip (a :: b :: cells)) = some b := by
      simp [List.lookup]
    rw [hl]
    show (workersOf E.int (kinds.zip cells)).map _ = _
    rw [hw, ha, hb]
    rfl

/-- A file whose first columns are the id and the name, and whose cells behind are numbers: the contractors are those of the rows, in
their order, with id, name and, for every further column, a type of workers with this number; the graph is that of `build_wg`. -/
theorem contractors_of_file (hn : p.estimator = none) {f : ContractorFile} (hc : p.contractors = .file f) {kinds : List String}
    (hcol : f.columns = "contractor_id" :: "name" :: kinds) {cs : List Party} (hd : List.Forall₂ (Describes E kinds) f.rows cs)
    (hne : f.rows ≠ []) (g : Graph) (cs' : List Party) :
    buildBoth E p = some (some (g, cs')) ↔ buildWg E p = some (some g) ∧ cs' = cs := by
  have key : ∀ {rows : List (List String)} {cs : List Party} (i : Nat), List.Forall₂ (Describes E kinds) rows cs →
      partiesOf E f i rows = some cs := by
    intro rows cs i h
    induction h generalizing i with
    | nil => rfl
    | cons h1 _ ih =>
      unfold partiesOf
      rw [party_described hcol h1, ih]
      rfl
  have hcs : cs ≠ [] := by
    rintro rfl
    exact hne (List.forall₂_nil_right_iff.mp hd)
  have : buildBoth E p = buildBoth E { p with contractors := .list cs } := by
    unfold buildBoth
    have h1 : given E p.contractors = some cs := by rw [hc]; exact key 0 hd
    rw [h1]
    show (prepare E p).map _ = (prepare E p).map _
    have he : ¬ cs = [] := hcs
    simp [given, he]
  rw [this]
  exact same_graph (p := { p with contractors := .list cs }) hn rfl hcs g cs'

private theorem party_without_id {f : ContractorFile} {kinds : List String} (hcol : f.columns = "name" :: kinds)
    (hid : "contractor_id" ∉ kinds) {i : Nat} {row : List String} {c : Party} (h : DescribesWithoutId E kinds row c)
    (hc : c.id = E.fresh i) : partyOf E f i row = some c := by
  obtain ⟨h1, h3, h4, h5⟩ := h
  match row, h1, h3, h5 with
  | [], h1, _, _ => simp at h1
  | b :: cells, h1, h3, h5 =>
    have hb : b = c.name := by simpa using h3
    have hlen : cells.length = kinds.length := by simpa using h1
    have hw : workersOf E.int (kinds.zip cells) = some c.workers := by
      refine workersOf_spec ?_ fun i w hw => ?_
      · rw [h4, List.map_fst_zip (by omega)]
      · obtain ⟨t, ht, hi⟩ := h5 i w hw
        have hk : kinds[i]? = some w.1 := by rw [← h4, List.getElem?_map, hw]; rfl
        refine ⟨(w.1, t), ?_, hi⟩
        have ht : cells[i]? = some t := by simpa using ht
        rw [List.getElem?_zip_eq_some]
        exact ⟨hk, ht⟩
    have hno : "contractor_id" ∉ "name" :: kinds := by simp [hid]
    unfold partyOf cell
    rw [hcol, if_neg hno, if_neg hno]
    show (some (E.fresh i)).bind _ = _
    have hl : List.lookup "name" (("name" :: kinds).zip (b :: cells)) = some b := by
      simp [List.lookup]
    rw [hl]
    show (workersOf E.int (kinds.zip cells)).map _ = _
    rw [hw, hb, ← hc]
    rfl

/-- A file without a column for the id, whose first column is the name: the contractors are those of the rows, in their order, the one
of row `i` with the `i`-th random id. -/
theorem contractors_without_ids (hn : p.estimator = none) {f : ContractorFile} (hc : p.contractors = .file f) {kinds : List String}
    (hcol : f.columns = "name" :: kinds) (hid : "contractor_id" ∉ kinds) {cs : List Party}
    (hd : List.Forall₂ (DescribesWithoutId E kinds) f.rows cs) (hfresh : ∀ (i : Nat) (c : Party), cs[i]? = some c → c.id = E.fresh i)
    (hne : f.rows ≠ []) (g : Graph) (cs' : List Party) :
    buildBoth E p = some (some (g, cs')) ↔ buildWg E p = some (some g) ∧ cs' = cs := by
  have key : ∀ {rows : List (List String)} {cs : List Party} (i : Nat), List.Forall₂ (DescribesWithoutId E kinds) rows cs →
      (∀ (j : Nat) (c : Party), cs[j]? = some c → c.id = E.fresh (i + j)) → partiesOf E f i rows = some cs := by
    intro rows cs i h hf
    induction h generalizing i with
    | nil => rfl
    | cons h1 _ ih =>
      unfold partiesOf
      rw [party_without_id (i := i) hcol hid h1 (hf 0 _ rfl), ih (i + 1) fun j c hj => by rw [Nat.add_right_comm]; exact hf (j + 1) c (by simpa using hj)]
      rfl
  have hcs : cs ≠ [] := by
    rintro rfl
    exact hne (List.forall₂_nil_right_iff.mp hd)
  have : buildBoth E p = buildBoth E { p with contractors := .list cs } := by
    unfold buildBoth
    have h1 : given E p.contractors = some cs := by rw [hc]; exact key 0 hd fun j c hj => by rw [Nat.zero_add]; exact hfresh j c hj
    rw [h1]
    show (prepare E p).map _ = (prepare E p).map _
    have he : ¬ cs = [] := hcs
    simp [given, he]
  rw [this]
  exact same_graph (p := { p with contractors := .list cs }) hn rfl hcs g cs'

/-- Contractors generated for the graph: as many as asked for, and each owns, for every requirement of every work, at least the bound
chosen. -/
theorem generated_contractors {m : Pipeline.Method} {number : Nat} {scaler : ℚ} (hc : p.contractors = .generate m number scaler)
    (hk : Function.Injective E.kind) {g : Graph} {cs : List Party} (h : buildBoth E p = some (some (g, cs)))
    (hall : ∀ reqs ∈ E.reqsOf g, ∀ r ∈ reqs, 0 ≤ r.minCount ∧ 0 ≤ r.maxCount) :
    cs.length = number ∧ (cs.map (·.id)) = (List.range number).map toString ∧
      ∀ c ∈ cs, ∀ reqs ∈ E.reqsOf g, ∀ r ∈ reqs, ∃ n, c.workers.lookup (E.kind r.kind) = some n ∧ Pipeline.boundOf m r ≤ n := by
  unfold buildBoth at h
  obtain ⟨r, hr, h⟩ := Option.map_eq_some_iff.mp h
  obtain ⟨rows, -, h⟩ := Option.bind_eq_some_iff.mp h
  obtain ⟨cs0, hcs0, h⟩ := Option.bind_eq_some_iff.mp h
  obtain ⟨g', hg, h⟩ := Option.bind_eq_some_iff.mp h
  rw [hc] at hcs0 h
  have hcs0 : [] = cs0 := by simpa [given] using hcs0
  subst hcs0
  obtain ⟨cs', h', he⟩ := Option.map_eq_some_iff.mp h
  obtain ⟨rfl, rfl⟩ := Prod.mk.inj he
  rw [List.isEmpty_nil, if_pos rfl] at h'
  have h' : (List.range number).mapM (fun i => (Pipeline.contractorByGraph i (E.reqsOf g') scaler m).map fun c =>
      (⟨toString i, "Contractor " ++ toString (i + 1), c.workers.map fun w => (E.kind w.1, w.2)⟩ : Party)) = some cs' := h'
  have hf := Pipeline.mapM_some h'
  have hid : ∀ {is : List Nat} {ds : List Party}, List.Forall₂ (fun i d => (Pipeline.contractorByGraph i (E.reqsOf g') scaler m).map (fun c =>
      (⟨toString i, "Contractor " ++ toString (i + 1), c.workers.map fun w => (E.kind w.1, w.2)⟩ : Party)) = some d) is ds →
      ds.map (·.id) = is.map toString ∧ ∀ d ∈ ds, ∃ i c, Pipeline.contractorByGraph i (E.reqsOf g') scaler m = some c ∧
        d.workers = c.workers.map fun w => (E.kind w.1, w.2) := by
    intro is ds hf
    induction hf with
    | nil => exact ⟨rfl, by simp⟩
    | cons h1 _ ih =>
      obtain ⟨c, hc, rfl⟩ := Option.map_eq_some_iff.mp h1
      refine ⟨by simp [ih.1], fun d hd => ?_⟩
      rcases List.mem_cons.mp hd with rfl | hd
      · exact ⟨_, c, hc, rfl⟩
      · exact ih.2 d hd
  refine ⟨by rw [← hf.length_eq]; exact List.length_range, (hid hf).1, fun c hcm reqs hreqs r hr => ?_⟩
  obtain ⟨i, d, hd, hw⟩ := (hid hf).2 c hcm
  obtain ⟨n, h1, h2⟩ := C47.owns_bound hd reqs hreqs r hr (hall reqs hreqs r hr).1 (hall reqs hreqs r hr).2
  refine ⟨n, ?_, h2⟩
  rw [hw]
  have hl : ∀ ws : List (Nat × Int), (ws.map fun w => (E.kind w.1, w.2)).lookup (E.kind r.kind) = ws.lookup r.kind := by
    intro ws
    induction ws with
    | nil => rfl
    | cons w ws ih =>
      rw [List.map_cons, List.lookup_cons, List.lookup_cons, ih]
      have : (E.kind r.kind == E.kind w.1) = (r.kind == w.1) := by
        rw [Bool.eq_iff_iff]
        simp [hk.eq_iff]
      rw [this]
  rw [hl]
  exact h1

/-- Not proved because false: "contractors are optional and can be given as a data frame".  Without contractors (as by default), with an
empty list, a file without rows or a data frame, `build_wg_and_contractors` never gives anything. -/
theorem contractors_needed (hc : p.contractors = .missing ∨ p.contractors = .list [] ∨ (∃ f, p.contractors = .frame f) ∨
    ∃ f, p.contractors = .file f ∧ f.rows = []) (x : Graph × List Party) : buildBoth E p ≠ some (some x) := by
  intro h
  unfold buildBoth at h
  obtain ⟨r, hr, h⟩ := Option.map_eq_some_iff.mp h
  obtain ⟨rows, -, h⟩ := Option.bind_eq_some_iff.mp h
  obtain ⟨cs0, hcs0, h⟩ := Option.bind_eq_some_iff.mp h
  obtain ⟨g', hg, h⟩ := Option.bind_eq_some_iff.mp h
  have hcs0' : cs0 = [] ∧ generate E g' p.contractors = none := by
    rcases hc with hc | hc | ⟨f, hc⟩ | ⟨f, hc, hf⟩ <;> rw [hc] at hcs0 ⊢
    · exact ⟨by simpa [given] using hcs0.symm, rfl⟩
    · exact ⟨by simpa [given] using hcs0.symm, rfl⟩
    · exact ⟨by simpa [given] using hcs0.symm, rfl⟩
    · have hcs0 : partiesOf E f 0 f.rows = some cs0 := hcs0
      rw [hf] at hcs0
      exact ⟨by simpa [partiesOf] using hcs0.symm, rfl⟩
  rw [hcs0'.1, hcs0'.2] at h
  simp at h

/-! ### The structure estimator -/

/-- With the structure estimator of the library, and without the two options: the graph has the works of the table, a start, a finish and
the generated works; every work of the table has exactly its links. -/
theorem estimator_adds_works {σ Zones Workers : Type} {S : Structure.Env σ Zones Workers} {s : σ}
    {g' : Graph} (hr : Reads E p works) (hf : Enough E p works) (hfix : p.fix = false) (hfill : p.fill = false)
    (hac : ∀ v, ¬ Relation.TransGen (Precedes works) v v)
    (hest : p.estimator = some fun g => (Structure.restruct S g (E.start :: E.finish :: works.map fun w => E.code w.id) E.finish s).map (·.1))
    (hid : C87.NewIds S (E.start :: E.finish :: works.map fun w => E.code w.id)) (hsv : S.service E.finish = true)
    (h : buildWg E p = some (some g')) :
    ∃ cs : List (Structure.Sub Zones Workers),
      g'.Project E.start ((E.start :: E.finish :: works.map fun w => E.code w.id) ++ cs.map (·.id)) ∧
      ∀ w ∈ works, EdgesInto g' E.start (E.code w.id) ((w.links.filter fun l => l.pred ∈ works.map (·.id)).map (Link.edge E.code w.id)) := by
  obtain ⟨linked, table, hw, hl, hs⟩ := hr.table
  unfold Enough at hf
  have hsum := sums (code := E.code) (past := p.history.past) (works := works)
  obtain ⟨rows, g, h1, h2, h3, h4, h5⟩ := C65.acyclic_table_to_graph (fuel := E.fuel) (o := ⟨true, false, p.history.granular⟩)
    (past := p.history.past) hs (Or.inl ⟨rfl, rfl⟩) (by omega) hac
  have hpr : prepare E p = some (some rows) := by
    rw [prepare_of hw hl, hfix, hfill]
    exact h1
  unfold buildWg at h
  rw [hpr, hest] at h
  have h : (workGraph E.sort E.arrange E.start E.finish rows).bind
      (fun g => (Structure.restruct S g (E.start :: E.finish :: works.map fun w => E.code w.id) E.finish s).map (·.1)) = some g' := by
    simpa using h
  rw [h2] at h
  obtain ⟨⟨g'', cs⟩, h', rfl⟩ := Option.map_eq_some_iff.mp h
  have hfm : E.finish ∈ E.start :: E.finish :: works.map fun w => E.code w.id := by simp
  have hlast : g.edgesFrom E.finish = [] := by
    by_contra hne
    obtain ⟨e, he⟩ := List.exists_mem_of_ne_nil _ hne
    have hst := h3.linked.start E.finish e he
    have hto := (h3.linked.both e).2 (by rw [hst]; exact he)
    have hmem := (h3.closed E.finish hfm).2 e he
    exact h3.acyclic E.finish hfm (Relation.TransGen.head' ⟨e, hto, hst⟩ (h4 _ hmem))
  have hends : C87.Ends S g (E.start :: E.finish :: works.map fun w => E.code w.id) E.finish := ⟨hfm, hsv, hlast⟩
  refine ⟨cs, (C87.work_graph h3 hid hends h').1, fun w hwm => ?_⟩
  have hne : E.code w.id ≠ E.finish := fun he => hs.finish_new (he ▸ List.mem_map_of_mem (f := fun w => E.code w.id) hwm)
  have := (C87.works_kept h3 hid hfm h').1 (E.code w.id) (by simp; exact Or.inr (Or.inr ⟨w, hwm, rfl⟩)) hne
  have h5 := h5 w hwm
  unfold EdgesInto at h5 ⊢
  rw [this]
  exact h5

/-- Not proved because false: "`build_wg_and_contractors` applies the structure estimator".  What it gives does not depend on it. -/
theorem estimator_ignored (e : Option (Graph → Option Graph)) : buildBoth E { p with estimator := e } = buildBoth E p := rfl

/-! ### Examples -/

private def text (s : String) : Cell := some s.toList

private def demoTable : List Raw :=
  [⟨"a".toList, "m".toList, none, none, none⟩, ⟨"b".toList, "m".toList, text "a", text "FFS", text "3"⟩]

private def demoWorks : List Work := [⟨"a".toList, []⟩, ⟨"b".toList, [⟨"a".toList, .lagFinishStart, 3⟩]⟩]

private def demoEnv (sort : List (Nat × List (Nat × Int × EdgeType)) → List (Nat × List (Nat × Int × EdgeType))) : Env where
  code := number
  readLag := readDigit
  readModel m := !m.isEmpty
  sort := sort
  arrange := id
  start := 1
  finish := 2
  fuel := 100
  dump _ := none
  name _ := []
  writeLag _ := []
  reqsOf _ := [[⟨0, 2, 4⟩], [⟨1, 1, 3⟩, ⟨0, 3, 3⟩]]
  kind n := "worker" ++ toString n
  fresh i := "new" ++ toString i
  int s := if isNumber s.toList then some (value s.toList) else none

/-- The default pipeline for a table with links. -/
private def demo : Prep := new (.frame true demoTable) none .missing

/-- The hypotheses can be met: a table of two works, one of which follows the other. -/
example : ∃ sort, Reads (demoEnv sort) demo demoWorks ∧ Enough (demoEnv sort) demo demoWorks ∧ demo.fix = false ∧ demo.fill = false ∧
    demo.estimator = none ∧ ∀ v, ¬ Relation.TransGen (Precedes demoWorks) v v := by
  obtain ⟨sort, hs⟩ := sorts_exist
  have plain : ∀ t : Token, t ≠ [] ∧ ',' ∉ t ∧ t ≠ "nan".toList → Plain t := fun t h => ⟨h.1, h.2.1, h.2.2⟩
  refine ⟨sort, ⟨true, demoTable, rfl, Or.inl rfl, ?_⟩, (by decide : 5 * ((demoWorks.map fun w => w.links.length + ((fun _ => [] : Nat → List Past) (number w.id)).length + 1).sum) + 1 ≤ 100), rfl, rfl, rfl, fun v hv => ?_⟩
  · refine ⟨?_, number_injective, by simp [demoWorks], by decide, by decide, hs, fun _ => .refl _,
      (by decide +kernel : 1 ∉ demoWorks.map fun w => number w.id), (by decide +kernel : 2 ∉ demoWorks.map fun w => number w.id), (by decide : 1 ≠ 2)⟩
    refine .cons ⟨rfl, rfl, ⟨[], Or.inl ⟨rfl, Or.inl rfl⟩, .nil⟩, Or.inl ⟨rfl, Or.inl rfl⟩, ⟨[], Or.inl ⟨rfl, Or.inl rfl⟩, .nil⟩⟩ ?_
    exact .cons ⟨rfl, rfl, ⟨["a".toList], Or.inr ⟨by simp, rfl⟩, .cons ⟨plain _ (by decide), by decide⟩ .nil⟩, Or.inr ⟨by simp, rfl⟩,
      ⟨["3".toList], Or.inr ⟨by simp, rfl⟩, .cons ⟨plain _ (by decide), (by decide : readDigit "3".toList = some 3)⟩ .nil⟩⟩ .nil
  · have step : ∀ x y, Precedes demoWorks x y → x = "a".toList ∧ y = "b".toList := by
      rintro x y ⟨w, hw, rfl, l, hl, rfl⟩
      rcases List.mem_cons.mp hw with rfl | hw
      · cases hl
      · rw [List.mem_singleton.mp hw] at hl ⊢
        rw [List.mem_singleton.mp hl]
        exact ⟨rfl, rfl⟩
    have : ∀ x y, Relation.TransGen (Precedes demoWorks) x y → x = "a".toList ∧ y = "b".toList := by
      intro x y h
      induction h with
      | single h => exact step _ _ h
      | tail _ h ih => exact ⟨ih.1, (step _ _ h).2⟩
    obtain ⟨h1, h2⟩ := this v v hv
    rw [h1] at h2
    exact absurd h2 (by decide)

private def crew : ContractorFile := ⟨["contractor_id", "name", "worker0", "worker1"], [["c1", "First", "5", "2"], ["c2", "Second", "0", "7"]]⟩

/-- A file of two contractors, and how many edges the work `b` has. -/
example : ((buildBoth (demoEnv id) ([Call.contractors (.file crew)].foldl apply demo)).map fun r => r.map fun x =>
      (x.1.edgesTo (number "b".toList), x.2)) =
    some (some ([⟨number "a".toList, number "b".toList, 3, .lagFinishStart⟩],
      [⟨"c1", "First", [("worker0", 5), ("worker1", 2)]⟩, ⟨"c2", "Second", [("worker0", 0), ("worker1", 7)]⟩])) := by decide +kernel

/-- A file of two contractors without ids. -/
example : ((buildBoth (demoEnv id) ([Call.contractors (.file ⟨["name", "worker0"], [["First", "5"], ["Second", "3"]]⟩)].foldl apply demo)).map
      fun r => r.map fun x => x.2) =
    some (some [⟨"new0", "First", [("worker0", 5)]⟩, ⟨"new1", "Second", [("worker0", 3)]⟩]) := by decide +kernel

example : DescribesWithoutId (demoEnv id) ["worker0"] ["First", "5"] ⟨"new0", "First", [("worker0", 5)]⟩ := by
  refine ⟨rfl, rfl, rfl, fun i w hw => ?_⟩
  match i with
  | 0 => exact ⟨"5", rfl, by simp at hw; subst hw; decide +kernel⟩
  | i + 1 => simp at hw

/-- The rows describe these contractors. -/
example : List.Forall₂ (Describes (demoEnv id) ["worker0", "worker1"]) crew.rows
    [⟨"c1", "First", [("worker0", 5), ("worker1", 2)]⟩, ⟨"c2", "Second", [("worker0", 0), ("worker1", 7)]⟩] := by
  have key : ∀ (row : List String) (c : Party) (a b : String) (x y : String × Int), row = [c.id, c.name, a, b] → c.workers = [x, y] →
      [x.1, y.1] = ["worker0", "worker1"] → (demoEnv id).int a = some x.2 → (demoEnv id).int b = some y.2 →
      Describes (demoEnv id) ["worker0", "worker1"] row c := by
    intro row c a b x y h1 h2 h3 h4 h5
    subst h1
    refine ⟨rfl, rfl, rfl, by rw [h2]; exact h3, fun i w hw => ?_⟩
    rw [h2] at hw
    match i with
    | 0 => exact ⟨a, rfl, by rw [h4]; simp at hw; rw [hw]⟩
    | 1 => exact ⟨b, rfl, by rw [h5]; simp at hw; rw [hw]⟩
    | i + 2 => simp at hw
  exact .cons (key _ _ "5" "2" _ _ rfl rfl rfl (by decide +kernel) (by decide +kernel))
    (.cons (key _ _ "0" "7" _ _ rfl rfl rfl (by decide +kernel) (by decide +kernel)) .nil)

/-- Not proved because false: "the columns may be in any order".  With the id as the last column, the first type of workers is taken for
it and lost, and the id becomes a number of workers. -/
theorem misplaced_id_loses_workers :
    (buildBoth (demoEnv id) ([Call.contractors (.file ⟨["name", "worker0", "contractor_id"], [["First", "5", "17"]]⟩)].foldl apply demo)).map
      (fun r => r.map (·.2)) = some (some [⟨"17", "First", [("contractor_id", 17)]⟩]) := by decide +kernel

/-- Contractors generated for the requirements; nothing without contractors, as by default. -/
example : (buildBoth (demoEnv id) demo).map (fun r => r.map (·.2)) = some none := by decide +kernel

/-- A structure estimator that raises makes `build_wg` raise, and not `build_wg_and_contractors`. -/
example : let p := [Call.contractors (.file crew), .estimator fun _ => none].foldl apply demo
    (buildWg (demoEnv id) p).map (fun r => r.isSome) = some false ∧ (buildBoth (demoEnv id) p).map (fun r => r.isSome) = some true := by
  decide +kernel

end Sampo.C101
