import Verif.Lemmas.TableRead
import Verif.Lemmas.TableSort

/-!
# C66: what the links of a table become with links from history

`past v` are the links that history gives for the work `v`: predecessor, type, lag and the number of records (C67).
-/

namespace Sampo.C66

open Table

variable {code : Token → Nat} {readLag : Token → Option Int} {readModel : Token → Bool} {table : List Raw} {works : List Work}
  {sort : List (Nat × List (Nat × Int × EdgeType)) → List (Nat × List (Nat × Int × EdgeType))} {arrange : List Nat → List Nat}
  {start finish fuel : Nat} {change : Bool} {past : Nat → List Past}

/-- The links of a work after the change, with the numbers of its predecessors. -/
private def links (code : Token → Nat) (past : Nat → List Past) (change : Bool) (ids : List Nat) (w : Work) : List Entry :=
  (if change then (proper code w).map (updateE (past (code w.id))) else proper code w) ++
    (newLinks ids (w.links.map fun l => code l.pred) (past (code w.id))).map Past.entry

private theorem updateE_pastOr {none' : Nat} {past : List Past} {e : Entry} (h : e.1 ≠ none') :
    updateE (pastOr none' past) e = updateE past e := by
  unfold pastOr
  split
  · rename_i hp
    rw [List.isEmpty_iff] at hp
    unfold updateE
    simp [hp, Ne.symm h]
  · rfl

private theorem newLinks_pastOr {none' : Nat} {ids seen : List Nat} (hno : none' ∉ ids) (past : List Past) :
    newLinks ids seen (pastOr none' past) = newLinks ids seen past := by
  unfold pastOr
  split
  · rename_i hp
    rw [List.isEmpty_iff] at hp
    subst hp
    simp [newLinks, hno]
  · rfl

private theorem connectE_links {ids : List Nat} (hno : code noneElem ∉ ids) (w : Work) :
    links code past change ids w = (connectE ⟨false, change, true⟩ (code noneElem) ids (past (code w.id)) (given code w)).filter
      fun l => l.1 ≠ code noneElem := by
  unfold connectE
  rw [if_neg (by simp), appendE_eq hno, List.filter_append]
  have hfst : (if change = true then (given code w).map (updateE (pastOr (code noneElem) (past (code w.id)))) else given code w).map
      (·.1) = (given code w).map (·.1) := by
    split
    · rw [List.map_map]
      apply List.map_congr_left
      intro e _
      exact updateE_fst _ e
    · rfl
  unfold links
  congr 1
  · split
    · rw [List.filter_map]
      have hcomp : ((fun l : Entry => decide (l.1 ≠ code noneElem)) ∘ updateE (pastOr (code noneElem) (past (code w.id)))) =
          fun l : Entry => decide (l.1 ≠ code noneElem) := by
        funext l
        simp [updateE_fst]
      rw [hcomp, filter_given]
      apply List.map_congr_left
      intro e he
      exact (updateE_pastOr (by simpa using (List.mem_filter.mp he).2)).symm
    · exact (filter_given code w).symm
  · dsimp only at hfst ⊢
    rw [hfst, newLinks_pastOr hno, newLinks_seen hno _ ((given code w).map (·.1)) (w.links.map fun l => code l.pred)]
    · symm
      rw [List.filter_eq_self]
      intro e he
      obtain ⟨h, hh, rfl⟩ := List.mem_map.mp he
      have : h.pred ≠ code noneElem := fun he => hno (he ▸ (mem_newLinks.mp hh).2.1)
      exact decide_eq_true this
    · intro x hx
      unfold given
      split
      · rename_i hl
        simp [emptyEntry, hl, hx]
      · simp [entries, List.map_map, Function.comp_def]

private theorem connectE_length {ids : List Nat} (hno : code noneElem ∉ ids) (w : Work) :
    (connectE ⟨false, change, true⟩ (code noneElem) ids (past (code w.id)) (given code w)).length ≤
      w.links.length + (past (code w.id)).length + 1 := by
  unfold connectE
  rw [if_neg (by simp), appendE_eq hno, List.length_append, List.length_map, newLinks_pastOr hno]
  have h1 := (newLinks_sublist ids (past (code w.id)) ((if change = true then (given code w).map
    (updateE (pastOr (code noneElem) (past (code w.id)))) else given code w).map (·.1))).length_le
  have h2 : (given code w).length ≤ w.links.length + 1 := by
    unfold given
    split
    · simp
    · simp [entries]
  have h3 : (if change = true then (given code w).map (updateE (pastOr (code noneElem) (past (code w.id)))) else given code w).length =
      (given code w).length := by
    split <;> simp
  dsimp only at h1 h3 ⊢
  omega

/-- The links over which cycles are looked for: those of the table, with the largest number unless history changes them, and the new ones
with their numbers of records. -/
def Weighted (code : Token → Nat) (works : List Work) (past : Nat → List Past) (change : Bool) (edges : List (Nat × Nat × Option Int)) : Prop :=
  ∀ u v c, (u, v, c) ∈ edges ↔
    (∃ w ∈ works, code w.id = v ∧ ∃ l ∈ w.links, l.pred ≠ "-1".toList ∧ code l.pred = u ∧
      c = some (if change then (((past v).find? fun h => h.pred = u).map (·.count)).getD maxCount else maxCount)) ∨
    ∃ w ∈ works, code w.id = v ∧ ∃ h, h.pred = u ∧ h.pred ∈ (works.map fun w => code w.id) ∧ (∀ l ∈ w.links, code l.pred ≠ u) ∧
      (past v).find? (fun h' => h'.pred = u) = some h ∧ c = some h.count

/-- Without the option to take all links from the table: reading and building end without an exception and give a work graph of exactly
the works of the table, a start and a finish.  The edges into a work are its links to works of the table, with their own type and lag
(with the option to change links: with those that history gives for this predecessor, if it does), followed by the new links from history;
except links given up, each of which has the smallest number of records on a cycle. -/
theorem links_with_history (hs : Setting code readLag readModel table works sort arrange start finish)
    (hf : 5 * ((works.map fun w => w.links.length + (past (code w.id)).length + 1).sum) + 1 ≤ fuel) :
    ∃ (kept : Nat → Nat → Bool) (rows : List Row) (g : Graph) (edges : List (Nat × Nat × Option Int)),
      readTable code readLag readModel ⟨false, change, true⟩ past fuel table = some (some rows) ∧
      workGraph sort arrange start finish rows = some g ∧
      g.Project start (start :: finish :: works.map fun w => code w.id) ∧
      (∀ v ∈ start :: finish :: works.map fun w => code w.id, g.Reaches v finish) ∧
      (∀ w ∈ works, ∃ new, NewLinks (works.map fun w => code w.id) (w.links.map fun l => code l.pred) (past (code w.id)) new ∧
        EdgesInto g start (code w.id)
          (((w.links.filter fun l => l.pred ∈ works.map (·.id) ∧ kept (code l.pred) (code w.id)).map
              (if change then Link.edgeBy code past w.id else Link.edge code w.id)) ++
            (new.filter fun h => kept h.pred (code w.id)).map (Past.edge (code w.id)))) ∧
      Weighted code works past change edges ∧
      ∀ u v, EdgeTo edges u v → kept u v = false → LightestOnCycle edges u v := by
  have hno' : code noneElem ∉ works.map fun w => code w.id := by
    intro h
    obtain ⟨w, hw, he⟩ := List.mem_map.mp h
    have he : w.id = "-1".toList := hs.code_inj he
    exact hs.proper (he ▸ List.mem_map_of_mem hw)
  have hlen : ((linksOf code ⟨false, change, true⟩ past works).flatMap (·.2)).length ≤
      (works.map fun w => w.links.length + (past (code w.id)).length + 1).sum := by
    unfold linksOf
    generalize (works.map fun w => code w.id) = ids at hno'
    clear hs hf
    induction works with
    | nil => simp
    | cons w ws ih =>
      rw [List.map_cons, List.flatMap_cons, List.length_append, List.map_cons, List.sum_cons]
      exact Nat.add_le_add (connectE_length hno' w) ih
  obtain ⟨keep, rows, g, edges, h1, h2, h3, h4, h5, h6, h7⟩ := read_graph (o := ⟨false, change, true⟩) (past := past) (fuel := fuel) (by simp) (by simp)
    hs.written hs.some_work hs.code_inj hs.distinct hs.proper hs.sorts hs.arranges hs.start_new hs.finish_new hs.start_finish (by omega)
    (links code past change (works.map fun w => code w.id)) (fun w _ => connectE_links hno' w)
  have hmem : ∀ p : Token, (code p ∈ works.map fun w => code w.id) ↔ p ∈ works.map (·.id) := by
    intro p
    simp only [List.mem_map]
    constructor
    · rintro ⟨w', hw', he⟩; exact ⟨w', hw', hs.code_inj he⟩
    · rintro ⟨w', hw', he⟩; exact ⟨w', hw', by rw [he]⟩
  refine ⟨keep, rows, g, edges, h1, h2, h3, h4, fun w hw => ⟨newLinks (works.map fun w => code w.id)
    (w.links.map fun l => code l.pred) (past (code w.id)), ⟨newLinks_sublist _ _ _, newLinks_nodup _ _, fun h => ?_⟩,
    h5 w hw _ ?_⟩, fun u v c => ?_, fun u v he hk => ?_⟩
  · rw [mem_newLinks]; tauto
  · unfold links
    rw [List.filter_append, List.map_append]
    congr 1
    · have hfil : ∀ q : Entry → Bool, (∀ l, q l = (decide (l.1 ∈ works.map fun w => code w.id) && keep l.1 (code w.id))) →
          ((proper code w).filter q) = ((w.links.filter fun l => l.pred ∈ works.map (·.id) ∧ keep (code l.pred) (code w.id)).map
            fun l => (code l.pred, l.type, l.lag, maxCount)) := by
        intro q hq
        unfold proper entries
        rw [List.filter_filter, List.filter_map]
        congr 1
        apply List.filter_congr
        intro l _
        rw [Bool.eq_iff_iff]
        simp only [Function.comp, hq, decide_eq_true_eq, Bool.and_eq_true, hmem]
        constructor
        · rintro ⟨h1, _⟩; exact h1
        · rintro ⟨h1, h2⟩
          exact ⟨⟨h1, h2⟩, fun he => hno' (by rw [← he]; exact (hmem _).mpr h1)⟩
      cases change with
      | false =>
        simp only [Bool.false_eq_true, if_false]
        rw [hfil _ fun l => rfl, List.map_map]
        rfl
      | true =>
        simp only [if_true]
        rw [List.filter_map, List.map_map, hfil _ fun l => by simp [Function.comp, updateE_fst], List.map_map]
        apply List.map_congr_left
        intro l _
        unfold Link.edgeBy updateE Link.edge Past.edge
        dsimp only [Function.comp]
        cases hfd : (past (code w.id)).find? (fun h => h.pred = code l.pred) with
        | none => rfl
        | some h =>
          have : h.pred = code l.pred := by simpa using List.find?_some hfd
          rw [← this]
    · rw [List.filter_map, List.map_map]
      congr 1
      apply List.filter_congr
      intro h hh
      have := (mem_newLinks.mp hh).2.1
      simp only [Function.comp, Past.entry, this, decide_true, Bool.true_and]
  · rw [h6]
    constructor
    · rintro ⟨w, hw, rfl, l, hl, rfl, rfl⟩
      unfold links at hl
      rcases List.mem_append.mp hl with hl | hl
      · refine Or.inl ⟨w, hw, rfl, ?_⟩
        have base : ∀ e ∈ proper code w, ∃ l ∈ w.links, l.pred ≠ "-1".toList ∧ code l.pred = e.1 ∧ e.2.2.2 = maxCount := by
          intro e he
          obtain ⟨he, hne⟩ := List.mem_filter.mp he
          obtain ⟨l, hl, rfl⟩ := List.mem_map.mp he
          refine ⟨l, hl, fun hp => ?_, rfl, rfl⟩
          have hp : l.pred = noneElem := hp
          simp [hp] at hne
        cases change with
        | false =>
          obtain ⟨l', hl', hp, hc, hm⟩ := base l hl
          exact ⟨l', hl', hp, hc, by simp [hm]⟩
        | true =>
          obtain ⟨e, he, rfl⟩ := List.mem_map.mp hl
          obtain ⟨l', hl', hp, hc, hm⟩ := base e he
          refine ⟨l', hl', hp, by rw [hc, updateE_fst], ?_⟩
          rw [updateE_fst]
          unfold updateE
          cases (past (code w.id)).find? (fun h => h.pred = e.1) with
          | none => simp [hm]
          | some h => simp
      · obtain ⟨h, hh, rfl⟩ := List.mem_map.mp hl
        obtain ⟨h1, h2, h3⟩ := mem_newLinks.mp hh
        exact Or.inr ⟨w, hw, rfl, h, rfl, h2, fun l hl he => h1 (List.mem_map.mpr ⟨l, hl, he⟩), h3, rfl⟩
    · rintro (⟨w, hw, rfl, l, hl, hp, rfl, rfl⟩ | ⟨w, hw, rfl, h, rfl, h2, h3, h4, rfl⟩)
      · refine ⟨w, hw, rfl, ?_⟩
        have hpr : (code l.pred, l.type, l.lag, maxCount) ∈ proper code w := by
          unfold proper
          rw [List.mem_filter]
          refine ⟨List.mem_map.mpr ⟨l, hl, rfl⟩, ?_⟩
          have : code l.pred ≠ code noneElem := fun he => hp (hs.code_inj he)
          simpa using this
        cases change with
        | false => exact ⟨_, List.mem_append_left _ hpr, rfl, rfl⟩
        | true =>
          refine ⟨updateE (past (code w.id)) (code l.pred, l.type, l.lag, maxCount), List.mem_append_left _ (List.mem_map_of_mem hpr),
            updateE_fst _ _, ?_⟩
          unfold updateE
          dsimp only
          cases (past (code w.id)).find? (fun h => h.pred = code l.pred) with
          | none => simp
          | some h => simp
      · refine ⟨w, hw, rfl, h.entry, List.mem_append_right _ (List.mem_map_of_mem ?_), rfl, rfl⟩
        rw [mem_newLinks]
        refine ⟨fun hm => ?_, h2, h4⟩
        obtain ⟨l, hl, he⟩ := List.mem_map.mp hm
        exact h3 l hl he
  · obtain ⟨c, hc⟩ := he
    obtain ⟨w, hw, rfl, l, hl, rfl, -⟩ := (h6 _ _ _).mp hc
    exact h7 w hw l hl hk

/-- In the default mode a link of the table is given up only for a cycle of links of the table alone, as history has fewer records than the
largest number; so if no work of the table comes before itself over links of the table, the edges into every work are all its links to
works of the table, followed by new links from history. -/
theorem own_links_stay (hs : Setting code readLag readModel table works sort arrange start finish)
    (hf : 5 * ((works.map fun w => w.links.length + (past (code w.id)).length + 1).sum) + 1 ≤ fuel)
    (hc : ∀ v, ∀ h ∈ past v, h.count < maxCount) (hac : ∀ v, ¬ Relation.TransGen (Precedes works) v v) :
    ∃ (kept : Nat → Nat → Bool) (rows : List Row) (g : Graph),
      readTable code readLag readModel ⟨false, false, true⟩ past fuel table = some (some rows) ∧
      workGraph sort arrange start finish rows = some g ∧
      g.Project start (start :: finish :: works.map fun w => code w.id) ∧
      ∀ w ∈ works, ∃ new, NewLinks (works.map fun w => code w.id) (w.links.map fun l => code l.pred) (past (code w.id)) new ∧
        EdgesInto g start (code w.id)
          (((w.links.filter fun l => l.pred ∈ works.map (·.id)).map (Link.edge code w.id)) ++
            (new.filter fun h => kept h.pred (code w.id)).map (Past.edge (code w.id))) := by
  obtain ⟨kept, rows, g, edges, h1, h2, h3, -, h5, h6, h7⟩ := links_with_history (change := false) hs hf
  refine ⟨kept, rows, g, h1, h2, h3, fun w hw => ?_⟩
  obtain ⟨new, hn, he⟩ := h5 w hw
  refine ⟨new, hn, ?_⟩
  have heq : (w.links.filter fun l => l.pred ∈ works.map (·.id)) =
      w.links.filter fun l => l.pred ∈ works.map (·.id) ∧ kept (code l.pred) (code w.id) := by
    apply List.filter_congr
    intro l hl
    by_cases hin : l.pred ∈ works.map (·.id)
    · cases hk : kept (code l.pred) (code w.id) with
      | true => simp [hin]
      | false =>
        exfalso
        have hne : l.pred ≠ "-1".toList := fun he => hs.proper (he ▸ hin)
        have hedge : (code l.pred, code w.id, some maxCount) ∈ edges :=
          (h6 _ _ _).mpr (Or.inl ⟨w, hw, rfl, l, hl, hne, rfl, by simp⟩)
        obtain ⟨c, wt, ⟨-, hcl, hwalk⟩, ⟨a, b, rfl⟩, hwt, hlight⟩ := h7 _ _ ⟨_, hedge⟩ hk
        have hwt' : wt = some maxCount := by
          rcases (h6 _ _ _).mp hwt with ⟨_, _, _, _, _, _, _, hwt⟩ | ⟨w', hw', hid, h, _, _, hnot, _⟩
          · simpa using hwt
          · have hid : w'.id = w.id := hs.code_inj hid
            obtain rfl : w' = w := List.inj_on_of_nodup_map hs.distinct hw' hw hid
            exact absurd rfl (hnot l hl)
        subst hwt'
        have hown : ∀ a' x y b', a ++ code l.pred :: code w.id :: b = a' ++ x :: y :: b' →
            ∃ p v, code p = x ∧ code v = y ∧ Precedes works p v := by
          intro a' x y b' hsplit
          obtain ⟨c, hxy⟩ := hwalk a' x y b' hsplit
          rcases (h6 _ _ _).mp hxy with ⟨w', hw', hid, l', hl', _, hl'x, _⟩ | ⟨w', hw', hid, h, _, _, _, hfd, rfl⟩
          · exact ⟨l'.pred, w'.id, hl'x, hid, w', hw', rfl, l', hl', rfl⟩
          · have h1 := hlight a' x y b' _ hsplit hxy
            have h2 := hc y h (List.mem_of_find?_eq_some hfd)
            simp only [Option.getD_some] at h1
            omega
        have hback := walk_back (r := fun x y => ∃ p v, code p = x ∧ code v = y ∧ Precedes works p v) hcl hown
        have key : ∀ y, Relation.ReflTransGen (fun x y => ∃ p v, code p = x ∧ code v = y ∧ Precedes works p v) (code w.id) y →
            ∃ t, y = code t ∧ Relation.ReflTransGen (Precedes works) w.id t := by
          intro y hy
          induction hy with
          | refl => exact ⟨w.id, rfl, .refl⟩
          | tail _ hstep ih =>
            obtain ⟨t, rfl, ht⟩ := ih
            obtain ⟨p, v, hp, rfl, hpv⟩ := hstep
            exact ⟨v, rfl, ht.tail (hs.code_inj hp ▸ hpv)⟩
        obtain ⟨t, ht, hr⟩ := key _ hback
        rw [← hs.code_inj ht] at hr
        exact hac l.pred (Relation.TransGen.head' ⟨w, hw, rfl, l, hl, rfl⟩ hr)
    · simp [hin]
  rw [heq]
  exact he

/-- The hypotheses can be met: see C65 for the table; history of less than the largest number of records. -/
example : ∀ v, ∀ h ∈ (fun v : Nat => if v = 3 then [(⟨4, .startStart, 5, 9⟩ : Past)] else []) v, h.count < maxCount := by
  intro v h hh
  by_cases hv : v = 3
  · simp only [hv, if_true, List.mem_singleton] at hh
    subst hh
    decide
  · simp [hv] at hh

/-! ### Modes in which links of the table are lost or mixed up -/

private def cell (s : String) : Cell := some s.toList

private def into (table : List Raw) (o : Options) (past : Nat → List Past) (v : String) : Option (Option (Option (List Edge))) :=
  (readTable number readDigit (fun _ => true) o past 100 table).map fun r => r.map fun rows =>
    (workGraph id id 1 2 rows).map fun g => g.edgesTo (number v.toList)

private def a : Nat := number "a".toList
private def b : Nat := number "b".toList
private def c : Nat := number "c".toList

private def three : List Raw :=
  [⟨"a".toList, [], none, none, none⟩, ⟨"b".toList, [], none, none, none⟩, ⟨"c".toList, [], cell "a,b", cell "FS,FS", cell "0,0"⟩]

private def history (v : Nat) : List Past := if v = c then [⟨b, .startStart, 5, 9⟩, ⟨a, .finishFinish, 7, 9⟩] else []

/-- With the option to change links, type and lag of each link are those of its predecessor in history. -/
example : into three ⟨false, true, true⟩ history "c" =
    some (some (some [⟨a, c, 7, .finishFinish⟩, ⟨b, c, 5, .startStart⟩, ⟨1, c, 0, .finishStart⟩])) := by decide +kernel

/-- Not proved because false: with both options, type and lag are given to the predecessors in the order of history: the work `c` gets
after `a` what history says of `b` and the other way round. -/
theorem mixed_up : into three ⟨true, true, true⟩ history "c" =
    some (some (some [⟨a, c, 5, .startStart⟩, ⟨b, c, 7, .finishFinish⟩, ⟨1, c, 0, .finishStart⟩])) := by decide +kernel

private def chain : List Raw :=
  [⟨"a".toList, [], none, none, none⟩, ⟨"b".toList, [], none, none, none⟩, ⟨"c".toList, [], cell "a", cell "FS", cell "0"⟩]

private def history3 (v : Nat) : List Past :=
  if v = c then [⟨b, .startStart, 5, 9⟩, ⟨a, .finishFinish, 7, 9⟩] else if v = b then [⟨a, .startStart, 3, 4⟩] else []

/-- With both options, a work without links gets those of history, and other works keep their predecessors. -/
example : into chain ⟨true, true, true⟩ history3 "b" = some (some (some [⟨a, b, 3, .startStart⟩, ⟨1, b, 0, .finishStart⟩])) ∧
    into chain ⟨true, true, true⟩ history3 "c" = some (some (some [⟨a, c, 7, .finishFinish⟩, ⟨1, c, 0, .finishStart⟩])) := by
  decide +kernel

private def two : List Raw := [⟨"b".toList, [], none, none, none⟩, ⟨"c".toList, [], cell "b", cell "FS", cell "0"⟩]

private def history2 (v : Nat) : List Past := if v = c then [⟨b, .finishStart, 0, 1⟩] else if v = b then [⟨c, .finishStart, 0, 3⟩] else []

/-- Without the option to change links, the link of the table stays and the one of history is given up. -/
example : into two ⟨false, false, true⟩ history2 "c" = some (some (some [⟨b, c, 0, .finishStart⟩])) := by decide +kernel

/-- Not proved because false: with the option to change links, a link of the table that history also knows can be given up for one that only
history knows, although the links of the table have no cycle. -/
theorem own_link_given_up : into two.reverse ⟨false, true, true⟩ history2 "c" = some (some (some [⟨1, c, 0, .finishStart⟩])) := by
  decide +kernel

end Sampo.C66
