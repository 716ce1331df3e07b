import Verif.Lemmas.RestructureGraph
import Verif.Lemmas.Sched

/-! # C34: restructuring conserves work -/

namespace Sampo.C34

open Sampo.Restructure

variable {G : OGraph} {opt : Bool} {nodes : List Nat} {N : New}

private theorem result_inv (hwf : WellFormed G nodes) (hs : opt = true → Simple G nodes)
    (h : restructure G opt nodes = some N) : Inv G opt nodes N := by
  obtain ⟨N', h1, inv⟩ := restructure_inv hwf hs
  rw [h] at h1; cases h1; exact inv

/-- Restructuring succeeds for every graph (with lag optimization: if edges between two works do not compete). -/
theorem never_fails (G : OGraph) (opt : Bool) (nodes : List Nat) (hwf : WellFormed G nodes)
    (hs : opt = true → Simple G nodes) : (restructure G opt nodes).isSome := by
  obtain ⟨N, h, _⟩ := restructure_inv hwf hs
  rw [h]; rfl

/-- The new graph consists of the stages of the given works. -/
theorem nodes_are_stages (hn : nodes.Nodup)
    (h : restructure G opt nodes = some N) : N.nodes = nodes.flatMap (stagesOf N) ∧ N.ids.Nodup :=
  have inv := restructure_base hn h
  ⟨inv.order, inv.nodup⟩

/-- Volumes of the stages of a work add up to its volume. -/
theorem volume_conserved (hn : nodes.Nodup)
    (h : restructure G opt nodes = some N) (v : Nat) (hv : v ∈ nodes) :
    ((stagesOf N v).map (·.2.volume)).sum = (G.wu v).volume := by
  obtain ⟨k, hw⟩ := (restructure_base hn h).work v hv
  exact hw.volume

/-- Amounts of every requirement (volumes for workers, counts of equipment, objects and materials) add up to the amount of the
work, whatever is lost by rounding. -/
theorem amounts_conserved (hn : nodes.Nodup)
    (h : restructure G opt nodes = some N) (v : Nat) (hv : v ∈ nodes) :
    (∀ n ∈ stagesOf N v, n.2.amounts.length = (G.wu v).amounts.length) ∧
    ∀ r, ((stagesOf N v).map fun n => n.2.amounts.getD r 0).sum = (G.wu v).amounts.getD r 0 := by
  obtain ⟨k, hw⟩ := (restructure_base hn h).work v hv
  exact ⟨hw.lens, hw.amounts⟩

/-- No stage has a negative volume or a negative amount. -/
theorem stages_nonneg (hn : nodes.Nodup)
    (h : restructure G opt nodes = some N) (v : Nat) (hv : v ∈ nodes) (hvol : 0 ≤ (G.wu v).volume)
    (ham : ∀ a ∈ (G.wu v).amounts, 0 ≤ a) :
    ∀ n ∈ stagesOf N v, 0 ≤ n.2.volume ∧ ∀ a ∈ n.2.amounts, 0 ≤ a := by
  obtain ⟨k, hw⟩ := (restructure_base hn h).work v hv
  intro n hn
  refine ⟨hw.volume_nonneg hvol n hn, fun a ha => ?_⟩
  obtain ⟨r, hr, rfl⟩ := List.getElem_of_mem ha
  have hr' : r < (G.wu v).amounts.length := hw.lens n hn ▸ hr
  have := hw.amounts_nonneg r (by
    rw [List.getD_eq_getElem?_getD, List.getElem?_eq_getElem hr']; exact ham _ (List.getElem_mem hr')) n hn
  rwa [List.getD_eq_getElem?_getD, List.getElem?_eq_getElem hr] at this

/-- A work without edges that divide it stays as it is. -/
theorem undivided_unchanged (hn : nodes.Nodup)
    (h : restructure G opt nodes = some N) (v : Nat) (hv : v ∈ nodes)
    (hfrom : ∀ e ∈ G.edgesFrom v, e.type ≠ .startStart ∧ (opt = true → e.type ≠ .lagFinishStart))
    (hto : ∀ e ∈ G.edgesTo v, e.type ≠ .finishFinish ∧ (opt = true → e.type ≠ .lagFinishStart)) :
    stagesOf N v = [(.last v, G.wu v)] := by
  obtain ⟨k, hw⟩ := (restructure_base hn h).work v hv
  have hnil : ∀ (l : List OEdge) (t : EdgeType) (b : Bool), (∀ e ∈ l, e.type ≠ t) → ofType l t b = [] := by
    intro l t b hl
    rw [ofType, List.filter_eq_nil_iff.mpr (by simpa using hl)]; rfl
  have hr : restructuring G opt v = [] := by
    rw [restructuring, hnil _ _ _ fun e he => (hfrom e he).1, hnil _ _ _ fun e he => (hto e he).1]
    by_cases ho : opt = true
    · rw [if_pos ho, hnil _ _ _ fun e he => (hto e he).2 ho, hnil _ _ _ fun e he => (hfrom e he).2 ho]; rfl
    · rw [if_neg ho]; rfl
  have hk := hw.zero.mpr hr
  subst hk
  have hids := hw.ids
  have hlens := hw.lens
  have hvol := hw.volume
  have ham := hw.amounts
  cases hS : stagesOf N v with
  | nil => rw [hS] at hids; simp at hids
  | cons n S =>
    rw [hS] at hids hlens hvol ham
    have hS' : S = [] := by
      have := congrArg List.length hids
      simpa using this
    subst hS'
    obtain ⟨x, vol, am⟩ := n
    have hx : x = .last v := by simpa using hids
    have hv' : vol = (G.wu v).volume := by simpa [Restructure.vol] using hvol
    have ha : am = (G.wu v).amounts := by
      refine List.ext_getElem (by simpa using hlens) fun r h1 h2 => ?_
      have := ham r
      rw [List.getD_eq_getElem?_getD, List.getElem?_eq_getElem h2] at this
      simpa [amt, List.getD_eq_getElem?_getD, List.getElem?_eq_getElem h1] using this
    rw [hx, hv', ha]

/-- The stages of a work are linked into one chain by inseparable edges without lag. -/
theorem stages_form_chain (hn : nodes.Nodup)
    (h : restructure G opt nodes = some N) (v : Nat) (hv : v ∈ nodes) :
    (stagesOf N v) ≠ [] ∧ ((stagesOf N v).map (·.1)).IsChain fun a b => ⟨a, b, 0, .inseparable⟩ ∈ N.edges := by
  have inv := restructure_base hn h
  obtain ⟨k, hw⟩ := inv.work v hv
  refine ⟨fun h0 => ?_, inv.linked v hv⟩
  have := hw.last_mem
  rw [h0] at this
  cases this

/-- The new graph has only finish-start edges, plain or inseparable. -/
theorem only_finish_start (hn : nodes.Nodup)
    (h : restructure G opt nodes = some N) : ∀ e ∈ N.edges, e.type = .finishStart ∨ e.type = .inseparable :=
  (restructure_base hn h).types

/-- The new nodes are made in an order in which every edge goes forward; so the new graph has no cycle. -/
theorem edges_go_forward (hwf : WellFormed G nodes) (hs : opt = true → Simple G nodes)
    (h : restructure G opt nodes = some N) : ∀ e ∈ N.edges, [e.start, e.finish].Sublist N.ids :=
  (result_inv hwf hs h).sorted

/-- Every edge of the given graph is there in the new graph, between the right stages. -/
theorem edges_realized (hwf : WellFormed G nodes) (hs : opt = true → Simple G nodes)
    (h : restructure G opt nodes = some N) : ∀ v ∈ nodes, ∀ e ∈ G.edgesTo v, Realized G opt N e :=
  (result_inv hwf hs h).realized

private theorem chain_times {start finish : NewId → ℚ} (hf : Follows N start finish) {l : List NewId}
    (hl : l.IsChain fun a b => (⟨a, b, 0, .inseparable⟩ : NewEdge) ∈ N.edges) (hm : ∀ x ∈ l, x ∈ N.ids) (d : NewId) :
    ∀ x ∈ l, start (l.headD d) ≤ start x ∧ finish x ≤ finish (l.getLastD d) := by
  induction l with
  | nil => intro x hx; cases hx
  | cons a l ih =>
    cases l with
    | nil => intro x hx; rw [List.mem_singleton.mp hx]; exact ⟨le_refl _, le_refl _⟩
    | cons b l =>
      rw [List.isChain_cons_cons] at hl
      have h1 := hf.edges _ hl.1
      simp only [add_zero] at h1
      have ha := hf.duration a (hm a List.mem_cons_self)
      have hb := hf.duration b (hm b (by simp))
      have ih' := ih hl.2 fun x hx => hm x (List.mem_cons_of_mem _ hx)
      have hlast : (a :: b :: l).getLastD d = (b :: l).getLastD d := by simp [List.getLastD_eq_getLast?]
      intro x hx
      rw [hlast]
      rcases List.mem_cons.mp hx with rfl | hx
      · refine ⟨le_refl _, ?_⟩
        have := (ih' b List.mem_cons_self).2
        linarith
      · refine ⟨?_, (ih' x hx).2⟩
        have := (ih' x hx).1
        simp only [List.headD_cons] at this ⊢
        linarith

/-- Whoever follows the new graph follows the given one: with the start of a work at the start of its first stage and its
finish at the finish of its last stage, plain finish-start edges hold with their lag, inseparable ones without it, start-start
and finish-finish edges order the starts and the finishes; a lagged finish-start edge is a finish-start edge without lag
optimization and orders both the starts and the finishes with it. -/
theorem dependencies_kept (hwf : WellFormed G nodes) (hs : opt = true → Simple G nodes)
    (h : restructure G opt nodes = some N) (start finish : NewId → ℚ) (hf : Follows N start finish) :
    ∀ v ∈ nodes, ∀ e ∈ G.edgesTo v,
      match e.type with
      | .finishStart => finish (lastOf N e.start) + e.lag ≤ start (firstOf N e.finish)
      | .inseparable => finish (lastOf N e.start) ≤ start (firstOf N e.finish)
      | .startStart => start (firstOf N e.start) ≤ start (firstOf N e.finish)
      | .finishFinish => finish (lastOf N e.start) ≤ finish (lastOf N e.finish)
      | .lagFinishStart =>
        if opt then start (firstOf N e.start) ≤ start (firstOf N e.finish) ∧
          finish (lastOf N e.start) ≤ finish (lastOf N e.finish)
        else finish (lastOf N e.start) ≤ start (firstOf N e.finish) := by
  have inv := result_inv hwf hs h
  intro v hv e he
  obtain ⟨l₁, l₂, hl⟩ := List.append_of_mem hv
  have hu : e.start ∈ nodes := by
    rw [hl]; exact List.mem_append_left _ (hwf.topo _ _ _ hl _ (List.mem_map_of_mem he))
  have hfin := (hwf.entering v hv e he).1
  have hmem : ∀ w, ∀ x ∈ (stagesOf N w).map (·.1), x ∈ N.ids := by
    intro w x hx
    obtain ⟨n, hn, rfl⟩ := List.mem_map.mp hx
    exact List.mem_map_of_mem (List.mem_filter.mp hn).1
  have hsap : StartAfterPart G opt N e → start (firstOf N e.start) ≤ start (firstOf N e.finish) := by
    rintro ⟨a, ha, hed, _⟩
    have h1 := (chain_times hf (inv.linked _ hu) (hmem _) (.last e.start) a ha).1
    have h2 := hf.edges _ hed
    have h3 := hf.duration a (hmem _ a ha)
    simp only [add_zero] at h2
    exact h1.trans (h3.trans h2)
  have hfa : FinishAfter G opt N e → finish (lastOf N e.start) ≤ finish (lastOf N e.finish) := by
    rintro ⟨b, hb, hed, _⟩
    have h1 := (chain_times hf (inv.linked _ (hfin ▸ hv)) (hmem _) (.last e.finish) b hb).2
    have h2 := hf.edges _ hed
    have h3 := hf.duration b (hmem _ b hb)
    simp only [add_zero] at h2
    exact h2.trans (h3.trans h1)
  have hr := inv.realized v hv e he
  revert hr
  unfold Realized
  cases e.type <;> dsimp only <;> intro hr
  · have := hf.edges _ hr; simpa using this
  · by_cases ho : opt = true
    · rw [if_pos ho] at hr ⊢; exact ⟨hsap hr.1, hfa hr.2⟩
    · rw [if_neg ho] at hr ⊢; have := hf.edges _ hr; simpa using this
  · exact hsap hr
  · exact hfa hr
  · have h1 := hf.edges _ hr
    have h2 := Int.le_ceil e.lag
    dsimp only at h1
    linarith

/-- Every new node except the start of the project has a predecessor, if every work except the start has an edge that is not
finish-finish; so everything is reached from the start. -/
theorem every_stage_reached (hwf : WellFormed G nodes) (hs : opt = true → Simple G nodes)
    (h : restructure G opt nodes = some N) (source : Nat)
    (hpar : ∀ v ∈ nodes, v ≠ source → ∃ e ∈ G.edgesTo v, e.type ≠ .finishFinish) :
    ∀ x ∈ N.ids, x ≠ firstOf N source → ∃ e ∈ N.edges, e.finish = x := by
  have inv := result_inv hwf hs h
  intro x hx hne
  obtain ⟨n, hn, rfl⟩ := List.mem_map.mp hx
  have hv := inv.works n hn
  have hmem : n.1 ∈ (stagesOf N n.1.work).map (·.1) :=
    List.mem_map_of_mem (List.mem_filter.mpr ⟨hn, by simp⟩)
  have hch := inv.linked _ hv
  by_cases hfirst : n.1 = firstOf N n.1.work
  · have hsrc : n.1.work ≠ source := fun he => hne (he ▸ hfirst)
    obtain ⟨e, he, ht⟩ := hpar _ hv hsrc
    have hfin := (hwf.entering _ hv e he).1
    have hr := inv.realized _ hv e he
    revert hr ht
    unfold Realized
    rw [hfin, ← hfirst]
    cases e.type <;> dsimp only <;> intro ht hr
    · exact ⟨_, hr, rfl⟩
    · by_cases ho : opt = true
      · rw [if_pos ho] at hr
        obtain ⟨⟨a, _, hed, _⟩, _⟩ := hr
        rw [hfin, ← hfirst] at hed
        exact ⟨_, hed, rfl⟩
      · rw [if_neg ho] at hr; exact ⟨_, hr, rfl⟩
    · obtain ⟨a, _, hed, _⟩ := hr
      rw [hfin, ← hfirst] at hed
      exact ⟨_, hed, rfl⟩
    · exact absurd rfl ht
    · exact ⟨_, hr, rfl⟩
  · rw [firstOf] at hfirst
    generalize (stagesOf N n.1.work).map (·.1) = l at hmem hch hfirst
    clear hne hv hx hn
    induction l with
    | nil => cases hmem
    | cons a l ih =>
      rcases List.mem_cons.mp hmem with he | hm
      · exact absurd he hfirst
      · cases l with
        | nil => cases hm
        | cons b l =>
          rw [List.isChain_cons_cons] at hch
          by_cases hb : n.1 = b
          · exact ⟨_, hch.1, hb.symm⟩
          · exact ih hm hch.2 hb

/-! ### Examples -/

/-- A start 0, works 1-3 and a finish 4.  Work 2 may start when 3 units of work 1 are done, work 3 has a finish-finish edge
from work 1 and a lagged edge from work 2. -/
private def demoEdges : List OEdge :=
  [⟨0, 1, 0, .finishStart⟩, ⟨0, 2, 0, .finishStart⟩, ⟨1, 2, 3, .startStart⟩, ⟨1, 3, 5, .finishFinish⟩,
   ⟨2, 3, 2, .lagFinishStart⟩, ⟨1, 4, 1 / 2, .finishStart⟩, ⟨3, 4, 7, .inseparable⟩]

private def demoOf (edges : List OEdge) : OGraph where
  edgesTo v := edges.filter (·.finish = v)
  edgesFrom v := edges.filter (·.start = v)
  wu v := if v = 0 ∨ v = 4 then ⟨0, []⟩ else ⟨10, [7, 3]⟩

private def demo : OGraph := demoOf demoEdges

private theorem demo_wf : WellFormed demo [0, 1, 2, 3, 4] := by
  refine ⟨by decide, ?_, ?_, topoList_of_from (by decide +kernel)⟩
  · intro v _ e he
    obtain ⟨h1, h2⟩ := List.mem_filter.mp he
    exact ⟨by simpa using h2, List.mem_filter.mpr ⟨h1, by simp⟩⟩
  · intro v _ e he
    obtain ⟨h1, h2⟩ := List.mem_filter.mp he
    refine ⟨by simpa using h2, ?_, List.mem_filter.mpr ⟨h1, by simp⟩⟩
    have : ∀ e ∈ demoEdges, e.finish ∈ [0, 1, 2, 3, 4] := by decide +kernel
    exact this e h1

private theorem demo_simple : Simple demo [0, 1, 2, 3, 4] := ⟨by decide +kernel, by decide +kernel, by decide +kernel⟩

-- with lag optimization works 1 and 2 have two stages, work 3 has three; without it works 1 and 3 are split
example : ((restructure demo true [0, 1, 2, 3, 4]).map (·.nodes)) =
    some [(.last 0, ⟨0, []⟩), (.stage 1 0, ⟨3, [2, 0]⟩), (.last 1, ⟨7, [5, 3]⟩), (.stage 2 0, ⟨2, [1, 0]⟩), (.last 2, ⟨8, [6, 3]⟩),
      (.stage 3 0, ⟨5, [3, 1]⟩), (.stage 3 1, ⟨3, [2, 0]⟩), (.last 3, ⟨2, [2, 2]⟩), (.last 4, ⟨0, []⟩)] := by decide +kernel
example : ((restructure demo true [0, 1, 2, 3, 4]).map fun N => N.edges.filter fun e => e.finish.work = 3) =
    some [⟨.stage 3 0, .stage 3 1, 0, .inseparable⟩, ⟨.stage 3 1, .last 3, 0, .inseparable⟩,
      ⟨.last 1, .stage 3 1, 0, .finishStart⟩, ⟨.last 2, .last 3, 0, .finishStart⟩,
      ⟨.stage 2 0, .stage 3 0, 0, .finishStart⟩] := by decide +kernel
example : ((restructure demo false [0, 1, 2, 3, 4]).map (·.nodes)) =
    some [(.last 0, ⟨0, []⟩), (.stage 1 0, ⟨0, [0, 0]⟩), (.last 1, ⟨10, [7, 3]⟩), (.last 2, ⟨10, [7, 3]⟩),
      (.stage 3 0, ⟨10, [7, 3]⟩), (.last 3, ⟨0, [0, 0]⟩), (.last 4, ⟨0, []⟩)] := by decide +kernel
example : (∀ v ∈ [0, 1, 2, 3, 4], v ≠ 0 → ∃ e ∈ demo.edgesTo v, e.type ≠ .finishFinish) := by decide +kernel
-- times that follow the new graph: every node takes one unit, one node after another
example : ∃ N start finish, restructure demo true [0, 1, 2, 3, 4] = some N ∧ Follows N start finish := by
  have key : ((restructure demo true [0, 1, 2, 3, 4]).map fun N =>
      (decide (∀ x ∈ N.ids, (N.ids.idxOf x : ℚ) ≤ (N.ids.idxOf x : ℚ)),
       decide (∀ e ∈ N.edges, (10 * (N.ids.idxOf e.start) : ℚ) + e.lag ≤ 10 * N.ids.idxOf e.finish))) = some (true, true) := by
    decide +kernel
  obtain ⟨N, h1, h2⟩ := Option.map_eq_some_iff.mp key
  refine ⟨N, fun x => 10 * N.ids.idxOf x, fun x => 10 * N.ids.idxOf x, h1, fun x _ => le_refl _, ?_⟩
  exact of_decide_eq_true (Prod.mk.inj h2).2

/-! ### Where the property does not hold -/

/-- Not proved because false: with lag optimization a start-start edge and a lagged edge between the same two works make the
restructuring fail (`KeyError`). -/
theorem competing_edges_fail : ∃ (G : OGraph) (nodes : List Nat), WellFormed G nodes ∧
    (∀ v ∈ nodes, 0 ≤ (G.wu v).volume) ∧ restructure G true nodes = none := by
  refine ⟨demoOf [⟨1, 2, 3, .startStart⟩, ⟨1, 2, 2, .lagFinishStart⟩], [1, 2], ⟨by decide, ?_, ?_,
    topoList_of_from (by decide +kernel)⟩, by decide +kernel, ?_⟩
  · intro v _ e he
    obtain ⟨h1, h2⟩ := List.mem_filter.mp he
    exact ⟨by simpa using h2, List.mem_filter.mpr ⟨h1, by simp⟩⟩
  · intro v _ e he
    obtain ⟨h1, h2⟩ := List.mem_filter.mp he
    refine ⟨by simpa using h2, ?_, List.mem_filter.mpr ⟨h1, by simp⟩⟩
    rcases (by simpa using h1 : e = _ ∨ e = _) with rfl | rfl <;> decide
  · have : ((restructure (demoOf [⟨1, 2, 3, .startStart⟩, ⟨1, 2, 2, .lagFinishStart⟩]) true [1, 2]).isNone) = true := by
      decide +kernel
    exact Option.isNone_iff_eq_none.mp this

/-- Not proved because false: the name of a split work is changed in the given graph too, and all its stages get the same
name, since they share one dictionary. -/
theorem names_of_split_work_change (name : String) (k : Nat) : sharedName name k ≠ name := by
  have hlen : ∀ (l : List Nat) (n : String), n.length ≤ (l.foldl (fun n i => n ++ "_stage_" ++ toString i) n).length := by
    intro l
    induction l with
    | nil => intro n; exact le_refl _
    | cons i l ih =>
      intro n
      refine le_trans ?_ (ih _)
      simp only [String.length_append]
      omega
  intro h
  have h1 := congrArg String.length h
  rw [sharedName, List.range_succ_eq_map, List.foldl_cons] at h1
  have h2 := hlen ((List.range k).map Nat.succ) (name ++ "_stage_" ++ toString 0)
  rw [h1] at h2
  simp only [String.length_append] at h2
  have : "_stage_".length = 7 := by decide
  omega

end Sampo.C34
