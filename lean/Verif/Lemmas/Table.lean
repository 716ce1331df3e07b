import Verif.Spec.Table
import Verif.Props.C32_FromNodes
import Verif.Props.C38_Cycles

/-!
# Reading a table: rows whose lists are aligned
-/

namespace Sampo.Table

/-- A link of an aligned row: predecessor, type, lag, count. -/
abbrev Entry := Nat × EdgeType × Int × Int

/-- A row with one element for each link in every list. -/
def aligned (a : Nat × List Entry) : Row :=
  ⟨a.1, a.2.map (·.1), a.2.map (·.2.1), a.2.map (·.2.2.1), a.2.map (·.2.2.2)⟩

theorem aligned_links (a : Nat × List Entry) : (aligned a).links = a.2 := by
  unfold Row.links aligned
  dsimp only
  induction a.2 with
  | nil => rfl
  | cons l ls ih => simp only [List.map_cons, List.zip_cons_cons, ih]

theorem dropLinks_aligned (keep : Nat → Bool) : ∀ ls : List Entry,
    dropLinks keep (ls.map (·.1)) (ls.map (·.2.1)) (ls.map (·.2.2.1)) (ls.map (·.2.2.2)) =
      some ((ls.filter fun l => keep l.1).map (·.1), (ls.filter fun l => keep l.1).map (·.2.1),
        (ls.filter fun l => keep l.1).map (·.2.2.1), (ls.filter fun l => keep l.1).map (·.2.2.2))
  | [] => rfl
  | l :: ls => by
    simp only [List.map_cons, dropLinks]
    by_cases h : keep l.1 = true
    · rw [if_pos h, List.tail_cons, List.tail_cons, List.tail_cons, dropLinks_aligned keep ls]
      simp [h]
    · rw [if_neg h]
      simp only [Bool.not_eq_true] at h
      rw [dropLinks_aligned keep ls]
      simp [h]

theorem edgesOf_aligned (works : List Nat) : ∀ ls : List Entry,
    edgesOf works (ls.map (·.1)) (ls.map (·.2.1)) (ls.map (·.2.2.1)) =
      some ((ls.filter fun l => l.1 ∈ works).map fun l => (l.1, l.2.2.1, l.2.1))
  | [] => rfl
  | l :: ls => by
    simp only [List.map_cons, edgesOf]
    by_cases h : l.1 ∈ works
    · rw [if_pos h, edgesOf_aligned works ls]
      simp [h]
    · rw [if_neg h, List.tail_cons, List.tail_cons, edgesOf_aligned works ls]
      simp [h]

theorem mapAll_map {α β γ : Type} {f : β → Option γ} {g : α → β} {k : α → γ} (h : ∀ a, f (g a) = some (k a)) :
    ∀ l : List α, mapAll f (l.map g) = some (l.map k)
  | [] => rfl
  | a :: l => by simp [mapAll, h a, mapAll_map h l]

theorem mem_rowEdges {none' : Nat} {ws : List (Nat × List Entry)} {u v : Nat} {c : Option Int} :
    (u, v, c) ∈ rowEdges none' (ws.map aligned) ↔
      ∃ a ∈ ws, a.1 = v ∧ ∃ l ∈ a.2, l.1 = u ∧ u ≠ none' ∧ some l.2.2.2 = c := by
  unfold rowEdges
  simp only [List.mem_flatMap, List.mem_map, List.mem_filter, exists_exists_and_eq_and, aligned_links]
  constructor
  · rintro ⟨a, ha, l, ⟨hl, hn⟩, he⟩
    obtain ⟨rfl, h2⟩ := Prod.mk.inj he
    obtain ⟨rfl, rfl⟩ := Prod.mk.inj h2
    exact ⟨a, ha, rfl, l, hl, rfl, by simpa using hn, rfl⟩
  · rintro ⟨a, ha, rfl, l, hl, rfl, hn, rfl⟩
    exact ⟨a, ha, l, ⟨hl, by simpa using hn⟩, rfl⟩

theorem length_rowEdges (none' : Nat) (ws : List (Nat × List Entry)) :
    (rowEdges none' (ws.map aligned)).length ≤ (ws.flatMap (·.2)).length := by
  unfold rowEdges
  induction ws with
  | nil => simp
  | cons a ws ih =>
    simp only [List.map_cons, List.flatMap_cons, List.length_append, List.length_map, aligned_links] at ih ⊢
    exact Nat.add_le_add (List.length_filter_le _ _) ih

/-- Elimination of cycles for aligned rows. -/
theorem breakLoops_aligned {fuel none' : Nat} (ws : List (Nat × List Entry)) (hf : 5 * (ws.flatMap (·.2)).length + 1 ≤ fuel) :
    ∃ keep : Nat → Nat → Bool,
      breakLoops fuel none' (ws.map aligned) = some (some (ws.map fun a => aligned (a.1, a.2.filter fun l => keep l.1 a.1))) ∧
      (∀ x, ¬ Relation.TransGen (fun p v => p ≠ none' ∧ keep p v = true ∧ ∃ a ∈ ws, a.1 = v ∧ ∃ l ∈ a.2, l.1 = p) x x) ∧
      ∀ a ∈ ws, ∀ l ∈ a.2, l.1 ≠ none' → keep l.1 a.1 = false → LightestOnCycle (rowEdges none' (ws.map aligned)) l.1 a.1 := by
  have hf' : 5 * (rowEdges none' (ws.map aligned)).length + 1 ≤ fuel := by
    have := length_rowEdges none' ws
    omega
  obtain ⟨c, g, keep, h1, h2, h3, h4⟩ := Cycles.eliminate_build _ hf'
  refine ⟨fun p v => decide (p ∉ g.keys) || (g.adj p).any fun n => n.1 = v, ?_, fun x hx => ?_, fun a ha l hl hn hk => ?_⟩
  · unfold breakLoops
    rw [h1]
    simp only [Option.map_some, Option.bind_some, Option.some.injEq]
    refine mapAll_map (fun a => ?_) ws
    simp only [aligned, dropLinks_aligned, Option.map_some]
    rfl
  · refine h2 x (Relation.TransGen.mono ?_ x x hx)
    rintro u v ⟨hu, hk, a, ha, rfl, l, hl, rfl⟩
    have he : (l.1, a.1, some l.2.2.2) ∈ rowEdges none' (ws.map aligned) := mem_rowEdges.mpr ⟨a, ha, rfl, l, hl, rfl, hu, rfl⟩
    have hkey : l.1 ∈ g.keys := h4 _ ((Cycles.build_keys _ _).mpr ⟨_, he, rfl⟩)
    simp only [hkey, not_true_eq_false, decide_false, Bool.false_or, List.any_eq_true, decide_eq_true_eq] at hk
    obtain ⟨n, hn, hn'⟩ := hk
    exact ⟨n.2, by rw [← hn']; exact hn⟩
  · have he : (l.1, a.1, some l.2.2.2) ∈ rowEdges none' (ws.map aligned) := mem_rowEdges.mpr ⟨a, ha, rfl, l, hl, rfl, hn, rfl⟩
    refine C38.removed_on_cycle hf' h1 he fun hmem => ?_
    simp only [Bool.or_eq_false_iff, List.any_eq_false] at hk
    exact hk.2 _ hmem (by simp)

theorem walk_back {r : Nat → Nat → Prop} {a b : List Nat} {u v : Nat} (hc : (a ++ u :: v :: b).head? = (a ++ u :: v :: b).getLast?)
    (hw : ∀ a' x y b', a ++ u :: v :: b = a' ++ x :: y :: b' → r x y) : Relation.ReflTransGen r v u := by
  have fwd : ∀ (b : List Nat) (x : Nat) (p : List Nat), (∀ a x' y b', p ++ x :: b = a ++ x' :: y :: b' → r x' y) →
      ∀ z, (x :: b).getLast? = some z → Relation.ReflTransGen r x z := by
    intro b
    induction b with
    | nil =>
      intro x p _ z hz
      obtain rfl : x = z := by simpa using hz
      exact .refl
    | cons y b ih =>
      intro x p hp z hz
      rw [List.getLast?_cons_cons] at hz
      refine Relation.ReflTransGen.head (hp p x y b rfl) (ih y (p ++ [x]) (fun a x' y' b' he => hp a x' y' b' ?_) z hz)
      rw [← he]; simp
  have h1 := fwd b v (a ++ [u]) (fun a' x y b' he => hw a' x y b' (by rw [← he]; simp))
  obtain ⟨z, hz⟩ : ∃ z, (v :: b).getLast? = some z := ⟨_, List.getLast?_eq_some_getLast (List.cons_ne_nil v b)⟩
  refine (h1 z hz).trans ?_
  have hlast : (a ++ u :: v :: b).getLast? = some z := by
    rw [List.getLast?_append, List.getLast?_cons_cons, hz]; rfl
  rw [hlast] at hc
  cases a with
  | nil =>
    obtain rfl : u = z := by simpa using hc
    exact .refl
  | cons a0 a =>
    obtain rfl : a0 = z := by simpa using hc
    have := fwd (a ++ [u]) a0 [] (fun a' x y b' he => hw a' x y (b' ++ v :: b) (by
      have := congrArg (· ++ v :: b) he
      simpa using this)) u (by rw [← List.cons_append, List.getLast?_append]; rfl)
    exact this

/-! ### The graph -/

/-- The edges of a sorted row. -/
def infoEdges (i : Nat × List (Nat × Int × EdgeType)) : List Edge := i.2.map fun l => ⟨l.1, i.1, l.2.1, l.2.2⟩

theorem addParents_infoEdges (g : Graph) (i : Nat × List (Nat × Int × EdgeType)) :
    g.addParents i.1 i.2 = (infoEdges i).foldl Graph.addEdge g := by
  unfold Graph.addParents infoEdges
  rw [List.foldl_map]

theorem buildNodes_eq : ∀ (infos : List (Nat × List (Nat × Int × EdgeType))) (known : List Nat) (g : Graph),
    (∀ before i after, infos = before ++ i :: after → ∀ l ∈ i.2, l.1 ∈ known ++ before.map (·.1)) →
    buildNodes infos known g = some ((infos.flatMap infoEdges).foldl Graph.addEdge g)
  | [], known, g, _ => rfl
  | i :: infos, known, g, h => by
    obtain ⟨v, ps⟩ := i
    rw [buildNodes, if_pos]
    · rw [buildNodes_eq infos (known ++ [v]) _ fun before i after he l hl => ?_, List.flatMap_cons, List.foldl_append]
      · have := addParents_infoEdges g (v, ps)
        dsimp only at this
        rw [this]
      · have := h ((v, ps) :: before) i after (by rw [he]; rfl) l hl
        simpa using this
    · rw [List.all_eq_true]
      intro l hl
      have := h [] (v, ps) infos rfl l hl
      simpa using this

theorem filter_flatMap_infoEdges : ∀ {infos : List (Nat × List (Nat × Int × EdgeType))}, (infos.map (·.1)).Nodup →
    ∀ i ∈ infos, ((infos.flatMap infoEdges).filter fun e => e.finish = i.1) = infoEdges i
  | [], _, i, hi => by simp at hi
  | j :: infos, hn, i, hi => by
    rw [List.map_cons, List.nodup_cons] at hn
    rw [List.flatMap_cons, List.filter_append]
    have self : ∀ k : Nat × List (Nat × Int × EdgeType), ((infoEdges k).filter fun e => e.finish = k.1) = infoEdges k := by
      intro k
      rw [List.filter_eq_self]
      intro e he
      obtain ⟨l, _, rfl⟩ := List.mem_map.mp he
      simp
    have other : ∀ k : Nat × List (Nat × Int × EdgeType), ∀ v, k.1 ≠ v → ((infoEdges k).filter fun e => e.finish = v) = [] := by
      intro k v hv
      rw [List.filter_eq_nil_iff]
      intro e he
      obtain ⟨l, _, rfl⟩ := List.mem_map.mp he
      simpa using hv
    rcases List.mem_cons.mp hi with rfl | hi
    · rw [self]
      have : ((infos.flatMap infoEdges).filter fun e => e.finish = i.1) = [] := by
        rw [List.filter_eq_nil_iff]
        intro e he
        obtain ⟨k, hk, he⟩ := List.mem_flatMap.mp he
        obtain ⟨l, _, rfl⟩ := List.mem_map.mp he
        have : k.1 ≠ i.1 := fun h => hn.1 (h ▸ List.mem_map_of_mem hk)
        simpa using this
      rw [this, List.append_nil]
    · rw [other j i.1 fun h => hn.1 (h ▸ List.mem_map_of_mem hi), List.nil_append, filter_flatMap_infoEdges hn.2 i hi]

theorem project_perm {g : Graph} {start : Nat} {l l' : List Nat} (h : g.Project start l) (hp : l.Perm l') : g.Project start l' where
  once := hp.nodup_iff.mp h.once
  linked := h.linked
  start_mem := hp.mem_iff.mp h.start_mem
  closed := fun v hv => ⟨fun e he => hp.mem_iff.mp ((h.closed v (hp.mem_iff.mpr hv)).1 e he),
    fun e he => hp.mem_iff.mp ((h.closed v (hp.mem_iff.mpr hv)).2 e he)⟩
  reach := fun v hv => h.reach v (hp.mem_iff.mpr hv)
  acyclic := fun v hv => h.acyclic v (hp.mem_iff.mpr hv)

/-- The edges of the work `a` in the graph: its links to works of the table. -/
def keptEdges (ids : List Nat) (a : Nat × List Entry) : List Edge :=
  (a.2.filter fun l => l.1 ∈ ids).map fun l => ⟨l.1, a.1, l.2.2.1, l.2.1⟩

/-- The graph of aligned rows without cycles. -/
theorem workGraph_aligned {sort : List (Nat × List (Nat × Int × EdgeType)) → List (Nat × List (Nat × Int × EdgeType))}
    {arrange : List Nat → List Nat} {start finish : Nat} (ws : List (Nat × List Entry)) (hne : ws ≠ [])
    (hnd : (ws.map (·.1)).Nodup) (hs : Sorts sort) (har : ∀ l, (arrange l).Perm l)
    (hst : start ∉ ws.map (·.1)) (hfi : finish ∉ ws.map (·.1)) (hsf : start ≠ finish)
    (hac : ∀ x, ¬ Relation.TransGen (fun p v => p ∈ ws.map (·.1) ∧ ∃ a ∈ ws, a.1 = v ∧ ∃ l ∈ a.2, l.1 = p) x x) :
    ∃ g, workGraph sort arrange start finish (ws.map aligned) = some g ∧ g.Project start (start :: finish :: ws.map (·.1)) ∧
      (∀ v ∈ start :: finish :: ws.map (·.1), g.Reaches v finish) ∧
      (∀ a ∈ ws, g.edgesTo a.1 = keptEdges (ws.map (·.1)) a ++
        if (keptEdges (ws.map (·.1)) a).any fun e => e.type.Dependency then [] else [⟨start, a.1, 0, .finishStart⟩]) ∧
      (g.edgesTo finish).Nodup ∧
      ∀ e, e ∈ g.edgesTo finish ↔ ∃ a ∈ ws, (∀ b ∈ ws, ∀ e' ∈ keptEdges (ws.map (·.1)) b, e'.start = a.1 → ¬ e'.type.Dependency) ∧
        e = ⟨a.1, finish, 0, .finishStart⟩ := by
  set ids := ws.map (·.1) with hids
  set info : Nat × List Entry → Nat × List (Nat × Int × EdgeType) := fun a =>
    (a.1, (a.2.filter fun l => l.1 ∈ ids).map fun l => (l.1, l.2.2.1, l.2.1)) with hinfo
  have hkept : ∀ a, infoEdges (info a) = keptEdges ids a := by
    intro a
    simp [infoEdges, info, keptEdges, List.map_map, Function.comp_def]
  have hinfos : (mapAll (fun r : Row => (edgesOf ((ws.map aligned).map (·.id)) r.preds r.types r.lags).map fun es => (r.id, es))
      (ws.map aligned)) = some (ws.map info) := by
    have hid : (ws.map aligned).map (·.id) = ids := by rw [List.map_map]; rfl
    rw [hid]
    refine mapAll_map (fun a => ?_) ws
    simp only [aligned, edgesOf_aligned, Option.map_some, info]
  have hmapids : (ws.map info).map (·.1) = ids := by rw [List.map_map]; rfl
  obtain ⟨hperm, hbefore⟩ := hs (ws.map info) (by rw [hmapids]; exact hnd) (by
    intro x hx
    refine hac x (Relation.TransGen.mono ?_ x x hx)
    rintro p v ⟨i, hi, rfl, l, hl, rfl⟩
    obtain ⟨a, ha, rfl⟩ := List.mem_map.mp hi
    obtain ⟨l', hl', rfl⟩ := List.mem_map.mp hl
    obtain ⟨h1, h2⟩ := List.mem_filter.mp hl'
    exact ⟨by simpa using h2, a, ha, rfl, l', h1, rfl⟩)
  set sorted := sort (ws.map info) with hsorted
  have hbuild := buildNodes_eq sorted [] .empty fun before i after he l hl => by
    rw [List.nil_append]
    refine hbefore before i after he l hl ?_
    have hi : i ∈ ws.map info := hperm.mem_iff.mp (by rw [he]; simp)
    obtain ⟨a, ha, rfl⟩ := List.mem_map.mp hi
    obtain ⟨l', hl', rfl⟩ := List.mem_map.mp hl
    rw [hmapids]
    simpa using (List.mem_filter.mp hl').2
  set G := (sorted.flatMap infoEdges).foldl Graph.addEdge .empty with hG
  have hto : ∀ v, G.edgesTo v = (sorted.flatMap infoEdges).filter fun e => e.finish = v := fun v => Graph.ofEdges_to _ v
  have hfrom : ∀ v, G.edgesFrom v = (sorted.flatMap infoEdges).filter fun e => e.start = v := fun v => Graph.ofEdges_from _ v
  have hlinked : G.Linked := Graph.linked_ofEdges _
  have hsnd : (sorted.map (·.1)).Nodup := by
    rw [(hperm.map _).nodup_iff, hmapids]; exact hnd
  have hmem : ∀ e, e ∈ sorted.flatMap infoEdges ↔ ∃ a ∈ ws, e ∈ keptEdges ids a := by
    intro e
    rw [List.mem_flatMap]
    constructor
    · rintro ⟨i, hi, he⟩
      obtain ⟨a, ha, rfl⟩ := List.mem_map.mp (hperm.mem_iff.mp hi)
      exact ⟨a, ha, by rw [← hkept]; exact he⟩
    · rintro ⟨a, ha, he⟩
      exact ⟨info a, hperm.mem_iff.mpr (List.mem_map_of_mem ha), by rw [hkept]; exact he⟩
  have hends : ∀ e ∈ sorted.flatMap infoEdges, e.start ∈ ids ∧ e.finish ∈ ids := by
    intro e he
    obtain ⟨a, ha, he⟩ := (hmem e).mp he
    obtain ⟨l, hl, rfl⟩ := List.mem_map.mp he
    exact ⟨by simpa using (List.mem_filter.mp hl).2, List.mem_map_of_mem ha⟩
  have hGa : ∀ a ∈ ws, G.edgesTo a.1 = keptEdges ids a := by
    intro a ha
    rw [hto, ← hkept]
    exact filter_flatMap_infoEdges hsnd (info a) (hperm.mem_iff.mpr (List.mem_map_of_mem ha))
  have harr : (arrange ids).Perm ids := har ids
  have free : ∀ v, v ∉ ids → G.edgesTo v = [] ∧ G.edgesFrom v = [] := by
    intro v hv
    rw [hto, hfrom, List.filter_eq_nil_iff, List.filter_eq_nil_iff]
    refine ⟨fun e he => ?_, fun e he => ?_⟩
    · have : e.finish ≠ v := fun h => hv (h ▸ (hends e he).2)
      simpa using this
    · have : e.start ≠ v := fun h => hv (h ▸ (hends e he).1)
      simpa using this
  have hin : C32.Input G start finish (arrange ids) :=
    { once := harr.nodup_iff.mpr hnd
      linked := hlinked
      start_new := fun h => hst (harr.mem_iff.mp h)
      finish_new := fun h => hfi (harr.mem_iff.mp h)
      distinct := hsf
      start_free := free _ hst
      finish_free := free _ hfi }
  have hcl : G.ClosedIn (arrange ids) := by
    intro v _
    rw [hto, hfrom]
    exact ⟨fun e he => harr.mem_iff.mpr (hends e (List.mem_filter.mp he).1).1,
      fun e he => harr.mem_iff.mpr (hends e (List.mem_filter.mp he).1).2⟩
  obtain ⟨g, hg, hproj, hreach⟩ := C32.project hin (by
      intro h
      rw [h] at harr
      exact hne (List.map_eq_nil_iff.mp harr.symm.eq_nil)) hcl (by
    intro v _ hv
    refine hac v (Relation.TransGen.mono ?_ v v hv)
    rintro p v ⟨e, he, rfl⟩
    rw [hto, List.mem_filter] at he
    obtain ⟨he, hev⟩ := he
    obtain ⟨a, ha, he'⟩ := (hmem e).mp he
    obtain ⟨l, hl, rfl⟩ := List.mem_map.mp he'
    exact ⟨(hends _ he).1, a, ha, by simpa using hev, l, (List.mem_filter.mp hl).1, rfl⟩)
  obtain ⟨new, hnew, hnm, hgt, -, -⟩ := C32.exact_edges hin hg
  have hpp : (start :: finish :: arrange ids).Perm (start :: finish :: ids) := (harr.cons _).cons _
  have hdep : ∀ a ∈ ws, (∀ p, ¬ G.DependsOn a.1 p) ↔ ¬ ∃ e ∈ keptEdges ids a, e.type.Dependency := by
    intro a ha
    unfold Graph.DependsOn EdgeType.Dependency
    rw [hGa a ha]
    constructor
    · rintro h ⟨e, he, ht⟩
      exact h _ ⟨e, he, rfl, ht⟩
    · rintro h p ⟨e, he, rfl, ht⟩
      exact h ⟨e, he, ht⟩
  refine ⟨g, ?_, project_perm hproj hpp, fun v hv => hreach v (hpp.mem_iff.mpr hv), fun a ha => ?_, ?_, fun e => ?_⟩
  · unfold workGraph
    rw [hinfos, Option.bind_some, ← hsorted, hbuild, Option.bind_some, hmapids]
    exact hg
  · rw [hgt, hGa a ha]
    congr 1
    have haid : a.1 ∈ ids := List.mem_map_of_mem ha
    have hiff : ∀ e, e ∈ new.filter (fun e => decide (e.finish = a.1)) ↔
        (¬ ∃ e ∈ keptEdges ids a, e.type.Dependency) ∧ e = ⟨start, a.1, 0, .finishStart⟩ := by
      intro e
      rw [List.mem_filter, hnm, ← hdep a ha]
      constructor
      · rintro ⟨⟨v, hv, h1, rfl⟩ | ⟨v, hv, h1, rfl⟩, h2⟩
        · obtain rfl : v = a.1 := by simpa using h2
          exact ⟨h1, rfl⟩
        · obtain rfl : finish = a.1 := by simpa using h2
          exact absurd haid hfi
      · rintro ⟨h1, rfl⟩
        exact ⟨Or.inl ⟨a.1, harr.mem_iff.mpr haid, h1, rfl⟩, by simp⟩
    have hnn := hnew.filter (fun e => decide (e.finish = a.1))
    have hany : ((keptEdges ids a).any fun e => e.type.Dependency) = true ↔ ∃ e ∈ keptEdges ids a, e.type.Dependency := by
      simp [List.any_eq_true]
    split
    · rename_i hd
      rw [hany] at hd
      rw [List.eq_nil_iff_forall_not_mem]
      exact fun e he => ((hiff e).mp he).1 hd
    · rename_i hd
      rw [hany] at hd
      have hone : (new.filter fun e => decide (e.finish = a.1)).Perm [⟨start, a.1, 0, .finishStart⟩] := by
        rw [List.perm_ext_iff_of_nodup hnn (by simp)]
        intro e
        rw [hiff]
        simp [hd]
      exact List.perm_singleton.mp hone
  · rw [hgt, (free finish hfi).1, List.nil_append]
    exact hnew.filter _
  · rw [hgt, (free finish hfi).1, List.nil_append, List.mem_filter, hnm]
    have hdepOn : ∀ a ∈ ws, (∀ c, ¬ G.DependsOn c a.1) ↔
        ∀ b ∈ ws, ∀ e' ∈ keptEdges ids b, e'.start = a.1 → ¬ e'.type.Dependency := by
      intro a ha
      constructor
      · intro h b hb e' he' hs' ht
        exact h b.1 ⟨e', by rw [hGa b hb]; exact he', hs', ht⟩
      · rintro h c ⟨e, he, hs', ht⟩
        rw [hto, List.mem_filter] at he
        obtain ⟨b, hb, he'⟩ := (hmem e).mp he.1
        exact h b hb e he' hs' ht
    constructor
    · rintro ⟨⟨v, hv, h1, rfl⟩ | ⟨v, hv, h1, rfl⟩, h2⟩
      · obtain rfl : v = finish := by simpa using h2
        exact absurd (harr.mem_iff.mp hv) hfi
      · obtain ⟨a, ha, rfl⟩ := List.mem_map.mp (harr.mem_iff.mp hv)
        exact ⟨a, ha, (hdepOn a ha).mp h1, rfl⟩
    · rintro ⟨a, ha, h1, rfl⟩
      exact ⟨Or.inr ⟨a.1, harr.mem_iff.mpr (List.mem_map_of_mem ha), (hdepOn a ha).mpr h1, rfl⟩, by simp⟩

end Sampo.Table
