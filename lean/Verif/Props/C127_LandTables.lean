import Verif.Model.LandTables
import Mathlib.Data.List.Nodup

/-!
# C127: platforms of works and holders of nodes
-/

namespace Sampo.C127
open LandTables

variable {nodes : List Node} {holders : List Holder}

private theorem last_some {β : Type} {d : List (Nat × β)} {k : Nat} {b : β} (h : setLast d k = some b) : (k, b) ∈ d := by
  unfold setLast at h
  obtain ⟨e, he, rfl⟩ := Option.map_eq_some_iff.1 h
  have := List.mem_filter.1 (List.mem_of_getLast? he)
  have hk : e.1 = k := by simpa using this.2
  rw [← hk]
  exact this.1

private theorem last_none {β : Type} {d : List (Nat × β)} {k : Nat} : setLast d k = none ↔ ∀ b, (k, b) ∉ d := by
  unfold setLast
  rw [Option.map_eq_none_iff, List.getLast?_eq_none_iff, List.filter_eq_nil_iff]
  constructor
  · intro h b hb
    exact h _ hb (by simp)
  · rintro h ⟨a, b⟩ he hk
    have hk : a = k := by simpa using hk
    exact h b (hk ▸ he)

/-- The platforms are the nodes without a holder, in their order. -/
theorem platforms_iff (n : Node) : n ∈ platforms nodes holders ↔ n ∈ nodes ∧ ∀ h ∈ holders, h.node ≠ n.id := by
  unfold platforms
  rw [List.mem_filter]
  simp

private theorem pair_iff (w : Nat) (n : Node) :
    (w, n) ∈ ((platforms nodes holders).flatMap fun n => n.works.map fun w => (w, n)) ↔ n ∈ platforms nodes holders ∧ w ∈ n.works := by
  rw [List.mem_flatMap]
  constructor
  · rintro ⟨m, hm, h⟩
    obtain ⟨v, hv, he⟩ := List.mem_map.1 h
    cases he
    exact ⟨hm, hv⟩
  · rintro ⟨hn, hw⟩
    exact ⟨n, hn, List.mem_map.2 ⟨w, hw, rfl⟩⟩

/-- The platform found for a work is a node without a holder that has the work. -/
theorem platform_sound {w : Nat} {n : Node} (h : platformOf nodes holders w = some n) :
    n ∈ nodes ∧ w ∈ n.works ∧ ∀ x ∈ holders, x.node ≠ n.id := by
  have h1 := (pair_iff w n).1 (last_some h)
  exact ⟨((platforms_iff n).1 h1.1).1, h1.2, ((platforms_iff n).1 h1.1).2⟩

/-- No platform is found exactly for works that are at no node or only at nodes with holders: for these the timelines raise. -/
theorem no_platform {w : Nat} : platformOf nodes holders w = none ↔ ∀ n ∈ nodes, w ∈ n.works → ∃ x ∈ holders, x.node = n.id := by
  unfold platformOf
  rw [last_none]
  constructor
  · intro h n hn hw
    by_contra hno
    push Not at hno
    exact h n ((pair_iff w n).2 ⟨(platforms_iff n).2 ⟨hn, hno⟩, hw⟩)
  · intro h n hb
    obtain ⟨h1, h2⟩ := (pair_iff w n).1 hb
    obtain ⟨h3, h4⟩ := (platforms_iff n).1 h1
    obtain ⟨x, hx, he⟩ := h n h3 h2
    exact h4 x hx he

/-- A work that is at one node gets this node as its platform, if the node has no holder.
Missing: works at nodes with holders, see `no_platform` and `at_holder_fails`. -/
theorem platform_partial {w : Nat} {n : Node} (hn : n ∈ nodes) (hw : w ∈ n.works) (hone : ∀ m ∈ nodes, w ∈ m.works → m = n)
    (hh : ∀ x ∈ holders, x.node ≠ n.id) : platformOf nodes holders w = some n := by
  cases h : platformOf nodes holders w with
  | none =>
    obtain ⟨x, hx, he⟩ := no_platform.1 h n hn hw
    exact absurd he (hh x hx)
  | some m =>
    obtain ⟨h1, h2, -⟩ := platform_sound h
    rw [hone m h1 h2]

/-- Of several platforms with a work, the last one is found. -/
theorem platform_last {w : Nat} {l1 l2 : List Node} {n : Node} (hw : w ∈ n.works) (hh : ∀ x ∈ holders, x.node ≠ n.id)
    (hlast : ∀ m ∈ l2, w ∈ m.works → ∃ x ∈ holders, x.node = m.id) : platformOf (l1 ++ n :: l2) holders w = some n := by
  have hp : platforms (l1 ++ n :: l2) holders = platforms l1 holders ++ n :: platforms l2 holders := by
    have hn : n ∈ platforms [n] holders := (platforms_iff n).2 ⟨List.mem_singleton.2 rfl, hh⟩
    unfold platforms at hn ⊢
    rw [List.filter_append, List.filter_cons, if_pos (List.mem_filter.1 hn).2]
  have h2 : ∀ b, (w, b) ∉ (platforms l2 holders).flatMap fun n => n.works.map fun w => (w, n) := last_none.1 (no_platform.2 hlast)
  unfold platformOf
  rw [hp, List.flatMap_append, List.flatMap_cons]
  unfold setLast
  have h2' : (((platforms l2 holders).flatMap fun n => n.works.map fun w => (w, n)).filter fun e => e.1 = w) = [] := by
    rw [List.filter_eq_nil_iff]
    rintro ⟨a, b⟩ he hk
    have hk : a = w := by simpa using hk
    exact h2 b (hk ▸ he)
  rw [List.filter_append, List.filter_append, h2', List.append_nil]
  have hne : ((n.works.map fun w => (w, n)).filter fun e => e.1 = w) ≠ [] :=
    List.ne_nil_of_mem (List.mem_filter.2 ⟨List.mem_map.2 ⟨w, hw, rfl⟩, by simp⟩)
  rw [List.getLast?_append_of_ne_nil _ hne, List.getLast?_eq_some_getLast hne]
  obtain ⟨v, -, hv⟩ := List.mem_map.1 (List.mem_filter.1 (List.getLast_mem hne)).1
  rw [← hv]
  rfl

/-- Of several holders at a node, the last one is found. -/
theorem holder_last {l1 l2 : List Holder} {x : Holder} (h : ∀ y ∈ l2, y.node ≠ x.node) : holderAt (l1 ++ x :: l2) x.node = some x := by
  unfold holderAt setLast
  have h2 : ((l2.map fun h => (h.node, h)).filter fun e => e.1 = x.node) = [] := by
    rw [List.filter_eq_nil_iff]
    intro e he
    obtain ⟨y, hy, rfl⟩ := List.mem_map.1 he
    simpa using h y hy
  rw [List.map_append, List.map_cons, List.filter_append, List.filter_cons_of_pos (by simp), h2]
  simp

/-- Every holder is found by its node if no two are at one node.
Missing: nodes with more than one holder, see `holders_fail`. -/
theorem holder_partial (hone : (holders.map (·.node)).Nodup) (x : Holder) (node : Nat) :
    holderAt holders node = some x ↔ x ∈ holders ∧ x.node = node := by
  unfold holderAt
  constructor
  · intro h
    obtain ⟨y, hy, he⟩ := List.mem_map.1 (last_some h)
    cases he
    exact ⟨hy, rfl⟩
  · rintro ⟨hx, rfl⟩
    cases h : setLast (holders.map fun h => (h.node, h)) x.node with
    | none => exact absurd (List.mem_map.2 ⟨x, hx, rfl⟩) (last_none.1 h x)
    | some y =>
      obtain ⟨z, hz, he⟩ := List.mem_map.1 (last_some h)
      have h1 : z.node = x.node := congrArg Prod.fst he
      have h2 : z = y := congrArg Prod.snd he
      rw [← h2, List.inj_on_of_nodup_map hone hz hx h1]

/-! ### Three nodes, of which one or two have holders -/

private def land : List Node := [⟨1, [10, 11]⟩, ⟨2, [12]⟩, ⟨3, []⟩]

example : platforms land [⟨7, 3⟩] = [⟨1, [10, 11]⟩, ⟨2, [12]⟩] := by decide
example : platformOf land [⟨7, 3⟩] 11 = some ⟨1, [10, 11]⟩ :=
  platform_partial (by decide) (by decide) (by decide) (by decide)
example : platformOf (land ++ [⟨4, [10]⟩]) [⟨7, 3⟩] 10 = some ⟨4, [10]⟩ := platform_last (l1 := land) (by decide) (by decide) (by simp)
example : holderAt [⟨7, 3⟩, ⟨9, 3⟩, ⟨8, 2⟩] 3 = some ⟨9, 3⟩ := holder_last (l1 := [⟨7, 3⟩]) (l2 := [⟨8, 2⟩]) (x := ⟨9, 3⟩) (by decide)
example : holderAt [⟨7, 3⟩, ⟨8, 2⟩] 3 = some ⟨7, 3⟩ := (holder_partial (by decide) _ _).2 (by decide)

/-- Not proved because false: every work that is at a node has a platform. -/
theorem at_holder_fails : ∃ (nodes : List Node) (holders : List Holder) (n : Node) (w : Nat), n ∈ nodes ∧ w ∈ n.works ∧
    (∀ m ∈ nodes, w ∈ m.works → m = n) ∧ platformOf nodes holders w = none :=
  ⟨land, [⟨7, 3⟩, ⟨8, 2⟩], ⟨2, [12]⟩, 12, by decide, by decide, by decide, by decide⟩

/-- Not proved because false: every holder is found by its node.  Of two holders at a node the first one is never found. -/
theorem holders_fail : ∃ (holders : List Holder) (x : Holder), x ∈ holders ∧ ∀ node, holderAt holders node ≠ some x := by
  refine ⟨[⟨7, 3⟩, ⟨8, 3⟩], ⟨7, 3⟩, by decide, ?_⟩
  intro node h
  have h1 := last_some h
  have hn : node = 3 := by simpa using h1
  subst hn
  exact absurd h (by decide)

end Sampo.C127
