import Verif.Lemmas.Cycles
import Mathlib.Data.List.Chain
import Mathlib.Data.List.Perm.Subperm
import Mathlib.Data.List.Nodup
import Mathlib.Data.List.Dedup

namespace Sampo.Cycles

/-! ### The search ends -/

theorem sum_filter_add_le {f : Nat → Nat} {p p' : Nat → Bool} (hpp : ∀ x, p' x = true → p x = true) {v : Nat} (hv : p v = true)
    (hv' : p' v = false) : ∀ {V : List Nat}, v ∈ V → ((V.filter p').map f).sum + f v ≤ ((V.filter p).map f).sum
  | x :: V, hm => by
    have hle : ∀ V : List Nat, ((V.filter p').map f).sum ≤ ((V.filter p).map f).sum := by
      intro V
      induction V with
      | nil => simp
      | cons y V ih =>
        by_cases h' : p' y = true
        · rw [List.filter_cons_of_pos h', List.filter_cons_of_pos (hpp y h')]
          simp only [List.map_cons, List.sum_cons]; omega
        · rw [List.filter_cons_of_neg h']
          by_cases h : p y = true
          · rw [List.filter_cons_of_pos h]; simp only [List.map_cons, List.sum_cons]; omega
          · rw [List.filter_cons_of_neg h]; exact ih
    rcases List.mem_cons.mp hm with rfl | hm
    · rw [List.filter_cons_of_neg (by rw [hv']; decide), List.filter_cons_of_pos hv]
      have := hle V
      simp only [List.map_cons, List.sum_cons]; omega
    · have ih := sum_filter_add_le (f := f) hpp hv hv' hm
      by_cases h' : p' x = true
      · rw [List.filter_cons_of_pos h', List.filter_cons_of_pos (hpp x h')]
        simp only [List.map_cons, List.sum_cons]; omega
      · rw [List.filter_cons_of_neg h']
        by_cases h : p x = true
        · rw [List.filter_cons_of_pos h]; simp only [List.map_cons, List.sum_cons]; omega
        · rw [List.filter_cons_of_neg h]; exact ih

/-- Vertexes not seen yet. -/
def white (vis : Nat → Nat) (x : Nat) : Bool := vis x ≠ 1 && vis x ≠ 2

theorem dfs_ends {V : List Nat} : ∀ (fuel : Nat) (stack : List Nat) (vis : Nat → Nat) (g : Graph),
    (∀ x ∈ V, ∀ n, Adj g.adj x n → n ∈ V) → (∀ x ∈ stack, x ∈ V) →
    ((V.filter (white vis)).map fun x => (g.adj x).length + 2).sum + stack.length ≤ fuel →
    ∃ b vis' g', dfsCycle fuel stack vis g = some (b, vis', g') ∧ ((∀ x ∈ g.keys, x ∈ V) → ∀ x ∈ g'.keys, x ∈ V)
  | fuel, [], vis, g, _, _, _ => ⟨false, vis, g, by cases fuel <;> rfl, fun h => h⟩
  | 0, _ :: _, _, _, _, _, h => by simp at h
  | fuel + 1, v :: stack, vis, g, hcl, hs, hf => by
    have hvV := hs v List.mem_cons_self
    have hs' : ∀ x ∈ stack, x ∈ V := fun x hx => hs x (List.mem_cons_of_mem _ hx)
    rw [List.length_cons] at hf
    unfold dfsCycle
    by_cases h1 : vis v = 1
    · rw [if_pos h1]
      refine dfs_ends fuel stack _ g hcl hs' ?_
      have : white (Function.update vis v 2) = white vis := by
        funext x
        unfold white
        by_cases he : x = v
        · rw [he, Function.update_self, h1]; rfl
        · rw [Function.update_of_ne he]
      rw [this]; omega
    · rw [if_neg h1]
      by_cases h2 : vis v = 2
      · rw [if_pos h2]
        exact dfs_ends fuel stack vis g hcl hs' (by omega)
      · rw [if_neg h2]
        have hkeys : (∀ x ∈ g.keys, x ∈ V) → ∀ x ∈ (g.touch v).keys, x ∈ V := by
          intro h x hx
          rcases (g.touch_keys v x).mp hx with hx | rfl
          · exact h x hx
          · exact hvV
        cases hp : push (Function.update vis v 1) (g.adj v) (v :: stack) with
        | none => exact ⟨true, _, _, rfl, hkeys⟩
        | some st =>
          dsimp only
          obtain ⟨P, rfl, hlen, hP, _⟩ := push_some hp
          have hadj := g.touch_adj v
          have := sum_filter_add_le (f := fun x => (g.adj x).length + 2) (p := white vis) (p' := white (Function.update vis v 1))
            (v := v) (by
              intro x hx
              by_cases he : x = v
              · rw [he] at hx; unfold white at hx; rw [Function.update_self] at hx; simp at hx
              · unfold white at hx ⊢; rwa [Function.update_of_ne he] at hx)
            (by unfold white; simp [h1, h2]) (by unfold white; rw [Function.update_self]; rfl) hvV
          obtain ⟨b, vis', g', h3, h4⟩ := dfs_ends (V := V) fuel (P ++ v :: stack) (Function.update vis v 1) (g.touch v)
            (by rw [hadj]; exact hcl) (by
              intro x hx
              rcases List.mem_append.mp hx with hx | hx
              · exact hcl v hvV x (hP x hx).2
              · exact hs x hx)
            (by rw [hadj, List.length_append, List.length_cons]; omega)
          exact ⟨b, vis', g', h3, fun h => h4 (hkeys h)⟩

/-! ### The walk along grey vertexes -/

/-- Consecutive vertexes are joined by edges. -/
def Path (adj : Nat → List (Nat × Option Int)) (l : List Nat) : Prop := l.IsChain (Adj adj)

theorem Path.append {adj : Nat → List (Nat × Option Int)} {l : List Nat} {v n : Nat} (h : Path adj l) (hl : l.getLast? = some v)
    (hn : Adj adj v n) : Path adj (l ++ [n]) := by
  unfold Path at h ⊢
  rw [List.isChain_append]
  refine ⟨h, List.isChain_singleton n, ?_⟩
  intro x hx y hy
  rw [hl] at hx
  obtain rfl := Option.some.inj hx
  obtain rfl : n = y := Option.some.inj hy
  exact hn

theorem walk_spec {vis : Nat → Nat} {g : Graph} (hg : ∀ v, vis v = 1 → ∃ n, Adj g.adj v n ∧ vis n = 1) {V : List Nat}
    (hV : ∀ x ∈ V, ∀ n, Adj g.adj x n → n ∈ V) : ∀ (fuel v : Nat) (path : List Nat), path.getLast? = some v →
    (∀ x ∈ path, vis x = 1 ∧ x ∈ V) →
    Path g.adj path → path.dropLast.Nodup → V.length + 2 ≤ fuel + path.length →
    ∃ res, walk vis g fuel v path = some res ∧ Path g.adj res ∧ ∃ x, res.getLast? = some x ∧ x ∈ res.dropLast
  | 0, v, path, hl, hp, _, hn, hf => by
    exfalso
    have h1 : path.dropLast.length ≤ V.length := (hn.subperm fun x hx => (hp x (List.dropLast_subset _ hx)).2).length_le
    rw [List.length_dropLast] at h1
    omega
  | fuel + 1, v, path, hl, hp, hpath, hn, hf => by
    unfold walk
    by_cases hv : v ∈ path.dropLast
    · rw [if_pos hv]
      exact ⟨path, rfl, hpath, v, hl, hv⟩
    · rw [if_neg hv]
      have hv1 : vis v = 1 := (hp v (List.mem_of_getLast? hl)).1
      obtain ⟨n, ⟨w, hw⟩, hn1⟩ := hg v hv1
      cases hfind : (g.adj v).find? fun n => decide (vis n.1 = 1) with
      | none =>
        have := List.find?_eq_none.mp hfind (n, w) hw
        simp [hn1] at this
      | some m =>
        have hm1 : vis m.1 = 1 := by simpa using List.find?_some hfind
        have hm2 : (m.1, m.2) ∈ g.adj v := List.mem_of_find?_eq_some hfind
        simp only [Option.map_some, Option.getD_some]
        refine walk_spec hg hV fuel m.1 (path ++ [m.1]) (by simp) ?_ (hpath.append hl ⟨m.2, hm2⟩) ?_ (by simp; omega)
        · intro x hx
          rcases List.mem_append.mp hx with hx | hx
          · exact hp x hx
          · rw [List.mem_singleton.mp hx]; exact ⟨hm1, hV v (hp v (List.mem_of_getLast? hl)).2 _ ⟨m.2, hm2⟩⟩
        · rw [List.dropLast_concat]
          have hpe : path = path.dropLast ++ [v] := by
            have hne : path ≠ [] := by rintro rfl; cases hl
            rw [List.getLast?_eq_some_getLast hne] at hl
            rw [← Option.some.inj hl, List.dropLast_append_getLast]
          rw [hpe, List.nodup_append]
          refine ⟨hn, List.nodup_singleton v, ?_⟩
          intro a ha b hb hab
          rw [List.mem_singleton.mp hb] at hab
          exact hv (hab ▸ ha)

/-- A closed walk: at least one edge, consecutive vertexes joined by edges, the last vertex equal to the first. -/
structure Closed (adj : Nat → List (Nat × Option Int)) (c : List Nat) : Prop where
  path : Path adj c
  long : 2 ≤ c.length
  closed : c.head? = c.getLast?

theorem trim_closed {adj : Nat → List (Nat × Option Int)} {path : List Nat} (h : Path adj path) {x : Nat}
    (hl : path.getLast? = some x) (hx : x ∈ path.dropLast) : Closed adj (trim path) := by
  obtain ⟨a, b, hab⟩ : ∃ a b, path.dropLast = a ++ x :: b ∧ x ∉ a := by
    obtain ⟨a, b, h1, h2⟩ := List.eq_append_cons_of_mem hx
    exact ⟨a, b, h1, h2⟩
  obtain ⟨hab, hxa⟩ := hab
  have hne : path ≠ [] := by rintro rfl; cases hl
  have hpe : path = a ++ (x :: (b ++ [x])) := by
    rw [List.getLast?_eq_some_getLast hne] at hl
    rw [← List.dropLast_append_getLast hne, Option.some.inj hl, hab]; simp
  have ht : trim path = x :: (b ++ [x]) := by
    unfold trim
    rw [hl, hpe, List.dropWhile_append_of_pos (by
      intro y hy
      simp only [ne_eq, Option.some.injEq, decide_eq_true_eq]
      rintro rfl
      exact hxa hy)]
    simp
  rw [ht]
  refine ⟨?_, by simp, ?_⟩
  · unfold Path at h ⊢
    rw [hpe, List.isChain_append] at h
    exact h.2.1
  · have : x :: (b ++ [x]) = (x :: b) ++ [x] := rfl
    rw [this, List.getLast?_concat]; rfl

/-! ### `find_cycle` -/

/-- A vertex with neighbours is a key. -/
def WF (g : Graph) : Prop := ∀ v, g.adj v ≠ [] → v ∈ g.keys

theorem mem_foldl_new : ∀ (l acc : List Nat) (x : Nat),
    x ∈ l.foldl (fun l x => if x ∈ l then l else l ++ [x]) acc ↔ x ∈ acc ∨ x ∈ l
  | [], acc, x => by simp
  | y :: l, acc, x => by
    rw [List.foldl_cons, mem_foldl_new l]
    split
    · rename_i h
      rw [List.mem_cons]
      exact ⟨fun h => h.imp id Or.inr, fun k => k.elim Or.inl fun k => k.elim (fun he => Or.inl (he ▸ h)) Or.inr⟩
    · simp [or_assoc]

theorem mem_vertexes {g : Graph} {x : Nat} : x ∈ g.vertexes ↔ x ∈ g.keys ∨ ∃ k ∈ g.keys, Adj g.adj k x := by
  unfold Graph.vertexes
  rw [mem_foldl_new]
  simp only [List.not_mem_nil, false_or, List.mem_flatMap, List.mem_append, List.mem_map, List.mem_singleton]
  constructor
  · rintro ⟨k, hk, ⟨n, hn, rfl⟩ | rfl⟩
    · exact Or.inr ⟨k, hk, n.2, hn⟩
    · exact Or.inl hk
  · rintro (h | ⟨k, hk, w, hw⟩)
    · exact ⟨x, h, Or.inr rfl⟩
    · exact ⟨k, hk, Or.inl ⟨_, hw, rfl⟩⟩

theorem DInv.white_top {adj : Nat → List (Nat × Option Int)} {vis : Nat → Nat} (h : DInv adj vis []) (k : Nat) :
    DInv adj vis [(false, k)] where
  range := h.range
  grey v := by rw [h.grey v]; simp
  marked := trivial
  chained := ⟨(fun u hu => by unfold near at hu; cases hu), trivial⟩
  black := h.black
  acyclic := h.acyclic

/-- The steps needed at most. -/
def cost (V : List Nat) (g : Graph) : Nat := (V.map fun x => (g.adj x).length + 2).sum + 1

theorem sum_filter_le {f : Nat → Nat} {p : Nat → Bool} : ∀ (V : List Nat), ((V.filter p).map f).sum ≤ (V.map f).sum
  | [] => le_refl _
  | y :: V => by
    have := sum_filter_le (f := f) (p := p) V
    by_cases h : p y = true
    · rw [List.filter_cons_of_pos h]; simp only [List.map_cons, List.sum_cons]; omega
    · rw [List.filter_cons_of_neg h]; simp only [List.map_cons, List.sum_cons]; omega

theorem length_le_cost (V : List Nat) (g : Graph) : 2 * V.length + 1 ≤ cost V g := by
  unfold cost
  induction V with
  | nil => simp
  | cons y V ih => simp only [List.map_cons, List.sum_cons, List.length_cons]; omega

theorem findLoop_spec {V : List Nat} {fuel : Nat} : ∀ (ks : List Nat) (vis : Nat → Nat) (g : Graph),
    (∀ x ∈ V, ∀ n, Adj g.adj x n → n ∈ V) → (∀ x ∈ ks, x ∈ V) → cost V g ≤ fuel → DInv g.adj vis [] →
    ∃ r g', findLoop fuel ks vis g = some (r, g') ∧ g'.adj = g.adj ∧ (∀ x ∈ g.keys, x ∈ g'.keys) ∧
      ((∀ x ∈ g.keys, x ∈ V) → ∀ x ∈ g'.keys, x ∈ V) ∧
      (r = none → ∃ vis', DInv g.adj vis' [] ∧ (∀ v, vis v = 2 → vis' v = 2) ∧ ∀ k ∈ ks, vis' k = 2) ∧
      (∀ path, r = some path → Path g.adj path ∧ ∃ x, path.getLast? = some x ∧ x ∈ path.dropLast)
  | [], vis, g, _, _, _, hI => ⟨none, g, rfl, rfl, fun _ h => h, fun h => h, fun _ => ⟨vis, hI, fun _ h => h, by simp⟩,
      fun _ h => by cases h⟩
  | k :: ks, vis, g, hcl, hks, hf, hI => by
    have hkV := hks k List.mem_cons_self
    have hks' : ∀ x ∈ ks, x ∈ V := fun x hx => hks x (List.mem_cons_of_mem _ hx)
    unfold findLoop
    by_cases h0 : vis k = 0
    · rw [if_pos h0]
      obtain ⟨b, vis', g', h1, h2⟩ := dfs_ends (V := V) fuel [k] vis g hcl (by simpa using hkV) (by
        have := sum_filter_le (f := fun x => (g.adj x).length + 2) (p := white vis) V
        unfold cost at hf
        rw [List.length_singleton]; omega)
      obtain ⟨k1, k2, k3, k4, k5⟩ := dfs_spec fuel [(false, k)] vis vis' g g' b (hI.white_top k) h1
      rw [h1, Option.bind_some]
      cases b with
      | true =>
        obtain ⟨j1, j2⟩ := k4 rfl
        have hk1 : vis' k = 1 := j2 false k rfl (Or.inr ⟨rfl, h0⟩)
        have hlen := length_le_cost V g
        obtain ⟨res, i1, i2, i3⟩ := walk_spec (g := g') (vis := vis') (V := V) (by rw [k1]; exact j1) (by rw [k1]; exact hcl)
          fuel k [k] rfl (by
            intro x hx
            rw [List.mem_singleton.mp hx]; exact ⟨hk1, hkV⟩) (List.isChain_singleton k) (by simp) (by
            have : 0 < V.length := List.length_pos_of_mem hkV
            rw [List.length_singleton]; omega)
        rw [if_pos rfl, i1]
        refine ⟨some res, g', rfl, k1, k2, h2, fun h => by (cases h), fun path hp => ?_⟩
        obtain rfl := Option.some.inj hp
        rw [k1] at i2
        exact ⟨i2, i3⟩
      | false =>
        rw [if_neg (by simp)]
        obtain ⟨j1, j2⟩ := k5 rfl
        obtain ⟨r, g2, i1, i2, i3, i4, i5, i6⟩ := findLoop_spec (fuel := fuel) ks vis' g' (by rw [k1]; exact hcl) hks'
          (by unfold cost at *; rw [k1]; exact hf) (by rw [k1]; exact j1)
        rw [k1] at i2 i5 i6
        refine ⟨r, g2, i1, i2, fun x hx => i3 x (k2 x hx), fun h => i4 (h2 h), fun hr => ?_, i6⟩
        obtain ⟨v2, m1, m2, m3⟩ := i5 hr
        refine ⟨v2, m1, fun v hv => m2 v (k3 v hv), fun x hx => ?_⟩
        rcases List.mem_cons.mp hx with rfl | hx
        · exact m2 x (j2 (false, x) List.mem_cons_self)
        · exact m3 x hx
    · rw [if_neg h0]
      obtain ⟨r, g2, i1, i2, i3, i4, i5, i6⟩ := findLoop_spec ks vis g hcl hks' hf hI
      refine ⟨r, g2, i1, i2, i3, i4, fun hr => ?_, i6⟩
      obtain ⟨v2, m1, m2, m3⟩ := i5 hr
      refine ⟨v2, m1, m2, fun x hx => ?_⟩
      rcases List.mem_cons.mp hx with rfl | hx
      · refine m2 x ?_
        have h1 : vis x ≠ 1 := fun h => by
          have := (hI.grey x).mp h
          cases this
        have := hI.range x
        omega
      · exact m3 x hx

theorem findCycle_spec {V : List Nat} {fuel : Nat} {g : Graph} (hwf : WF g) (hcl : ∀ x ∈ V, ∀ n, Adj g.adj x n → n ∈ V)
    (hk : ∀ x ∈ g.keys, x ∈ V) (hf : cost V g ≤ fuel) :
    ∃ r g', findCycle fuel g = some (r, g') ∧ g'.adj = g.adj ∧ WF g' ∧ (∀ x ∈ g'.keys, x ∈ V) ∧ (∀ x ∈ g.keys, x ∈ g'.keys) ∧
      (r = none → ∀ x, ¬ Relation.TransGen (Adj g.adj) x x) ∧ (∀ path, r = some path → Closed g.adj (trim path)) := by
  obtain ⟨r, g', h1, h2, h3, h4, h5, h6⟩ := findLoop_spec (V := V) (fuel := fuel) g.vertexes (fun _ => 0) g hcl (by
      intro x hx
      rcases mem_vertexes.mp hx with h | ⟨k, h, h'⟩
      · exact hk x h
      · exact hcl k (hk k h) x h') hf
    ⟨fun _ => by omega, fun _ => ⟨fun h => by omega, fun h => by cases h⟩, trivial, trivial, fun _ h => by omega, fun _ h => by omega⟩
  refine ⟨r, g', h1, h2, fun v hv => h3 v (hwf v (by rw [← h2]; exact hv)), h4 hk, h3, fun hr x hx => ?_, fun path hp => ?_⟩
  · obtain ⟨vis, i1, _, i3⟩ := h5 hr
    obtain ⟨n, ⟨w, hw⟩, _⟩ := Relation.TransGen.head'_iff.mp hx
    have hx' : x ∈ g.keys := hwf x (List.ne_nil_of_mem hw)
    exact i1.acyclic x (i3 x (mem_vertexes.mpr (Or.inl hx'))) hx
  · obtain ⟨i1, x, i2, i3⟩ := h6 path hp
    exact trim_closed i1 i2 i3

/-! ### The lightest edge -/

private theorem inner_spec (e : Nat × Nat) : ∀ (ns : List (Nat × Option Int)) (best : Option (Int × (Nat × Nat))),
    let r := ns.foldl (fun best n => if n.1 = e.2 ∧ (∀ b ∈ best, n.2.getD 1 ≤ b.1) then some (n.2.getD 1, e) else best) best
    (r = best ∨ ∃ n ∈ ns, n.1 = e.2 ∧ r = some (n.2.getD 1, e)) ∧ (∀ b ∈ best, ∃ b' ∈ r, b'.1 ≤ b.1) ∧
      ∀ n ∈ ns, n.1 = e.2 → ∃ b' ∈ r, b'.1 ≤ n.2.getD 1
  | [], best => ⟨Or.inl rfl, fun b hb => ⟨b, hb, le_refl _⟩, by simp⟩
  | n :: ns, best => by
    dsimp only
    rw [List.foldl_cons]
    by_cases h : n.1 = e.2 ∧ ∀ b ∈ best, n.2.getD 1 ≤ b.1
    · rw [if_pos h]
      obtain ⟨h1, h2, h3⟩ := inner_spec e ns (some (n.2.getD 1, e))
      obtain ⟨b', hb', hle⟩ := h2 (n.2.getD 1, e) rfl
      refine ⟨Or.inr ?_, fun b hb => ⟨b', hb', le_trans hle (h.2 b hb)⟩, fun m hm hme => ?_⟩
      · rcases h1 with h1 | ⟨m, hm, hme, h1⟩
        · exact ⟨n, List.mem_cons_self, h.1, h1⟩
        · exact ⟨m, List.mem_cons_of_mem _ hm, hme, h1⟩
      · rcases List.mem_cons.mp hm with rfl | hm
        · exact ⟨b', hb', hle⟩
        · exact h3 m hm hme
    · rw [if_neg h]
      obtain ⟨h1, h2, h3⟩ := inner_spec e ns best
      refine ⟨?_, h2, fun m hm hme => ?_⟩
      · rcases h1 with h1 | ⟨m, hm, hme, h1⟩
        · exact Or.inl h1
        · exact Or.inr ⟨m, List.mem_cons_of_mem _ hm, hme, h1⟩
      · rcases List.mem_cons.mp hm with rfl | hm
        · have : ∃ b ∈ best, b.1 < m.2.getD 1 := by
            by_contra hc
            push Not at hc
            exact h ⟨hme, hc⟩
          obtain ⟨b, hb, hlt⟩ := this
          obtain ⟨b', hb', hle⟩ := h2 b hb
          exact ⟨b', hb', by omega⟩
        · exact h3 m hm hme

private theorem outer_spec (g : Graph) : ∀ (c : List (Nat × Nat)) (best : Option (Int × (Nat × Nat))),
    let r := c.foldl (fun best e => (g.adj e.1).foldl (fun best n =>
      if n.1 = e.2 ∧ (∀ b ∈ best, n.2.getD 1 ≤ b.1) then some (n.2.getD 1, e) else best) best) best
    (r = best ∨ ∃ e ∈ c, ∃ n ∈ g.adj e.1, n.1 = e.2 ∧ r = some (n.2.getD 1, e)) ∧ (∀ b ∈ best, ∃ b' ∈ r, b'.1 ≤ b.1) ∧
      ∀ e ∈ c, ∀ n ∈ g.adj e.1, n.1 = e.2 → ∃ b' ∈ r, b'.1 ≤ n.2.getD 1
  | [], best => ⟨Or.inl rfl, fun b hb => ⟨b, hb, le_refl _⟩, by simp⟩
  | e :: c, best => by
    dsimp only
    rw [List.foldl_cons]
    obtain ⟨i1, i2, i3⟩ := inner_spec e (g.adj e.1) best
    generalize (g.adj e.1).foldl (fun best n =>
      if n.1 = e.2 ∧ (∀ b ∈ best, n.2.getD 1 ≤ b.1) then some (n.2.getD 1, e) else best) best = best1 at *
    obtain ⟨h1, h2, h3⟩ := outer_spec g c best1
    refine ⟨?_, fun b hb => ?_, fun e' he' n hn hne => ?_⟩
    · rcases h1 with h1 | ⟨e', he', n, hn, hne, h1⟩
      · rcases i1 with i1 | ⟨n, hn, hne, i1⟩
        · exact Or.inl (h1.trans i1)
        · exact Or.inr ⟨e, List.mem_cons_self, n, hn, hne, h1.trans i1⟩
      · exact Or.inr ⟨e', List.mem_cons_of_mem _ he', n, hn, hne, h1⟩
    · obtain ⟨b1, hb1, hle1⟩ := i2 b hb
      obtain ⟨b2, hb2, hle2⟩ := h2 b1 hb1
      exact ⟨b2, hb2, le_trans hle2 hle1⟩
    · rcases List.mem_cons.mp he' with rfl | he'
      · obtain ⟨b1, hb1, hle1⟩ := i3 n hn hne
        obtain ⟨b2, hb2, hle2⟩ := h2 b1 hb1
        exact ⟨b2, hb2, le_trans hle2 hle1⟩
      · exact h3 e' he' n hn hne

/-- On a list of edges with at least one element the lightest edge is found. -/
theorem lightest_spec {g : Graph} {c : List (Nat × Nat)} (hne : c ≠ []) (hc : ∀ e ∈ c, Adj g.adj e.1 e.2) :
    ∃ w e, lightest g c = some (w.getD 1, e) ∧ e ∈ c ∧ (e.2, w) ∈ g.adj e.1 ∧
      ∀ e' ∈ c, ∀ w', (e'.2, w') ∈ g.adj e'.1 → w.getD 1 ≤ w'.getD 1 := by
  obtain ⟨h1, _, h3⟩ := outer_spec g c none
  change (lightest g c = none ∨ _) at h1
  change ∀ e ∈ c, ∀ n ∈ g.adj e.1, n.1 = e.2 → ∃ b' ∈ lightest g c, b'.1 ≤ n.2.getD 1 at h3
  rcases h1 with h1 | ⟨e, he, n, hn, hne', h1⟩
  · obtain ⟨e, he⟩ := List.exists_mem_of_ne_nil c hne
    obtain ⟨w, hw⟩ := hc e he
    obtain ⟨b, hb, _⟩ := h3 e he (e.2, w) hw rfl
    rw [h1] at hb; cases hb
  · change lightest g c = some (n.2.getD 1, e) at h1
    refine ⟨n.2, e, h1, he, by rw [← hne']; exact hn, fun e' he' w' hw' => ?_⟩
    obtain ⟨b, hb, hle⟩ := h3 e' he' (e'.2, w') hw' rfl
    rw [h1] at hb
    obtain rfl := Option.some.inj hb
    exact hle

/-! ### `eliminate_cycles` -/

/-- Edges with these ends are kept, and an edge that is not kept is a lightest one of a closed walk. -/
def Keeps (g g' : Graph) (keep : Nat → Nat → Bool) : Prop :=
  (∀ v, g'.adj v = (g.adj v).filter fun n => keep v n.1) ∧
  ∀ u v, Adj g.adj u v → keep u v = false → ∃ c, Closed g.adj c ∧ (u, v) ∈ c.zip c.tail ∧ ∃ w, (v, w) ∈ g.adj u ∧
    ∀ e ∈ c.zip c.tail, ∀ w', (e.2, w') ∈ g.adj e.1 → w.getD 1 ≤ w'.getD 1

theorem Closed.adj {adj : Nat → List (Nat × Option Int)} {c : List Nat} (h : Closed adj c) : ∀ e ∈ c.zip c.tail, Adj adj e.1 e.2 := by
  have hp := h.path
  clear h
  unfold Path at hp
  induction c with
  | nil => simp
  | cons x c ih =>
    cases c with
    | nil => simp
    | cons y c =>
      intro e he
      rw [List.isChain_cons_cons] at hp
      rcases List.mem_cons.mp he with rfl | he
      · exact hp.1
      · exact ih hp.2 e he

theorem eliminateCycle_spec {g : Graph} {c : List Nat} (hc : Closed g.adj c) (hwf : WF g) :
    ∃ g' a b, eliminateCycle g c = some g' ∧ (∀ x, x ∈ g'.keys ↔ x ∈ g.keys) ∧ WF g' ∧ Adj g.adj a b ∧
      Keeps g g' (fun u v => !decide (u = a ∧ v = b)) := by
  have hne : c.zip c.tail ≠ [] := by
    have := hc.long
    match c, this with
    | _ :: _ :: _, _ => simp
  obtain ⟨w, e, h1, h2, h3, h4⟩ := lightest_spec hne hc.adj
  have hk : e.1 ∈ g.keys := hwf e.1 (List.ne_nil_of_mem h3)
  have hadj : ∀ v, Function.update g.adj e.1 ((g.adj e.1).filter fun n => n.1 ≠ e.2) v
      = (g.adj v).filter fun n => !decide (v = e.1 ∧ n.1 = e.2) := by
    intro v
    by_cases hv : v = e.1
    · subst hv
      rw [Function.update_self]
      apply List.filter_congr
      intro n _
      simp
    · rw [Function.update_of_ne hv, List.filter_eq_self.mpr]
      intro n _
      simp [hv]
  refine ⟨⟨(g.touch e.1).keys, Function.update g.adj e.1 ((g.adj e.1).filter fun n => n.1 ≠ e.2)⟩, e.1, e.2, by unfold eliminateCycle; rw [h1]; rfl, ?_, ?_, ⟨w, h3⟩, hadj, ?_⟩
  · intro x
    unfold Graph.touch
    rw [if_pos hk]
  · intro v hv
    dsimp only at hv ⊢
    unfold Graph.touch
    rw [if_pos hk]
    apply hwf
    intro h0
    apply hv
    rw [hadj, h0]; rfl
  · intro u v huv hkp
    simp only [Bool.not_eq_false', decide_eq_true_eq] at hkp
    obtain ⟨rfl, rfl⟩ := hkp
    exact ⟨c, hc, h2, w, h3, h4⟩

theorem Keeps.mem {g g' : Graph} {keep : Nat → Nat → Bool} (h : Keeps g g' keep) {u v : Nat} {w : Option Int} :
    (v, w) ∈ g'.adj u ↔ (v, w) ∈ g.adj u ∧ keep u v = true := by
  rw [h.1 u, List.mem_filter]

theorem Keeps.trans {g g1 g2 : Graph} {k1 k2 : Nat → Nat → Bool} (h1 : Keeps g g1 k1) (h2 : Keeps g1 g2 k2) :
    Keeps g g2 (fun u v => k1 u v && k2 u v) := by
  refine ⟨fun v => ?_, fun u v huv hkp => ?_⟩
  · rw [h2.1 v, h1.1 v, List.filter_filter]
    apply List.filter_congr
    intro n _
    exact Bool.and_comm _ _
  · cases hk : k1 u v with
    | false => exact h1.2 u v huv hk
    | true =>
      simp only [hk, Bool.true_and] at hkp
      obtain ⟨w0, hw0⟩ := huv
      obtain ⟨c, c1, c2, w, c3, c4⟩ := h2.2 u v ⟨w0, h1.mem.mpr ⟨hw0, hk⟩⟩ hkp
      refine ⟨c, ⟨?_, c1.long, c1.closed⟩, c2, w, (h1.mem.mp c3).1, fun e he w' hw' => ?_⟩
      · exact c1.path.imp fun a b ⟨w, hw⟩ => ⟨w, (h1.mem.mp hw).1⟩
      · obtain ⟨w1, hw1⟩ := c1.adj e he
        exact c4 e he w' (h1.mem.mpr ⟨hw', (h1.mem.mp hw1).2⟩)

theorem Keeps.cost {V : List Nat} {g g' : Graph} {keep : Nat → Nat → Bool} (h : Keeps g g' keep) {a b : Nat} (ha : a ∈ V)
    (hab : Adj g.adj a b) (hk : keep a b = false) : cost V g' + 1 ≤ cost V g := by
  unfold Cycles.cost
  have hle : ∀ v, (g'.adj v).length ≤ (g.adj v).length := fun v => by rw [h.1 v]; exact List.length_filter_le _ _
  have hlt : (g'.adj a).length < (g.adj a).length := by
    obtain ⟨w, hw⟩ := hab
    rw [h.1 a]
    exact List.length_filter_lt_length_iff_exists.mpr ⟨_, hw, by simp [hk]⟩
  have key : ∀ V : List Nat, (V.map fun x => (g'.adj x).length + 2).sum ≤ (V.map fun x => (g.adj x).length + 2).sum ∧
      (a ∈ V → (V.map fun x => (g'.adj x).length + 2).sum < (V.map fun x => (g.adj x).length + 2).sum) := by
    intro V
    induction V with
    | nil => simp
    | cons y V ih =>
      simp only [List.map_cons, List.sum_cons]
      have := hle y
      refine ⟨by omega, fun hm => ?_⟩
      rcases List.mem_cons.mp hm with rfl | hm
      · omega
      · have := ih.2 hm
        omega
  have := (key V).2 ha
  omega

theorem eliminateCycles_spec {V : List Nat} : ∀ (fuel : Nat) (g : Graph), WF g → (∀ x ∈ V, ∀ n, Adj g.adj x n → n ∈ V) →
    (∀ x ∈ g.keys, x ∈ V) → cost V g ≤ fuel →
    ∃ cycles g' keep, eliminateCycles fuel g = some (some (cycles, g')) ∧ (∀ x, ¬ Relation.TransGen (Adj g'.adj) x x) ∧
      Keeps g g' keep ∧ (∀ x ∈ g.keys, x ∈ g'.keys)
  | 0, g, _, _, _, hf => by unfold cost at hf; omega
  | fuel + 1, g, hwf, hcl, hk, hf => by
    obtain ⟨r, g1, h1, h2, h3, h4, h5, h6, h6'⟩ := findCycle_spec hwf hcl hk hf
    unfold eliminateCycles
    rw [h1, Option.bind_some]
    cases r with
    | none =>
      refine ⟨[], g1, fun _ _ => true, rfl, by rw [h2]; exact h6 rfl, ⟨fun v => ?_, fun _ _ _ h => by cases h⟩, h5⟩
      rw [h2, List.filter_eq_self.mpr]
      intros; rfl
    | some path =>
      dsimp only
      obtain ⟨g2, a, b, i1, i2, i3, i4, i5⟩ := eliminateCycle_spec (g := g1) (by rw [h2]; exact h6' path rfl) h3
      rw [i1]
      have i6 : Keeps g g2 (fun u v => !decide (u = a ∧ v = b)) := by
        unfold Keeps at i5 ⊢
        rw [h2] at i5
        exact i5
      rw [h2] at i4
      have ha : a ∈ V := by
        obtain ⟨w, hw⟩ := i4
        exact hk a (hwf a (List.ne_nil_of_mem hw))
      have hc := i6.cost ha i4 (by simp)
      obtain ⟨cs, g3, keep, j1, j2, j3, j4⟩ := eliminateCycles_spec (V := V) fuel g2 i3
        (fun x hx n ⟨w, hn⟩ => hcl x hx n ⟨w, (i6.mem.mp hn).1⟩) (fun x hx => h4 x ((i2 x).mp hx)) (by omega)
      dsimp only
      rw [j1]
      exact ⟨_, g3, _, rfl, j2, i6.trans j3, fun x hx => j4 x ((i2 x).mpr (h5 x hx))⟩

/-! ### The graph of a list of edges -/

theorem build_spec : ∀ (edges : List (Nat × Nat × Option Int)) (g : Graph), WF g →
    (∀ v, (edges.foldl (fun g e => g.addEdge e.1 e.2.1 e.2.2) g).adj v = g.adj v ++ (edges.filter fun e => e.1 = v).map (·.2)) ∧
    (∀ x, x ∈ (edges.foldl (fun g e => g.addEdge e.1 e.2.1 e.2.2) g).keys ↔ x ∈ g.keys ∨ ∃ e ∈ edges, e.1 = x)
  | [], g, _ => ⟨by simp, by simp⟩
  | e :: edges, g, h => by
    have hkeys : ∀ x, x ∈ (g.addEdge e.1 e.2.1 e.2.2).keys ↔ x ∈ g.keys ∨ e.1 = x := by
      intro x
      unfold Graph.addEdge Graph.touch
      dsimp only
      split
      · rename_i hm
        exact ⟨Or.inl, fun k => k.elim id fun k => k ▸ hm⟩
      · simp only [List.mem_append, List.mem_singleton]
        exact ⟨fun k => k.imp id Eq.symm, fun k => k.imp id Eq.symm⟩
    have hwf : WF (g.addEdge e.1 e.2.1 e.2.2) := by
      intro v hv
      rw [hkeys]
      by_cases hve : v = e.1
      · exact Or.inr hve.symm
      · refine Or.inl (h v ?_)
        unfold Graph.addEdge at hv
        dsimp only at hv
        rwa [Function.update_of_ne hve] at hv
    obtain ⟨i1, i2⟩ := build_spec edges _ hwf
    rw [List.foldl_cons]
    refine ⟨fun v => ?_, fun x => ?_⟩
    · rw [i1 v]
      unfold Graph.addEdge
      dsimp only
      by_cases hve : e.1 = v
      · subst hve
        rw [Function.update_self, List.filter_cons_of_pos (by simp)]
        simp
      · rw [Function.update_of_ne (Ne.symm hve), List.filter_cons_of_neg (by simpa using hve)]
    · rw [i2 x, hkeys x]
      simp [or_assoc]

theorem build_adj (edges : List (Nat × Nat × Option Int)) (v : Nat) :
    (build edges).adj v = (edges.filter fun e => e.1 = v).map (·.2) := by
  have := (build_spec edges ⟨[], fun _ => []⟩ fun _ h => absurd rfl h).1 v
  simpa [build] using this

theorem mem_build {edges : List (Nat × Nat × Option Int)} {u v : Nat} {w : Option Int} :
    (v, w) ∈ (build edges).adj u ↔ (u, v, w) ∈ edges := by
  rw [build_adj, List.mem_map]
  constructor
  · rintro ⟨⟨a, b⟩, h1, h2⟩
    obtain ⟨h4, h3⟩ := List.mem_filter.mp h1
    have h3 : a = u := by simpa using h3
    dsimp only at h2
    subst h3 h2
    exact h4
  · intro h
    exact ⟨(u, v, w), List.mem_filter.mpr ⟨h, by simp⟩, rfl⟩

theorem build_keys (edges : List (Nat × Nat × Option Int)) (x : Nat) :
    x ∈ (build edges).keys ↔ ∃ e ∈ edges, e.1 = x := by
  have := (build_spec edges ⟨[], fun _ => []⟩ fun _ h => absurd rfl h).2 x
  simpa [build] using this

theorem build_wf (edges : List (Nat × Nat × Option Int)) : WF (build edges) := by
  intro v hv
  rw [build_keys]
  obtain ⟨n, hn⟩ := List.exists_mem_of_ne_nil _ hv
  exact ⟨_, (mem_build (w := n.2)).mp hn, rfl⟩

/-- The ends of the edges. -/
def ends (edges : List (Nat × Nat × Option Int)) : List Nat := (edges.flatMap fun e => [e.1, e.2.1]).dedup

theorem length_ends (edges : List (Nat × Nat × Option Int)) : (ends edges).length ≤ 2 * edges.length := by
  refine le_trans (List.dedup_sublist _).length_le ?_
  induction edges with
  | nil => simp
  | cons e edges ih => simp only [List.flatMap_cons, List.length_append, List.length_cons, List.length_nil]; omega

theorem sum_degrees (edges : List (Nat × Nat × Option Int)) : ∀ (V : List Nat), V.Nodup →
    (V.map fun x => ((build edges).adj x).length + 2).sum ≤ edges.length + 2 * V.length := by
  intro V hV
  simp only [build_adj, List.length_map]
  induction edges with
  | nil =>
    simp only [List.filter_nil, List.length_nil, Nat.zero_add]
    rw [List.map_const', List.sum_replicate]
    simp; omega
  | cons e edges ih =>
    refine le_trans (b := (V.map fun x => (edges.filter fun e => e.1 = x).length + 2).sum + 1) ?_ (by
      rw [List.length_cons]; omega)
    clear ih
    have key : ∀ V : List Nat, V.Nodup → (V.map fun x => ((e :: edges).filter fun e => e.1 = x).length + 2).sum
        ≤ (V.map fun x => (edges.filter fun e => e.1 = x).length + 2).sum + (if e.1 ∈ V then 1 else 0) := by
      intro V hV
      induction V with
      | nil => simp
      | cons y V ih =>
        rw [List.nodup_cons] at hV
        have := ih hV.2
        simp only [List.map_cons, List.sum_cons]
        by_cases h : e.1 = y
        · rw [List.filter_cons_of_pos (by simpa using h), List.length_cons, if_pos (by rw [h]; exact List.mem_cons_self)]
          rw [if_neg (by rw [h]; exact hV.1)] at this
          omega
        · rw [List.filter_cons_of_neg (by simpa using h)]
          have : (if e.1 ∈ y :: V then 1 else 0) = if e.1 ∈ V then 1 else 0 := by
            simp [h]
          omega
    refine le_trans (key V hV) ?_
    split <;> omega

/-- Enough steps for a graph built from edges. -/
theorem eliminate_build (edges : List (Nat × Nat × Option Int)) {fuel : Nat} (hf : 5 * edges.length + 1 ≤ fuel) :
    ∃ cycles g' keep, eliminateCycles fuel (build edges) = some (some (cycles, g')) ∧
      (∀ x, ¬ Relation.TransGen (Adj g'.adj) x x) ∧ Keeps (build edges) g' keep ∧
      (∀ x ∈ (build edges).keys, x ∈ g'.keys) := by
  refine eliminateCycles_spec (V := ends edges) fuel _ (build_wf edges) ?_ ?_ ?_
  · rintro x - n ⟨w, hw⟩
    have := mem_build.mp hw
    unfold ends
    rw [List.mem_dedup, List.mem_flatMap]
    exact ⟨_, this, by simp⟩
  · intro x hx
    obtain ⟨e, he, rfl⟩ := (build_keys edges x).mp hx
    unfold ends
    rw [List.mem_dedup, List.mem_flatMap]
    exact ⟨_, he, by simp⟩
  · have h1 := sum_degrees edges (ends edges) (List.nodup_dedup _)
    have h2 := length_ends edges
    unfold cost
    omega

end Sampo.Cycles
