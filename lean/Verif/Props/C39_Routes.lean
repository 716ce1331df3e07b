import Verif.Lemmas.FloydWarshall
import Mathlib.Data.List.Perm.Subperm
import Mathlib.Tactic.IntervalCases

/-!
# C39: routes in the transport network
-/

namespace Sampo.C39

open Land

variable {links : List (Nat × Nat × Nat)} {n fuel : Nat}

/-! ### The route constructed from available roads -/

private theorem construct (hn : ∀ l ∈ links, l.1 < n ∧ l.2.1 < n) (avail : Nat → Bool) {to_ : Nat} (hto : to_ < n)
    (hf : 2 * links.length + n + 2 ≤ fuel) : ∃ s D, dijkstra (Net.build n links) avail fuel
      ⟨Function.update (fun _ => none) to_ (some 0), initialRow (Net.build n links) avail to_, [(0, to_)]⟩ = some s ∧
      Inv (Net.build n links) avail to_ (List.range n) (fun _ _ => False) D s ∧ s.queue = [] := by
  refine dijkstra_spec (fun u r hr => ?_) List.nodup_range fuel [] _ (initial_inv avail (List.mem_range.mpr hto)) ?_
  · rw [List.mem_range]
    rcases build_mem.mp hr with h | h
    · exact (hn _ (List.mem_of_getElem? h)).2
    · exact (hn _ (List.mem_of_getElem? h)).1
  · have := sum_roads links n
    rw [List.length_singleton]
    omega

/-- If two nodes are joined by at most one road, a route between different nodes consists of available roads and is as short
as possible; nothing is returned only if there is no route. -/
theorem constructed_route_shortest (hs : SingleRoads links) (hn : ∀ l ∈ links, l.1 < n ∧ l.2.1 < n) (avail : Nat → Bool)
    {from_ to_ : Nat} (hto : to_ < n) (hne : from_ ≠ to_) (hf : 2 * links.length + n + 2 ≤ fuel) :
    (constructRoute (Net.build n links) avail fuel from_ to_ = some (some []) ∧
      ∀ is len, ¬ Route links (fun i => avail i = true) from_ to_ is len) ∨
    ∃ is len, is ≠ [] ∧ constructRoute (Net.build n links) avail fuel from_ to_ = some (some (is.map some)) ∧
      ShortestRoute links (fun i => avail i = true) from_ to_ is len := by
  obtain ⟨s, D, h1, h2, h3⟩ := construct hn avail hto hf
  unfold constructRoute
  rw [h1, Option.bind_some]
  cases hd : s.dist from_ with
  | none =>
    left
    have hsrc : to_ ∈ D := (h2.waiting _ _ h2.source).resolve_right (by rw [h3]; simp)
    have hp : s.pred from_ = none := by
      rcases h2.unseen from_ hd with h | ⟨r, _, _, _, h⟩
      · exact h
      · exact absurd hsrc (h.resolve_right False.elim)
    rw [hp]
    refine ⟨rfl, fun is len hr => ?_⟩
    obtain ⟨d, hd', _⟩ := h2.shortest h3 hr
    rw [hd] at hd'; cases hd'
  | some d =>
    right
    obtain ⟨u, _, _, hp, _⟩ := h2.pred from_ d hne hd
    have hD : from_ ∈ D := (h2.waiting _ _ hd).resolve_right (by rw [h3]; simp)
    obtain ⟨a, b, hab⟩ := List.append_of_mem hD
    have hlen : D.length ≤ n := by
      have hsub : D ⊆ List.range n := by
        intro x hx
        obtain ⟨dx, hdx, _⟩ := h2.order x hx
        exact h2.inV x dx hdx
      have := (h2.dnodup.subperm hsub).length_le
      rwa [List.length_range] at this
    obtain ⟨nodes, is, i1, i2, i3, i4⟩ := h2.follow_spec hs fuel from_ a b [from_] d hab hne hd (by
      rw [hab, List.length_append, List.length_cons] at hlen
      omega)
    rw [hp]
    dsimp only
    rw [i1]
    refine ⟨is, d, i3, ?_, i4, fun is' len' hr => ?_⟩
    · simp only [Option.map_some, Option.some.injEq]
      exact i2
    · obtain ⟨d', hd', hle⟩ := h2.shortest h3 hr
      rw [hd] at hd'
      obtain rfl := Option.some.inj hd'
      exact hle

/-- Not proved because false: "a constructed route consists of available roads".  Here nodes 0 and 1 are joined by two roads, of
which only the first is available, and the second is returned. -/
theorem unavailable_road_in_route : ∃ (links : List (Nat × Nat × Nat)) (avail : Nat → Bool),
    constructRoute (Net.build 2 links) avail 20 1 0 = some (some [some 1]) ∧ avail 1 = false ∧
      Route links (fun i => avail i = true) 1 0 [0] 3 := by
  refine ⟨[(0, 1, 3), (0, 1, 2)], fun i => i = 0, by decide +kernel, by decide, ?_⟩
  exact Route.cons (show RoadJoins [(0, 1, 3), (0, 1, 2)] 0 1 0 3 from Or.inr rfl) (by decide) (Route.nil 0)

/-! ### The table of distances -/

private theorem adj_pos (hp : ∀ l ∈ links, 0 < l.2.2) (u v w : Nat) (h : (Net.build n links).adj u v = some w) : 0 < w := by
  obtain ⟨i, hi⟩ := adj_some h
  rcases hi with hi | hi <;> exact hp _ (List.mem_of_getElem? hi)

private theorem n_eq : (Net.build n links).n = n := build_n links _

/-- If two nodes are joined by at most one road and no road has the length zero, the distance of two different nodes in the
table is the length of a shortest route, and infinite if there is no route. -/
theorem distances_shortest_partial (hs : SingleRoads links) (hn : ∀ l ∈ links, l.1 < n ∧ l.2.1 < n)
    (hp : ∀ l ∈ links, 0 < l.2.2) {u v : Nat} (hu : u < n) (hv : v < n) (huv : u ≠ v) :
    match (buildRoutes (Net.build n links)).dist u v with
    | none => ∀ is len, ¬ Route links (fun _ => True) u v is len
    | some d => ∃ is, ShortestRoute links (fun _ => True) u v is d := by
  have h := buildRoutes_inv (g := Net.build n links) (adj_pos hp)
  rw [n_eq] at h
  have hlow : ∀ is len, Route links (fun _ => True) u v is len →
      ∃ d, (buildRoutes (Net.build n links)).dist u v = some d ∧ d ≤ len := by
    intro is len hr
    refine h.lower u v len hu hv (route_walk hs hn hr ?_)
    rintro rfl
    cases hr
    exact huv rfl
  cases hd : (buildRoutes (Net.build n links)).dist u v with
  | none =>
    intro is len hr
    obtain ⟨d, hd', _⟩ := hlow is len hr
    rw [hd] at hd'; cases hd'
  | some d =>
    obtain ⟨is, _, hr⟩ := walk_route (h.upper u v d hu hv hd)
    refine ⟨is, hr, fun is' len' hr' => ?_⟩
    obtain ⟨d', hd', hle⟩ := hlow is' len' hr'
    rw [hd] at hd'
    obtain rfl := Option.some.inj hd'
    exact hle

/-- Not proved because false: "… also with two roads between nodes": the last one counts. -/
theorem distance_of_last_road : ∃ links : List (Nat × Nat × Nat), (buildRoutes (Net.build 2 links)).dist 0 1 = some 5 ∧
    Route links (fun _ => True) 0 1 [0] 1 := by
  refine ⟨[(0, 1, 1), (0, 1, 5)], by decide +kernel, ?_⟩
  exact Route.cons (show RoadJoins _ 0 0 1 1 from Or.inl rfl) trivial (Route.nil 1)

/-- Not proved because false: "… also with roads of length zero": there is no way through them. -/
theorem no_way_through_zero : ∃ links : List (Nat × Nat × Nat), (buildRoutes (Net.build 3 links)).dist 0 2 = none ∧
    SingleRoads links ∧ Route links (fun _ => True) 0 2 [0, 1] 7 := by
  refine ⟨[(0, 1, 0), (1, 2, 7)], by decide +kernel, ?_, ?_⟩
  · intro i j a b w w' h h'
    have hi : i < 2 := by
      rcases h with h | h <;> exact (List.getElem?_eq_some_iff.mp h).1
    have hj : j < 2 := by
      rcases h' with h | h <;> exact (List.getElem?_eq_some_iff.mp h).1
    unfold RoadJoins at h h'
    interval_cases i <;> interval_cases j <;> simp at h h' ⊢ <;> omega
  · exact Route.cons (show RoadJoins _ 0 0 1 0 from Or.inl rfl) trivial
      (Route.cons (show RoadJoins _ 1 1 2 7 from Or.inl rfl) trivial (Route.nil 2))

/-! ### The route from the table -/

private theorem trace_spec (hs : SingleRoads links) (hp : ∀ l ∈ links, 0 < l.2.2) {u : Nat} (hu : u < n) :
    ∀ (fuel v d : Nat) (path : List (Option Nat)), v < n → u ≠ v → (buildRoutes (Net.build n links)).dist u v = some d → d < fuel →
    ∃ nodes is l, trace n ((buildRoutes (Net.build n links)).path u) u fuel (some v) path = some (path ++ nodes) ∧
      ((some v :: nodes).zip nodes).map (fun e => (Net.build n links).roadMx (e.1.getD (n - 1)) (e.2.getD (n - 1))) = is.map some ∧
      Route links (fun _ => True) v u is l ∧ l ≤ d
  | 0, _, _, _, _, _, _, hf => by omega
  | fuel + 1, v, d, path, hv, huv, hd, hf => by
    have h := buildRoutes_inv (g := Net.build n links) (adj_pos hp)
    rw [n_eq] at h
    obtain ⟨p, w, h1, h2, h3, h4⟩ := h.path u v d hu hv huv hd
    obtain ⟨i, hi⟩ := adj_some h3
    have hw := adj_pos hp _ _ _ h3
    have hvp : v ≠ p := by
      rintro rfl
      rcases h4 with ⟨rfl, _⟩ | ⟨_, d', h5, h6⟩
      · exact huv rfl
      · rw [hd] at h5
        obtain rfl := Option.some.inj h5
        omega
    have hroad : (Net.build n links).roadMx v p = some i := roadMx_of hs hvp (joins_symm hi)
    unfold trace
    simp only [Option.getD_some, h1]
    rcases h4 with ⟨rfl, h5⟩ | ⟨hpu, d', h5, h6⟩
    · rw [if_pos rfl]
      exact ⟨[some p], [i], w, rfl, by simp [hroad], route_single (joins_symm hi) trivial, h5⟩
    · rw [if_neg fun he => hpu (Option.some.inj he)]
      obtain ⟨nodes, is, l, j1, j2, j3, j4⟩ := trace_spec hs hp hu fuel p d' (path ++ [some p]) h2 (Ne.symm hpu) h5 (by omega)
      refine ⟨some p :: nodes, i :: is, w + l, by rw [j1]; simp, ?_, Route.cons (joins_symm hi) trivial j3, by omega⟩
      rw [List.zip_cons_cons, List.map_cons, j2]
      simp [hroad]

/-- The route read from the table is as long as the table says and the shortest, under the same conditions. -/
theorem table_route_shortest_partial (hs : SingleRoads links) (hn : ∀ l ∈ links, l.1 < n ∧ l.2.1 < n)
    (hp : ∀ l ∈ links, 0 < l.2.2) {u v d : Nat} (hu : u < n) (hv : v < n) (huv : u ≠ v)
    (hd : (buildRoutes (Net.build n links)).dist u v = some d) (hf : d < fuel) :
    ∃ is, getRoute (Net.build n links) fuel u v = some (is.map some) ∧ ShortestRoute links (fun _ => True) u v is d := by
  obtain ⟨nodes, is, l, h1, h2, h3, h4⟩ := trace_spec hs hp hu fuel v d [some v] hv huv hd hf
  have hsh := distances_shortest_partial hs hn hp hu hv huv
  rw [hd] at hsh
  obtain ⟨is0, _, hmin⟩ := hsh
  have hr := route_reverse h3
  have hl : l = d := le_antisymm h4 (hmin _ _ hr)
  subst hl
  refine ⟨is.reverse, ?_, hr, hmin⟩
  unfold getRoute
  rw [n_eq, h1]
  simp only [Option.map_some, Option.some.injEq, List.singleton_append, List.tail_cons]
  rw [h2, List.map_reverse]

/-- Not proved because false: "asking the table for a route always ends": it does not if there is no route. -/
theorem table_route_endless : ∃ links : List (Nat × Nat × Nat), ∀ fuel, getRoute (Net.build 4 links) fuel 0 2 = none := by
  refine ⟨[(0, 1, 1), (2, 3, 1)], fun fuel => ?_⟩
  have h3 : (buildRoutes (Net.build 4 [(0, 1, 1), (2, 3, 1)])).path 0 3 = none := by decide +kernel
  have h2 : (buildRoutes (Net.build 4 [(0, 1, 1), (2, 3, 1)])).path 0 2 = none := by decide +kernel
  have key : ∀ (f : Nat → Option Nat), f 3 = none → f 2 = none → ∀ (fuel : Nat) (t : Option Nat) (path : List (Option Nat)),
      t = none ∨ t = some 2 → trace 4 f 0 fuel t path = none := by
    intro f h3 h2 fuel
    induction fuel with
    | zero => intros; rfl
    | succ fuel ih =>
      intro t path ht
      unfold trace
      have hnext : f (t.getD (4 - 1)) = none := by
        rcases ht with rfl | rfl
        · exact h3
        · exact h2
      rw [hnext]
      simp only [reduceCtorEq, if_false]
      exact ih none _ (Or.inl rfl)
  unfold getRoute
  rw [show (Net.build 4 [(0, 1, 1), (2, 3, 1)]).n = 4 from rfl, key _ h3 h2 fuel (some 2) [some 2] (Or.inr rfl)]
  rfl

/-! ### Depots in the order of their distances -/

/-- Depots are returned with their distances in the table, the nearest first; exactly those of infinite distance are left out. -/
theorem holders_by_distance (g : Net) (holders : List Nat) (node : Nat) :
    (sortedHolders g holders node).Pairwise (fun a b => a.1 ≤ b.1) ∧
      (sortedHolders g holders node).Perm
        (holders.filterMap fun i => ((buildRoutes g).dist node i).map fun d => (d, i)) := by
  unfold sortedHolders
  refine ⟨?_, List.mergeSort_perm _ _⟩
  have := List.pairwise_mergeSort (le := fun (a b : Nat × Nat) => decide (a.1 ≤ b.1))
    (fun a b c h1 h2 => by simp at h1 h2 ⊢; omega) (fun a b => by simp; omega)
    (holders.filterMap fun i => ((buildRoutes g).dist node i).map fun d => (d, i))
  exact this.imp fun h => by simpa using h

/-! ### A concrete case: a square with a shortcut -/

private def square : List (Nat × Nat × Nat) := [(0, 1, 2), (1, 2, 2), (2, 3, 2), (3, 0, 9), (0, 2, 3)]

example : SingleRoads square := by
  intro i j a b w w' h h'
  have hi : i < 5 := by
    rcases h with h | h <;> exact (List.getElem?_eq_some_iff.mp h).1
  have hj : j < 5 := by
    rcases h' with h | h <;> exact (List.getElem?_eq_some_iff.mp h).1
  unfold RoadJoins square at h h'
  interval_cases i <;> interval_cases j <;> simp at h h' ⊢ <;> omega

example : (∀ l ∈ square, l.1 < 4 ∧ l.2.1 < 4) ∧ (∀ l ∈ square, 0 < l.2.2) ∧ 2 * square.length + 4 + 2 ≤ 20 := by decide

example : constructRoute (Net.build 4 square) (fun _ => true) 20 3 0 = some (some [some 2, some 4]) := by decide +kernel

example : constructRoute (Net.build 4 square) (fun i => i ≠ 4) 20 3 0 = some (some [some 2, some 1, some 0]) := by decide +kernel

example : constructRoute (Net.build 4 square) (fun i => i = 1) 20 3 0 = some (some []) := by decide +kernel

example : getRoute (Net.build 4 square) 20 3 0 = some [some 2, some 4] := by decide +kernel

end Sampo.C39
