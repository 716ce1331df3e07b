import Verif.Lemmas.Dijkstra
import Verif.Spec.Routes

/-!
# Routes in networks built from roads
-/

namespace Sampo.Land

variable {links : List (Nat × Nat × Nat)} {n : Nat}

private theorem build_mem_aux : ∀ (links : List (Nat × Nat × Nat)) (g : Net) (v : Nat) (r : Road),
    r ∈ (links.foldl (fun g l => g.connect l.1 l.2.1 l.2.2) g).roads v ↔
      r ∈ g.roads v ∨ (g.ids ≤ r.id ∧ RoadJoins links (r.id - g.ids) v r.finish r.weight)
  | [], g, v, r => by simp [RoadJoins]
  | (a, b, w) :: links, g, v, r => by
    rw [List.foldl_cons, build_mem_aux links]
    have h1 : r ∈ (g.connect a b w).roads v ↔ r ∈ g.roads v ∨ (v = a ∧ r = ⟨b, w, g.ids⟩) ∨ (v = b ∧ r = ⟨a, w, g.ids⟩) := by
      unfold Net.connect
      dsimp only
      by_cases hb : v = b
      · subst hb
        rw [Function.update_self]
        by_cases ha : v = a
        · subst ha
          rw [Function.update_self]
          simp
        · rw [Function.update_of_ne ha]
          simp [ha]
      · rw [Function.update_of_ne hb]
        by_cases ha : v = a
        · subst ha
          rw [Function.update_self]
          simp [hb]
        · rw [Function.update_of_ne ha]
          simp [ha, hb]
    have h2 : (g.connect a b w).ids = g.ids + 1 := rfl
    dsimp only
    rw [h1, h2]
    obtain ⟨x, y, i⟩ := r
    dsimp only
    simp only [Road.mk.injEq]
    constructor
    · rintro ((h | ⟨rfl, rfl, rfl, rfl⟩ | ⟨rfl, rfl, rfl, rfl⟩) | ⟨h, h'⟩)
      · exact Or.inl h
      · exact Or.inr ⟨le_refl _, Or.inl (by simp)⟩
      · exact Or.inr ⟨le_refl _, Or.inr (by simp)⟩
      · refine Or.inr ⟨by omega, ?_⟩
        have : i - g.ids = (i - (g.ids + 1)) + 1 := by omega
        unfold RoadJoins at h' ⊢
        rw [this, List.getElem?_cons_succ]
        exact h'
    · rintro (h | ⟨h, h'⟩)
      · exact Or.inl (Or.inl h)
      · rcases Nat.eq_or_lt_of_le h with h0 | h0
        · left; right
          subst h0
          unfold RoadJoins at h'
          simp only [Nat.sub_self, List.getElem?_cons_zero, Option.some.injEq, Prod.mk.injEq] at h'
          rcases h' with ⟨rfl, rfl, rfl⟩ | ⟨rfl, rfl, rfl⟩
          · exact Or.inl ⟨rfl, rfl, rfl, rfl⟩
          · exact Or.inr ⟨rfl, rfl, rfl, rfl⟩
        · right
          refine ⟨by omega, ?_⟩
          have : i - g.ids = (i - (g.ids + 1)) + 1 := by omega
          unfold RoadJoins at h' ⊢
          rw [this, List.getElem?_cons_succ] at h'
          exact h'

theorem build_mem {v : Nat} {r : Road} : r ∈ (Net.build n links).roads v ↔ RoadJoins links r.id v r.finish r.weight := by
  unfold Net.build
  rw [build_mem_aux]
  simp

theorem build_n : ∀ (links : List (Nat × Nat × Nat)) (g : Net), (links.foldl (fun g l => g.connect l.1 l.2.1 l.2.2) g).n = g.n
  | [], _ => rfl
  | _ :: links, _ => build_n links _

theorem joins_symm {i a b w : Nat} (h : RoadJoins links i a b w) : RoadJoins links i b a w := Or.symm h

theorem joins_weight {i a b w a' b' w' : Nat} (h : RoadJoins links i a b w) (h' : RoadJoins links i a' b' w') : w = w' := by
  rcases h with h | h <;> rcases h' with h' | h' <;> rw [h] at h' <;> cases h' <;> rfl

/-- A fold that keeps the value of the last match. -/
theorem foldl_last {β : Type} (p : Road → Prop) [DecidablePred p] (f : Road → β) : ∀ (l : List Road) (acc : Option β),
    (l.foldl (fun r x => if p x then some (f x) else r) acc = acc ∧ ∀ x ∈ l, ¬ p x) ∨
      ∃ x ∈ l, p x ∧ l.foldl (fun r x => if p x then some (f x) else r) acc = some (f x)
  | [], acc => Or.inl ⟨rfl, by simp⟩
  | x :: l, acc => by
    rw [List.foldl_cons]
    rcases foldl_last p f l (if p x then some (f x) else acc) with ⟨h1, h2⟩ | ⟨y, hy, h1, h2⟩
    · by_cases hp : p x
      · rw [if_pos hp] at h1 ⊢
        exact Or.inr ⟨x, List.mem_cons_self, hp, h1⟩
      · rw [if_neg hp] at h1 ⊢
        refine Or.inl ⟨h1, fun y hy => ?_⟩
        rcases List.mem_cons.mp hy with rfl | hy
        · exact hp
        · exact h2 y hy
    · exact Or.inr ⟨y, List.mem_cons_of_mem _ hy, h1, h2⟩

theorem roadMx_some {v u i : Nat} (h : (Net.build n links).roadMx v u = some i) : ∃ w, RoadJoins links i v u w := by
  unfold Net.roadMx at h
  by_cases hv : v = u
  · rw [if_pos hv] at h; cases h
  · rw [if_neg hv] at h
    rcases foldl_last (fun x => x.finish = u) (·.id) ((Net.build n links).roads v) none with ⟨h1, _⟩ | ⟨x, hx, hxu, h1⟩
    · rw [h1] at h; cases h
    · rw [h1] at h
      obtain rfl := Option.some.inj h
      exact ⟨x.weight, hxu ▸ build_mem.mp hx⟩

theorem roadMx_of (hs : SingleRoads links) {v u i w : Nat} (hv : v ≠ u) (h : RoadJoins links i v u w) :
    (Net.build n links).roadMx v u = some i := by
  cases hr : (Net.build n links).roadMx v u with
  | some j =>
    obtain ⟨w', h'⟩ := roadMx_some hr
    rw [hs i j v u w w' h h']
  | none =>
    unfold Net.roadMx at hr
    rw [if_neg hv] at hr
    rcases foldl_last (fun x => x.finish = u) (·.id) ((Net.build n links).roads v) none with ⟨_, h2⟩ | ⟨x, _, _, h1⟩
    · exact absurd rfl (h2 ⟨u, w, i⟩ (build_mem.mpr h))
    · rw [h1] at hr; cases hr

theorem adj_some {v u w : Nat} (h : (Net.build n links).adj v u = some w) : ∃ i, RoadJoins links i v u w := by
  unfold Net.adj at h
  rcases foldl_last (fun x => x.finish = u) (·.weight) ((Net.build n links).roads v) none with ⟨h1, _⟩ | ⟨x, hx, hxu, h1⟩
  · rw [h1] at h; cases h
  · rw [h1] at h
    obtain rfl := Option.some.inj h
    exact ⟨x.id, hxu ▸ build_mem.mp hx⟩

theorem adj_of (hs : SingleRoads links) {v u i w : Nat} (h : RoadJoins links i v u w) :
    (Net.build n links).adj v u = some w := by
  cases hr : (Net.build n links).adj v u with
  | some w' =>
    obtain ⟨j, h'⟩ := adj_some hr
    obtain rfl := hs i j v u w w' h h'
    rw [joins_weight h h']
  | none =>
    unfold Net.adj at hr
    rcases foldl_last (fun x => x.finish = u) (·.weight) ((Net.build n links).roads v) none with ⟨_, h2⟩ | ⟨x, _, _, h1⟩
    · exact absurd rfl (h2 ⟨u, w, i⟩ (build_mem.mpr h))
    · rw [h1] at hr; cases hr

/-! ### Routes -/

variable {usable : Nat → Prop}

theorem route_append {a b c : Nat} {is js : List Nat} {l m : Nat} (h : Route links usable a b is l)
    (h' : Route links usable b c js m) : Route links usable a c (is ++ js) (l + m) := by
  induction h with
  | nil => simpa using h'
  | cons h1 h2 _ ih =>
    have := Route.cons h1 h2 (ih h')
    rwa [← Nat.add_assoc] at this

theorem route_single {a b i w : Nat} (h : RoadJoins links i a b w) (hu : usable i) : Route links usable a b [i] w := by
  have := Route.cons h hu (Route.nil (links := links) (usable := usable) b)
  simpa using this

theorem route_reverse {a b : Nat} {is : List Nat} {l : Nat} (h : Route links usable a b is l) :
    Route links usable b a is.reverse l := by
  induction h with
  | nil => exact Route.nil _
  | cons h1 h2 _ ih =>
    rw [List.reverse_cons, Nat.add_comm]
    exact route_append ih (route_single (joins_symm h1) h2)

theorem joined_iff {avail : Nat → Bool} {u v w : Nat} :
    Joined (Net.build n links) avail u v w ↔ ∃ i, RoadJoins links i u v w ∧ avail i = true := by
  unfold Joined
  constructor
  · rintro ⟨r, hr, ha, rfl, rfl⟩
    exact ⟨r.id, build_mem.mp hr, ha⟩
  · rintro ⟨i, h, ha⟩
    exact ⟨⟨v, w, i⟩, build_mem.mpr h, ha, rfl, rfl⟩

/-! ### The end of the search -/

variable {avail : Nat → Bool} {src : Nat} {V D : List Nat} {s : Search}

theorem Inv.shortest (h : Inv (Net.build n links) avail src V (fun _ _ => False) D s) (hq : s.queue = []) {v : Nat} {is : List Nat}
    {l : Nat} (hr : Route links (fun i => avail i = true) v src is l) : ∃ d, s.dist v = some d ∧ d ≤ l := by
  generalize hsrc : src = t at hr
  induction hr with
  | nil a => subst hsrc; exact ⟨0, h.source, le_refl _⟩
  | cons h1 h2 _ ih =>
    obtain ⟨d, hd, hle⟩ := ih hsrc
    have hD := (h.waiting _ _ hd).resolve_right (by rw [hq]; simp)
    obtain ⟨r, hr, ha, hf, hw⟩ := joined_iff (n := n).mpr ⟨_, (joins_symm h1), h2⟩
    rcases h.relaxed _ hD d hd r hr ha with h3 | ⟨dv, h3, h4⟩
    · exact h3.elim
    · rw [hf] at h3
      rw [hw] at h4
      exact ⟨dv, h3, by omega⟩

private theorem split_unique : ∀ {a a' b b' : List Nat} {v : Nat}, (a ++ v :: b).Nodup → a ++ v :: b = a' ++ v :: b' → b = b'
  | [], [], b, b', v, _, h => (List.cons.inj h).2
  | [], x :: a', b, b', v, hn, h => by
    obtain ⟨h1, h2⟩ := List.cons.inj h
    have : v ∈ b := by rw [h2]; simp
    exact absurd this (List.nodup_cons.mp hn).1
  | x :: a, [], b, b', v, hn, h => by
    obtain ⟨h1, h2⟩ := List.cons.inj h
    have : x ∈ a ++ v :: b := by rw [h1]; simp
    exact absurd this (List.nodup_cons.mp hn).1
  | x :: a, x' :: a', b, b', v, hn, h => split_unique (List.nodup_cons.mp hn).2 (List.cons.inj h).2

/-- Following the predecessors leads to the source along a route as long as the distance. -/
theorem Inv.follow_spec (hs : SingleRoads links) (h : Inv (Net.build n links) avail src V (fun _ _ => False) D s) :
    ∀ (fuel v : Nat) (a b path : List Nat) (d : Nat), D = a ++ v :: b → v ≠ src → s.dist v = some d → b.length < fuel →
    ∃ nodes is, follow s.pred src fuel v path = some (some (path ++ nodes)) ∧
      roadsOf (Net.build n links) (v :: nodes) = is.map some ∧ is ≠ [] ∧ Route links (fun i => avail i = true) v src is d
  | 0, _, _, _, _, _, _, _, _, hf => by omega
  | fuel + 1, v, a, b, path, d, hD, hvs, hd, hf => by
    obtain ⟨u, w, du, h1, h2, h3, h4, h5⟩ := h.pred v d hvs hd
    obtain ⟨i, h6, h7⟩ := joined_iff.mp h4
    obtain ⟨a', b', h8, h9⟩ := h.tree v (by rw [hD]; simp) hvs u h1
    have hb : b = b' := split_unique (by rw [← hD]; exact h.dnodup) (hD ▸ h8)
    subst hb
    have hvu : v ≠ u := by
      rintro rfl
      have hn := h.dnodup
      rw [hD] at hn
      exact (List.nodup_cons.mp (List.nodup_append.mp hn).2.1).1 h9
    have hroad : (Net.build n links).roadMx v u = some i := roadMx_of hs hvu (joins_symm h6)
    unfold follow
    rw [h1]
    dsimp only
    by_cases hu : u = src
    · rw [if_pos hu]
      subst hu
      rw [h.source] at h3
      obtain rfl := Option.some.inj h3
      refine ⟨[u], [i], rfl, by simp [roadsOf, hroad], by simp, ?_⟩
      have := route_single (usable := fun i => avail i = true) (joins_symm h6) h7
      rw [h5, Nat.zero_add]; exact this
    · rw [if_neg hu]
      obtain ⟨b1, b2, hb⟩ := List.append_of_mem h9
      obtain ⟨nodes, is, i1, i2, _, i3⟩ := h.follow_spec hs fuel u (a ++ v :: b1) b2 (path ++ [u]) du
        (by rw [hD, hb]; simp) hu h3 (by rw [hb] at hf; simp at hf; omega)
      refine ⟨u :: nodes, i :: is, by rw [i1]; simp, ?_, by simp, ?_⟩
      · unfold roadsOf at i2 ⊢
        simp only [List.tail_cons, List.zip_cons_cons, List.map_cons] at i2 ⊢
        rw [i2, hroad]
      · rw [h5, Nat.add_comm]
        exact Route.cons (joins_symm h6) h7 i3

theorem initial_inv (avail : Nat → Bool) (hsrc : src ∈ V) : Inv (Net.build n links) avail src V (fun _ _ => False) []
    ⟨Function.update (fun _ => none) src (some 0), initialRow (Net.build n links) avail src, [(0, src)]⟩ where
  source := by dsimp only; exact Function.update_self ..
  entries := by
    intro d v h
    obtain ⟨rfl, rfl⟩ := Prod.mk.inj (List.mem_singleton.mp h)
    exact ⟨0, (by dsimp only; exact Function.update_self ..), le_refl _⟩
  waiting := by
    intro v d h
    dsimp only at h ⊢
    by_cases hv : v = src
    · subst hv
      rw [Function.update_self] at h
      obtain rfl := Option.some.inj h
      exact Or.inr (List.mem_singleton.mpr rfl)
    · rw [Function.update_of_ne hv] at h; cases h
  stale := by intro v hv; cases hv
  order := by intro v hv; cases hv
  nodup := List.nodup_singleton _
  dnodup := List.nodup_nil
  relaxed := by intro v hv; cases hv
  pred := by
    intro v d hv h
    dsimp only at h
    rw [Function.update_of_ne hv] at h; cases h
  tree := by intro v hv; cases hv
  unseen := by
    intro v h
    dsimp only at h ⊢
    unfold initialRow
    by_cases hv : src = v
    · subst hv
      rw [Function.update_self] at h; cases h
    · rw [if_neg hv]
      by_cases hc : ((Net.build n links).adj src v).isSome ∧ ∃ i ∈ (Net.build n links).roadMx src v, avail i = true
      · right
        obtain ⟨_, i, hi, ha⟩ := hc
        obtain ⟨w, hw⟩ := roadMx_some hi
        exact ⟨⟨v, w, i⟩, build_mem.mpr hw, ha, rfl, Or.inl (by simp)⟩
      · rw [if_neg hc]; exact Or.inl rfl
  inV := by
    intro v d h
    dsimp only at h
    by_cases hv : v = src
    · rw [hv]; exact hsrc
    · rw [Function.update_of_ne hv] at h; cases h

theorem sum_roads (links : List (Nat × Nat × Nat)) (n : Nat) : openRoads (Net.build n links) (List.range n) [] ≤ 2 * links.length := by
  unfold openRoads
  have : ((List.range n).filter fun u => u ∉ ([] : List Nat)) = List.range n := by
    rw [List.filter_eq_self]; simp
  rw [this]
  unfold Net.build
  have key : ∀ (links : List (Nat × Nat × Nat)) (g : Net),
      ((List.range n).map fun u => ((links.foldl (fun g l => g.connect l.1 l.2.1 l.2.2) g).roads u).length).sum
        ≤ ((List.range n).map fun u => (g.roads u).length).sum + 2 * links.length := by
    intro links
    induction links with
    | nil => intro g; simp
    | cons l links ih =>
      intro g
      rw [List.foldl_cons]
      refine le_trans (ih _) ?_
      have upd : ∀ (f : Nat → List Road) (a : Nat) (r : Road) (V : List Nat), V.Nodup →
          (V.map fun u => (Function.update f a (f a ++ [r]) u).length).sum ≤ (V.map fun u => (f u).length).sum +
            (if a ∈ V then 1 else 0) := by
        intro f a r V hV
        induction V with
        | nil => simp
        | cons y V ih =>
          rw [List.nodup_cons] at hV
          have := ih hV.2
          simp only [List.map_cons, List.sum_cons]
          by_cases h : y = a
          · subst h
            rw [if_neg hV.1] at this
            rw [Function.update_self, List.length_append, List.length_singleton, if_pos List.mem_cons_self]
            omega
          · rw [Function.update_of_ne h]
            have : (if a ∈ y :: V then 1 else 0) = if a ∈ V then 1 else 0 := by simp [Ne.symm h]
            omega
      unfold Net.connect
      dsimp only
      have u1 := upd g.roads l.1 ⟨l.2.1, l.2.2, g.ids⟩ (List.range n) List.nodup_range
      have u2 := upd (Function.update g.roads l.1 (g.roads l.1 ++ [⟨l.2.1, l.2.2, g.ids⟩])) l.2.1 ⟨l.1, l.2.2, g.ids⟩ (List.range n) List.nodup_range
      rw [List.length_cons]
      split at u1 <;> split at u2 <;> omega
  have := key links ⟨n, fun _ => [], 0⟩
  simpa using this

end Sampo.Land
