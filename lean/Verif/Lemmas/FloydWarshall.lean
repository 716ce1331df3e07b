import Verif.Lemmas.Routes

/-!
# The table of distances between all nodes
-/

namespace Sampo.Land

/-- The entry after one step of the loops. -/
def entry (t : Table) (i u v : Nat) : Option Nat × Option Nat :=
  match t.dist u i, t.dist i v with
  | some a, some b =>
    if a ≠ 0 ∧ b ≠ 0 ∧ (∀ c ∈ t.dist u v, a + b < c) then (some (a + b), t.path i v) else (t.dist u v, t.path u v)
  | _, _ => (t.dist u v, t.path u v)

theorem step_entry (t : Table) (i u v x y : Nat) : ((t.step i u v).dist x y, (t.step i u v).path x y) =
    if x = u ∧ y = v then entry t i u v else (t.dist x y, t.path x y) := by
  unfold Table.step entry
  cases h1 : t.dist u i with
  | none => simp only; split <;> simp_all
  | some a =>
    cases h2 : t.dist i v with
    | none => simp only; split <;> simp_all
    | some b =>
      dsimp only
      by_cases hc : a ≠ 0 ∧ b ≠ 0 ∧ ∀ c ∈ t.dist u v, a + b < c
      · rw [if_pos hc, if_pos hc]
        dsimp only
        by_cases hx : x = u
        · subst hx
          rw [Function.update_self, Function.update_self]
          by_cases hy : y = v
          · subst hy
            rw [Function.update_self, Function.update_self, if_pos ⟨rfl, rfl⟩]
          · rw [Function.update_of_ne hy, Function.update_of_ne hy, if_neg fun h => hy h.2]
        · rw [Function.update_of_ne hx, Function.update_of_ne hx, if_neg fun h => hx h.1]
      · rw [if_neg hc, if_neg hc]
        split
        · rename_i h
          rw [h.1, h.2]
        · rfl

theorem entry_col (t : Table) (i u : Nat) : entry t i u i = (t.dist u i, t.path u i) := by
  unfold entry
  cases h1 : t.dist u i with
  | none => rfl
  | some a =>
    cases h2 : t.dist i i with
    | none => rfl
    | some b =>
      dsimp only
      rw [if_neg]
      rintro ⟨_, hb, hc⟩
      have := hc a rfl
      omega

theorem entry_row (t : Table) (i v : Nat) : entry t i i v = (t.dist i v, t.path i v) := by
  unfold entry
  cases h1 : t.dist i i with
  | none => rfl
  | some a =>
    cases h2 : t.dist i v with
    | none => rfl
    | some b =>
      dsimp only
      rw [if_neg]
      rintro ⟨ha, _, hc⟩
      have := hc b rfl
      omega

/-- The entries in `P` are done, the others are as before. -/
def Done (t : Table) (i : Nat) (P : Nat → Nat → Prop) (t' : Table) : Prop :=
  ∀ x y, (P x y → (t'.dist x y, t'.path x y) = entry t i x y) ∧ (¬ P x y → (t'.dist x y, t'.path x y) = (t.dist x y, t.path x y))

theorem Done.step {t t' : Table} {i : Nat} {P : Nat → Nat → Prop} (h : Done t i P t') (u v : Nat) :
    Done t i (fun x y => P x y ∨ (x = u ∧ y = v)) (t'.step i u v) := by
  have hcol : ∀ x, (t'.dist x i, t'.path x i) = (t.dist x i, t.path x i) := by
    intro x
    by_cases hp : P x i
    · rw [(h x i).1 hp, entry_col]
    · exact (h x i).2 hp
  have hrow : ∀ y, (t'.dist i y, t'.path i y) = (t.dist i y, t.path i y) := by
    intro y
    by_cases hp : P i y
    · rw [(h i y).1 hp, entry_row]
    · exact (h i y).2 hp
  have h1 : t'.dist u i = t.dist u i := (Prod.mk.inj (hcol u)).1
  have h2 : t'.dist i v = t.dist i v := (Prod.mk.inj (hrow v)).1
  have h3 : t'.path i v = t.path i v := (Prod.mk.inj (hrow v)).2
  have key : entry t' i u v = entry t i u v := by
    by_cases hp : P u v
    · have h4 := (h u v).1 hp
      unfold entry at h4 ⊢
      rw [h1, h2, h3]
      cases ha : t.dist u i with
      | none =>
        rw [ha] at h4
        exact h4
      | some a =>
        cases hb : t.dist i v with
        | none =>
          rw [ha, hb] at h4
          exact h4
        | some b =>
          rw [ha, hb] at h4
          dsimp only at h4 ⊢
          by_cases hc : a ≠ 0 ∧ b ≠ 0 ∧ ∀ c ∈ t.dist u v, a + b < c
          · rw [if_pos hc] at h4 ⊢
            rw [if_neg]
            · exact h4
            · rintro ⟨_, _, hc'⟩
              have := hc' (a + b) (Prod.mk.inj h4).1
              omega
          · rw [if_neg hc] at h4 ⊢
            obtain ⟨h5, h6⟩ := Prod.mk.inj h4
            rw [h5, if_neg hc, h6]
    · obtain ⟨h5, h6⟩ := Prod.mk.inj ((h u v).2 hp)
      unfold entry
      rw [h1, h2, h3, h5, h6]
  intro x y
  rw [step_entry]
  by_cases hxy : x = u ∧ y = v
  · rw [if_pos hxy, key, hxy.1, hxy.2]
    exact ⟨fun _ => rfl, fun hn => absurd (Or.inr ⟨rfl, rfl⟩) hn⟩
  · rw [if_neg hxy]
    exact ⟨fun hp => (h x y).1 (hp.resolve_right hxy), fun hn => (h x y).2 fun hp => hn (Or.inl hp)⟩

theorem Done.congr {t t' : Table} {i : Nat} {P Q : Nat → Nat → Prop} (h : Done t i P t') (hpq : ∀ x y, P x y ↔ Q x y) :
    Done t i Q t' := fun x y => ⟨fun hq => (h x y).1 ((hpq x y).mpr hq), fun hq => (h x y).2 fun hp => hq ((hpq x y).mp hp)⟩

theorem Done.inner {t : Table} {i u : Nat} : ∀ (vs : List Nat) {t' : Table} {P : Nat → Nat → Prop}, Done t i P t' →
    Done t i (fun x y => P x y ∨ (x = u ∧ y ∈ vs)) (vs.foldl (fun t v => t.step i u v) t')
  | [], t', P, h => h.congr fun x y => by simp
  | v :: vs, t', P, h => by
    rw [List.foldl_cons]
    refine (Done.inner vs (h.step u v)).congr fun x y => ?_
    rw [List.mem_cons, or_assoc]
    constructor
    · rintro (h | h | h)
      · exact Or.inl h
      · exact Or.inr ⟨h.1, Or.inl h.2⟩
      · exact Or.inr ⟨h.1, Or.inr h.2⟩
    · rintro (h | ⟨h1, h2 | h2⟩)
      · exact Or.inl h
      · exact Or.inr (Or.inl ⟨h1, h2⟩)
      · exact Or.inr (Or.inr ⟨h1, h2⟩)

theorem Done.outer {t : Table} {i : Nat} {vs : List Nat} : ∀ (us : List Nat) {t' : Table} {P : Nat → Nat → Prop}, Done t i P t' →
    Done t i (fun x y => P x y ∨ (x ∈ us ∧ y ∈ vs)) (us.foldl (fun t u => vs.foldl (fun t v => t.step i u v) t) t')
  | [], t', P, h => h.congr fun x y => by simp
  | u :: us, t', P, h => by
    rw [List.foldl_cons]
    refine (Done.outer us (Done.inner (u := u) vs h)).congr fun x y => ?_
    rw [List.mem_cons, or_assoc]
    constructor
    · rintro (h | h | h)
      · exact Or.inl h
      · exact Or.inr ⟨Or.inl h.1, h.2⟩
      · exact Or.inr ⟨Or.inr h.1, h.2⟩
    · rintro (h | ⟨h1 | h1, h2⟩)
      · exact Or.inl h
      · exact Or.inr (Or.inl ⟨h1, h2⟩)
      · exact Or.inr (Or.inr ⟨h1, h2⟩)

/-- One round of the outer loop. -/
def round (n : Nat) (t : Table) (i : Nat) : Table :=
  (List.range n).foldl (fun t u => (List.range n).foldl (fun t v => t.step i u v) t) t

theorem round_spec {n : Nat} {t : Table} {i u v : Nat} (hu : u < n) (hv : v < n) :
    ((round n t i).dist u v, (round n t i).path u v) = entry t i u v := by
  have h0 : Done t i (fun _ _ => False) t := fun x y => ⟨False.elim, fun _ => rfl⟩
  exact ((Done.outer (vs := List.range n) (List.range n) h0) u v).1 (Or.inr ⟨List.mem_range.mpr hu, List.mem_range.mpr hv⟩)

/-! ### Walks with bounded inner nodes -/

/-- A walk of at least one step, with its length, whose inner nodes are below `k`. -/
inductive MWalk (A : Nat → Nat → Option Nat) (k : Nat) : Nat → Nat → Nat → Prop
  | edge {u v w : Nat} : A u v = some w → MWalk A k u v w
  | step {u x v l w : Nat} : MWalk A k u x l → x < k → A x v = some w → MWalk A k u v (l + w)

variable {A : Nat → Nat → Option Nat}

theorem MWalk.mono {k m u v l : Nat} (h : MWalk A k u v l) (hkm : k ≤ m) : MWalk A m u v l := by
  induction h with
  | edge h => exact .edge h
  | step _ hx hw ih => exact .step ih (by omega) hw

theorem MWalk.append {k u x v l m : Nat} (h : MWalk A k u x l) (hx : x < k) (h' : MWalk A k x v m) : MWalk A k u v (l + m) := by
  induction h' with
  | edge hw => exact .step h hx hw
  | step _ hy hw ih => rw [← Nat.add_assoc]; exact .step ih hy hw

theorem MWalk.split {k u v l : Nat} (h : MWalk A (k + 1) u v l) :
    MWalk A k u v l ∨ ∃ l1 l2, MWalk A k u k l1 ∧ MWalk A k k v l2 ∧ l1 + l2 ≤ l := by
  induction h with
  | edge h => exact Or.inl (.edge h)
  | @step x v l w _ hx hw ih =>
    by_cases hxk : x < k
    · rcases ih with ih | ⟨l1, l2, h1, h2, h3⟩
      · exact Or.inl (.step ih hxk hw)
      · exact Or.inr ⟨l1, l2 + w, h1, .step h2 hxk hw, by omega⟩
    · obtain rfl : x = k := by omega
      rcases ih with ih | ⟨l1, l2, h1, h2, h3⟩
      · exact Or.inr ⟨l, w, ih, .edge hw, le_refl _⟩
      · exact Or.inr ⟨l1, w, h1, .edge hw, by omega⟩

theorem MWalk.pos {k u v l : Nat} (hA : ∀ u v w, A u v = some w → 0 < w) (h : MWalk A k u v l) : 0 < l := by
  induction h with
  | edge h => exact hA _ _ _ h
  | step _ _ hw _ => have := hA _ _ _ hw; omega

/-- The table after the rounds for the nodes below `k`. -/
structure FInv (A : Nat → Nat → Option Nat) (n k : Nat) (t : Table) : Prop where
  lower : ∀ u v l, u < n → v < n → MWalk A k u v l → ∃ d, t.dist u v = some d ∧ d ≤ l
  upper : ∀ u v d, u < n → v < n → t.dist u v = some d → MWalk A n u v d
  path : ∀ u v d, u < n → v < n → u ≠ v → t.dist u v = some d → ∃ p w, t.path u v = some p ∧ p < n ∧ A p v = some w ∧
    ((p = u ∧ w ≤ d) ∨ (p ≠ u ∧ ∃ d', t.dist u p = some d' ∧ d' + w ≤ d))

theorem FInv.round {n k : Nat} {t : Table} (hA : ∀ u v w, A u v = some w → 0 < w) (hk : k < n) (h : FInv A n k t) :
    FInv A n (k + 1) (round n t k) := by
  have hdist : ∀ u v, u < n → v < n → (Land.round n t k).dist u v = (entry t k u v).1 := fun u v hu hv => by
    rw [← round_spec hu hv]
  have hpath : ∀ u v, u < n → v < n → (Land.round n t k).path u v = (entry t k u v).2 := fun u v hu hv => by
    rw [← round_spec hu hv]
  have hpos : ∀ u v d, u < n → v < n → t.dist u v = some d → 0 < d := fun u v d hu hv hd => (h.upper u v d hu hv hd).pos hA
  -- the two cases of an entry
  have hcase : ∀ u v, u < n → v < n →
      (∃ a b, t.dist u k = some a ∧ t.dist k v = some b ∧ (∀ c, t.dist u v = some c → a + b < c) ∧
        entry t k u v = (some (a + b), t.path k v)) ∨
      (entry t k u v = (t.dist u v, t.path u v) ∧ ∀ a b, t.dist u k = some a → t.dist k v = some b →
        ∃ c, t.dist u v = some c ∧ c ≤ a + b) := by
    intro u v hu hv
    unfold entry
    cases h1 : t.dist u k with
    | none => exact Or.inr ⟨rfl, fun a b ha => by cases ha⟩
    | some a =>
      cases h2 : t.dist k v with
      | none => exact Or.inr ⟨rfl, fun a b _ hb => by cases hb⟩
      | some b =>
        dsimp only
        have p1 := hpos u k a hu hk h1
        have p2 := hpos k v b hk hv h2
        by_cases hc : a ≠ 0 ∧ b ≠ 0 ∧ ∀ c ∈ t.dist u v, a + b < c
        · rw [if_pos hc]
          exact Or.inl ⟨a, b, rfl, rfl, fun c hcc => hc.2.2 c hcc, rfl⟩
        · rw [if_neg hc]
          refine Or.inr ⟨rfl, fun a' b' ha hb => ?_⟩
          obtain rfl := Option.some.inj ha
          obtain rfl := Option.some.inj hb
          by_contra hn
          push Not at hn
          exact hc ⟨by omega, by omega, fun c hcc => hn c hcc⟩
  have hless : ∀ u v d, u < n → v < n → t.dist u v = some d → ∃ d', (entry t k u v).1 = some d' ∧ d' ≤ d := by
    intro u v d hu hv hd
    rcases hcase u v hu hv with ⟨a, b, _, _, h3, h4⟩ | ⟨h3, _⟩
    · exact ⟨a + b, by rw [h4], le_of_lt (h3 d hd)⟩
    · exact ⟨d, by rw [h3]; exact hd, le_refl _⟩
  have hsum : ∀ u v a b, u < n → v < n → t.dist u k = some a → t.dist k v = some b →
      ∃ d', (entry t k u v).1 = some d' ∧ d' ≤ a + b := by
    intro u v a b hu hv ha hb
    rcases hcase u v hu hv with ⟨a', b', h1, h2, h3, h4⟩ | ⟨h3, h4⟩
    · rw [ha] at h1; rw [hb] at h2
      obtain rfl := Option.some.inj h1
      obtain rfl := Option.some.inj h2
      exact ⟨_, by rw [h4], le_refl _⟩
    · obtain ⟨c, hc, hle⟩ := h4 a b ha hb
      exact ⟨c, by rw [h3]; exact hc, hle⟩
  refine ⟨fun u v l hu hv hw => ?_, fun u v d hu hv hd => ?_, fun u v d hu hv huv hd => ?_⟩
  · rw [hdist u v hu hv]
    rcases hw.split with hw | ⟨l1, l2, h1, h2, h3⟩
    · obtain ⟨d, hd, hle⟩ := h.lower u v l hu hv hw
      obtain ⟨d', h1, h2⟩ := hless u v d hu hv hd
      exact ⟨d', h1, by omega⟩
    · obtain ⟨a, ha, hale⟩ := h.lower u k l1 hu hk h1
      obtain ⟨b, hb, hble⟩ := h.lower k v l2 hk hv h2
      obtain ⟨d', h4, h5⟩ := hsum u v a b hu hv ha hb
      exact ⟨d', h4, by omega⟩
  · rw [hdist u v hu hv] at hd
    rcases hcase u v hu hv with ⟨a, b, h1, h2, _, h4⟩ | ⟨h3, _⟩
    · rw [h4] at hd
      obtain rfl := Option.some.inj hd
      exact (h.upper u k a hu hk h1).append hk (h.upper k v b hk hv h2)
    · rw [h3] at hd
      exact h.upper u v d hu hv hd
  · rw [hdist u v hu hv] at hd
    rw [hpath u v hu hv]
    rcases hcase u v hu hv with ⟨a, b, h1, h2, h3, h4⟩ | ⟨h3, _⟩
    · rw [h4] at hd ⊢
      obtain rfl := Option.some.inj hd
      have hkv : k ≠ v := by
        rintro rfl
        have := h3 a h1
        omega
      obtain ⟨p, w, p1, p2, p3, p4⟩ := h.path k v b hk hv hkv h2
      refine ⟨p, w, p1, p2, p3, ?_⟩
      have hw := hA _ _ _ p3
      by_cases hpu : p = u
      · left
        refine ⟨hpu, ?_⟩
        rcases p4 with ⟨_, p5⟩ | ⟨_, d', _, p6⟩ <;> omega
      · right
        refine ⟨hpu, ?_⟩
        rw [hdist u p hu p2]
        rcases p4 with ⟨rfl, p5⟩ | ⟨_, d', p5, p6⟩
        · rw [entry_col]
          exact ⟨a, h1, by omega⟩
        · obtain ⟨x, hx, hle⟩ := hsum u p a d' hu p2 h1 p5
          exact ⟨x, hx, by omega⟩
    · rw [h3] at hd ⊢
      obtain ⟨p, w, p1, p2, p3, p4⟩ := h.path u v d hu hv huv hd
      refine ⟨p, w, p1, p2, p3, p4.imp id ?_⟩
      rintro ⟨hpu, d', h5, h6⟩
      obtain ⟨x, hx, hle⟩ := hless u p d' hu p2 h5
      rw [hdist u p hu p2]
      exact ⟨hpu, x, hx, by omega⟩

theorem rounds_inv {g : Net} (hA : ∀ u v w, g.adj u v = some w → 0 < w) : ∀ (k : Nat), k ≤ g.n →
    FInv g.adj g.n k ((List.range k).foldl (fun t i => round g.n t i) (Table.init g))
  | 0, _ => by
    refine ⟨fun u v l hu hv hw => ?_, fun u v d hu hv hd => .edge hd, fun u v d hu hv huv hd => ?_⟩
    · cases hw with
      | edge h => exact ⟨l, h, le_refl _⟩
      | step _ h _ => omega
    · have hd : g.adj u v = some d := hd
      refine ⟨u, d, ?_, hu, hd, Or.inl ⟨rfl, le_refl _⟩⟩
      change (if u = v then some 0 else (g.adj u v).map fun _ => u) = some u
      rw [if_neg huv, hd]; rfl
  | k + 1, hk => by
    rw [List.range_succ, List.foldl_append]
    exact (rounds_inv hA k (by omega)).round hA (by omega)

theorem buildRoutes_inv {g : Net} (hA : ∀ u v w, g.adj u v = some w → 0 < w) : FInv g.adj g.n g.n (buildRoutes g) :=
  rounds_inv hA g.n (le_refl _)

/-! ### Walks and routes -/

variable {links : List (Nat × Nat × Nat)} {n : Nat}

theorem walk_route {k u v l : Nat} (h : MWalk (Net.build n links).adj k u v l) :
    ∃ is, is ≠ [] ∧ Route links (fun _ => True) u v is l := by
  induction h with
  | edge h =>
    obtain ⟨i, hi⟩ := adj_some h
    exact ⟨[i], by simp, route_single hi trivial⟩
  | step _ _ hw ih =>
    obtain ⟨is, _, h2⟩ := ih
    obtain ⟨i, hi⟩ := adj_some hw
    exact ⟨is ++ [i], by simp, route_append h2 (route_single hi trivial)⟩

theorem route_walk (hs : SingleRoads links) (hn : ∀ l ∈ links, l.1 < n ∧ l.2.1 < n) {u v l : Nat} {is : List Nat}
    (h : Route links (fun _ => True) u v is l) (hne : is ≠ []) : MWalk (Net.build n links).adj n u v l := by
  induction h with
  | nil => exact absurd rfl hne
  | @cons a b c i w is len h1 _ h3 ih =>
    have hb : b < n := by
      rcases h1 with h | h
      · exact (hn _ (List.mem_of_getElem? h)).2
      · exact (hn _ (List.mem_of_getElem? h)).1
    have he : MWalk (Net.build n links).adj n a b w := .edge (adj_of hs h1)
    cases is with
    | nil =>
      cases h3
      rwa [Nat.add_zero]
    | cons j js => exact he.append hb (ih (by simp))

end Sampo.Land
