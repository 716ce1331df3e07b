import Verif.Model.Landscape
import Mathlib.Algebra.BigOperators.Group.List.Basic
import Mathlib.Algebra.Order.BigOperators.Group.List

/-!
# Lemmas about the search for a shortest route
-/

namespace Sampo.Land

theorem minPair_spec : ∀ (ps : List (Nat × Nat)) (p : Nat × Nat),
    minPair ps p ∈ p :: ps ∧ ∀ q ∈ p :: ps, (minPair ps p).1 ≤ q.1
  | [], p => by simp [minPair]
  | q :: ps, p => by
    unfold minPair
    obtain ⟨h1, h2⟩ := minPair_spec ps (if q.1 < p.1 ∨ (q.1 = p.1 ∧ q.2 < p.2) then q else p)
    refine ⟨?_, fun x hx => ?_⟩
    · rcases List.mem_cons.mp h1 with h | h
      · rw [h]
        split
        · exact List.mem_cons_of_mem _ List.mem_cons_self
        · exact List.mem_cons_self
      · exact List.mem_cons_of_mem _ (List.mem_cons_of_mem _ h)
    · have h3 := h2 _ List.mem_cons_self
      rcases List.mem_cons.mp hx with rfl | hx
      · refine le_trans h3 ?_
        split <;> omega
      · rcases List.mem_cons.mp hx with rfl | hx
        · refine le_trans h3 ?_
          split <;> omega
        · exact h2 x (List.mem_cons_of_mem _ hx)

/-- An available road. -/
def Joined (g : Net) (avail : Nat → Bool) (u v w : Nat) : Prop :=
  ∃ r ∈ g.roads u, avail r.id = true ∧ r.finish = v ∧ r.weight = w

/-- The state of the search: `D` are the nodes whose roads were followed, the last one first; `todo` are roads not yet
followed. -/
structure Inv (g : Net) (avail : Nat → Bool) (src : Nat) (V : List Nat) (todo : Nat → Road → Prop) (D : List Nat) (s : Search) :
    Prop where
  source : s.dist src = some 0
  entries : ∀ d v, (d, v) ∈ s.queue → ∃ dv, s.dist v = some dv ∧ dv ≤ d
  waiting : ∀ v d, s.dist v = some d → v ∈ D ∨ (d, v) ∈ s.queue
  stale : ∀ v ∈ D, ∀ d, s.dist v = some d → (d, v) ∉ s.queue
  order : ∀ u ∈ D, ∃ du, s.dist u = some du ∧ ∀ p ∈ s.queue, du ≤ p.1
  nodup : s.queue.Nodup
  dnodup : D.Nodup
  relaxed : ∀ u ∈ D, ∀ du, s.dist u = some du → ∀ r ∈ g.roads u, avail r.id = true →
    todo u r ∨ ∃ dv, s.dist r.finish = some dv ∧ dv ≤ du + r.weight
  pred : ∀ v d, v ≠ src → s.dist v = some d → ∃ u w du, s.pred v = some u ∧ u ∈ D ∧ s.dist u = some du ∧
    Joined g avail u v w ∧ d = du + w
  tree : ∀ v ∈ D, v ≠ src → ∀ u, s.pred v = some u → ∃ a b, D = a ++ v :: b ∧ u ∈ b
  unseen : ∀ v, s.dist v = none → s.pred v = none ∨
    ∃ r ∈ g.roads src, avail r.id = true ∧ r.finish = v ∧ (src ∉ D ∨ todo src r)
  inV : ∀ v d, s.dist v = some d → v ∈ V

variable {g : Net} {avail : Nat → Bool} {src : Nat} {V : List Nat}

/-- Following the roads of the node `v` of distance `d`. -/
theorem relax_spec {v d : Nat} {D : List Nat} (hV : ∀ u, ∀ r ∈ g.roads u, r.finish ∈ V) : ∀ (rest : List Road) (s : Search),
    (∀ r ∈ rest, r ∈ g.roads v) →
    s.dist v = some d → (∀ u ∈ D, ∀ du, s.dist u = some du → du ≤ d) → v ∈ D →
    Inv g avail src V (fun u r => u = v ∧ r ∈ rest) D s →
    Inv g avail src V (fun _ _ => False) D (relax avail v d rest s) ∧
      (relax avail v d rest s).queue.length ≤ s.queue.length + rest.length
  | [], s, _, _, _, _, h => by
    refine ⟨{ h with relaxed := ?_, unseen := ?_ }, by simp [relax]⟩
    · intro u hu du hdu r hr ha
      rcases h.relaxed u hu du hdu r hr ha with ⟨_, h1⟩ | h1
      · simp at h1
      · exact Or.inr h1
    · intro x hx
      rcases h.unseen x hx with h1 | ⟨r, h1, h2, h3, h4⟩
      · exact Or.inl h1
      · refine Or.inr ⟨r, h1, h2, h3, h4.imp id fun h5 => ?_⟩
        simp at h5
  | road :: rest, s, hrest, hd, hle, hv, h => by
    have hroad : road ∈ g.roads v := hrest road List.mem_cons_self
    have hrest' : ∀ r ∈ rest, r ∈ g.roads v := fun r hr => hrest r (List.mem_cons_of_mem _ hr)
    unfold relax
    by_cases ha : avail road.id = false
    · rw [if_pos ha]
      obtain ⟨i1, i2⟩ := relax_spec hV rest s hrest' hd hle hv { h with
        relaxed := fun u hu du hdu r hr har => by
          rcases h.relaxed u hu du hdu r hr har with ⟨h1, h2⟩ | h1
          · rcases List.mem_cons.mp h2 with rfl | h2
            · rw [ha] at har; cases har
            · exact Or.inl ⟨h1, h2⟩
          · exact Or.inr h1
        unseen := fun x hx => by
          rcases h.unseen x hx with h1 | ⟨r, h1, h2, h3, h4⟩
          · exact Or.inl h1
          · refine Or.inr ⟨r, h1, h2, h3, h4.imp id fun h5 => ⟨h5.1, ?_⟩⟩
            rcases List.mem_cons.mp h5.2 with rfl | h6
            · rw [ha] at h2; cases h2
            · exact h6 }
      exact ⟨i1, by rw [List.length_cons]; omega⟩
    · rw [if_neg ha]
      have ha : avail road.id = true := by simpa using ha
      by_cases hb : ∀ old ∈ s.dist road.finish, d + road.weight < old
      · rw [if_pos hb]
        have hxD : road.finish ∉ D := by
          intro hx
          obtain ⟨du, h1, _⟩ := h.order _ hx
          have h2 := hb du h1
          have h3 := hle _ hx du h1
          omega
        have hxsrc : road.finish ≠ src := by
          intro hx
          have := hb 0 (by rw [hx]; exact h.source)
          omega
        have hne : ∀ u ∈ D, u ≠ road.finish := fun u hu he => hxD (he ▸ hu)
        have hupd : ∀ u, u ≠ road.finish → Function.update s.dist road.finish (some (d + road.weight)) u = s.dist u :=
          fun u hu => Function.update_of_ne hu _ _
        have hdist : ∀ y, ∀ dy, s.dist y = some dy → ∃ dy',
            Function.update s.dist road.finish (some (d + road.weight)) y = some dy' ∧ dy' ≤ dy := by
          intro y dy hy
          by_cases hyx : y = road.finish
          · subst hyx
            rw [Function.update_self]
            exact ⟨_, rfl, le_of_lt (hb dy hy)⟩
          · rw [hupd y hyx]; exact ⟨dy, hy, le_refl _⟩
        obtain ⟨i1, i2⟩ := relax_spec (v := v) (d := d) (D := D) hV rest
          ⟨Function.update s.dist road.finish (some (d + road.weight)),
            Function.update s.pred road.finish (some v), s.queue ++ [(d + road.weight, road.finish)]⟩ hrest'
          (by dsimp only; rw [hupd v (hne v hv)]; exact hd)
          (by
            intro u hu du hdu
            dsimp only at hdu
            rw [hupd u (hne u hu)] at hdu
            exact hle u hu du hdu) hv
          { source := by dsimp only; rw [hupd src (Ne.symm hxsrc)]; exact h.source
            entries := by
              intro dy y hy
              dsimp only at hy ⊢
              rcases List.mem_append.mp hy with hy | hy
              · obtain ⟨dv, h1, h2⟩ := h.entries dy y hy
                obtain ⟨dy', h3, h4⟩ := hdist y dv h1
                exact ⟨dy', h3, le_trans h4 h2⟩
              · obtain ⟨rfl, rfl⟩ := Prod.mk.inj (List.mem_singleton.mp hy)
                exact ⟨_, Function.update_self .., le_refl _⟩
            waiting := by
              intro y dy hy
              dsimp only at hy ⊢
              by_cases hyx : y = road.finish
              · subst hyx
                rw [Function.update_self] at hy
                obtain rfl := Option.some.inj hy
                exact Or.inr (List.mem_append_right _ (List.mem_singleton.mpr rfl))
              · rw [hupd y hyx] at hy
                exact (h.waiting y dy hy).imp id fun h => List.mem_append_left _ h
            stale := by
              intro u hu du hdu hm
              dsimp only at hdu hm
              rw [hupd u (hne u hu)] at hdu
              rcases List.mem_append.mp hm with hm | hm
              · exact h.stale u hu du hdu hm
              · exact hne u hu (Prod.mk.inj (List.mem_singleton.mp hm)).2
            order := by
              intro u hu
              obtain ⟨du, h1, h2⟩ := h.order u hu
              refine ⟨du, by dsimp only; rw [hupd u (hne u hu)]; exact h1, fun p hp => ?_⟩
              rcases List.mem_append.mp hp with hp | hp
              · exact h2 p hp
              · rw [List.mem_singleton.mp hp]
                have := hle u hu du h1
                dsimp only
                omega
            nodup := by
              dsimp only
              rw [List.nodup_append]
              refine ⟨h.nodup, List.nodup_singleton _, fun p hp q hq he => ?_⟩
              rw [List.mem_singleton.mp hq] at he
              subst he
              obtain ⟨dv, h1, h2⟩ := h.entries _ _ hp
              have := hb dv h1
              omega
            dnodup := h.dnodup
            relaxed := by
              intro u hu du hdu r hr har
              dsimp only at hdu ⊢
              rw [hupd u (hne u hu)] at hdu
              rcases h.relaxed u hu du hdu r hr har with ⟨h1, h2⟩ | ⟨dv, h1, h2⟩
              · rcases List.mem_cons.mp h2 with rfl | h2
                · subst h1
                  rw [hd] at hdu
                  obtain rfl := Option.some.inj hdu
                  exact Or.inr ⟨_, Function.update_self .., le_refl _⟩
                · exact Or.inl ⟨h1, h2⟩
              · obtain ⟨dy', h3, h4⟩ := hdist _ dv h1
                exact Or.inr ⟨dy', h3, le_trans h4 h2⟩
            pred := by
              intro y dy hys hy
              dsimp only at hy ⊢
              by_cases hyx : y = road.finish
              · subst hyx
                rw [Function.update_self] at hy ⊢
                obtain rfl := Option.some.inj hy
                exact ⟨v, road.weight, d, rfl, hv, by rw [hupd v (hne v hv)]; exact hd, ⟨road, hroad, ha, rfl, rfl⟩, rfl⟩
              · rw [hupd y hyx] at hy
                obtain ⟨u, w, du, h1, h2, h3, h4, h5⟩ := h.pred y dy hys hy
                refine ⟨u, w, du, ?_, h2, by rw [hupd u (hne u h2)]; exact h3, h4, h5⟩
                rw [Function.update_of_ne hyx]; exact h1
            tree := by
              intro y hy hys u hu
              dsimp only at hu
              rw [Function.update_of_ne (hne y hy)] at hu
              exact h.tree y hy hys u hu
            unseen := by
              intro x hx
              dsimp only at hx ⊢
              have hxr : x ≠ road.finish := by
                rintro rfl
                rw [Function.update_self] at hx; cases hx
              rw [hupd x hxr] at hx
              rw [Function.update_of_ne hxr]
              rcases h.unseen x hx with h1 | ⟨r, h1, h2, h3, h4⟩
              · exact Or.inl h1
              · refine Or.inr ⟨r, h1, h2, h3, h4.imp id fun h5 => ⟨h5.1, ?_⟩⟩
                rcases List.mem_cons.mp h5.2 with rfl | h6
                · exact absurd h3.symm hxr
                · exact h6
            inV := by
              intro y dy hy
              dsimp only at hy
              by_cases hyx : y = road.finish
              · rw [hyx]; exact hV v road hroad
              · rw [hupd y hyx] at hy
                exact h.inV y dy hy }
        refine ⟨i1, ?_⟩
        rw [List.length_append, List.length_singleton] at i2
        rw [List.length_cons]; omega
      · rw [if_neg hb]
        push Not at hb
        obtain ⟨old, hold, hlt⟩ := hb
        obtain ⟨i1, i2⟩ := relax_spec hV rest s hrest' hd hle hv { h with
          relaxed := fun u hu du hdu r hr har => by
            rcases h.relaxed u hu du hdu r hr har with ⟨h1, h2⟩ | h1
            · rcases List.mem_cons.mp h2 with rfl | h2
              · subst h1
                rw [hd] at hdu
                obtain rfl := Option.some.inj hdu
                exact Or.inr ⟨old, hold, hlt⟩
              · exact Or.inl ⟨h1, h2⟩
            · exact Or.inr h1
          unseen := fun x hx => by
            rcases h.unseen x hx with h1 | ⟨r, h1, h2, h3, h4⟩
            · exact Or.inl h1
            · refine Or.inr ⟨r, h1, h2, h3, h4.imp id fun h5 => ⟨h5.1, ?_⟩⟩
              rcases List.mem_cons.mp h5.2 with rfl | h6
              · rw [h3] at hold
                rw [hx] at hold; cases hold
              · exact h6 }
        exact ⟨i1, by rw [List.length_cons]; omega⟩

/-- The roads still to be followed at most. -/
def openRoads (g : Net) (V D : List Nat) : Nat := ((V.filter fun u => u ∉ D).map fun u => (g.roads u).length).sum

theorem openRoads_cons {D : List Nat} {v : Nat} (hV : V.Nodup) (hv : v ∈ V) (hD : v ∉ D) :
    openRoads g V (v :: D) + (g.roads v).length = openRoads g V D := by
  unfold openRoads
  induction V with
  | nil => cases hv
  | cons y V ih =>
    rw [List.nodup_cons] at hV
    rcases List.mem_cons.mp hv with rfl | hv
    · rw [List.filter_cons_of_neg (by simp), List.filter_cons_of_pos (by simpa using hD)]
      have : (V.filter fun u => u ∉ v :: D) = V.filter fun u => u ∉ D := by
        apply List.filter_congr
        intro u hu
        have : u ≠ v := fun h => hV.1 (h ▸ hu)
        simp [this]
      rw [this, List.map_cons, List.sum_cons]
      omega
    · have hne : y ≠ v := fun h => hV.1 (h ▸ hv)
      have := ih hV.2 hv
      by_cases hy : y ∈ D
      · rw [List.filter_cons_of_neg (by simp [hy]), List.filter_cons_of_neg (by simp [hy])]
        exact this
      · rw [List.filter_cons_of_pos (by simp [hy, hne]), List.filter_cons_of_pos (by simp [hy])]
        simp only [List.map_cons, List.sum_cons]
        omega

theorem dijkstra_spec (hV : ∀ u, ∀ r ∈ g.roads u, r.finish ∈ V) (hVn : V.Nodup) : ∀ (fuel : Nat) (D : List Nat) (s : Search),
    Inv g avail src V (fun _ _ => False) D s → s.queue.length + openRoads g V D < fuel →
    ∃ s' D', dijkstra g avail fuel s = some s' ∧ Inv g avail src V (fun _ _ => False) D' s' ∧ s'.queue = []
  | 0, _, _, _, hf => by omega
  | fuel + 1, D, s, h, hf => by
    unfold dijkstra
    cases hq : s.queue with
    | nil => exact ⟨s, D, rfl, h, hq⟩
    | cons p ps =>
      dsimp only
      obtain ⟨hm, hmin⟩ := minPair_spec ps p
      rw [← hq] at hm hmin
      rw [← hq]
      generalize minPair ps p = top at hm hmin ⊢
      have hlen : (s.queue.erase top).length + 1 = s.queue.length := by
        rw [List.length_erase_of_mem hm]
        have : 0 < s.queue.length := List.length_pos_of_mem hm
        omega
      have hsub : ∀ q ∈ s.queue.erase top, q ∈ s.queue := fun q hq => List.mem_of_mem_erase hq
      obtain ⟨dv, hdv, hle⟩ := h.entries top.1 top.2 hm
      by_cases hst : ∃ d ∈ s.dist top.2, d < top.1
      · rw [if_pos hst]
        obtain ⟨d, hd, hlt⟩ := hst
        refine dijkstra_spec hV hVn fuel D _ { h with
          entries := fun d v hq => h.entries d v (hsub _ hq)
          waiting := fun v d' hd' => (h.waiting v d' hd').imp id fun hq => by
            refine (List.mem_erase_of_ne ?_).mpr hq
            rintro rfl
            dsimp only at hd hlt
            rw [show s.dist v = some d' from hd'] at hd
            obtain rfl := Option.some.inj hd
            omega
          stale := fun v hv d hd hq => h.stale v hv d hd (hsub _ hq)
          order := fun u hu => by
            obtain ⟨du, h1, h2⟩ := h.order u hu
            exact ⟨du, h1, fun q hq => h2 q (hsub _ hq)⟩
          nodup := h.nodup.erase _ } (by dsimp only; omega)
      · rw [if_neg hst]
        push Not at hst
        have hd : dv = top.1 := by
          have := hst dv hdv
          omega
        subst hd
        have hvD : top.2 ∉ D := fun hv => h.stale _ hv _ hdv hm
        obtain ⟨i1, i2⟩ := relax_spec (g := g) (avail := avail) (src := src) (V := V) (v := top.2) (d := top.1) (D := top.2 :: D) hV (g.roads top.2)
          { s with queue := s.queue.erase top } (fun _ h => h) hdv
          (by
            intro u hu du hdu
            rcases List.mem_cons.mp hu with rfl | hu
            · dsimp only at hdu
              rw [hdv] at hdu
              exact le_of_eq (Option.some.inj hdu).symm
            · obtain ⟨du', h1, h2⟩ := h.order u hu
              dsimp only at hdu
              rw [h1] at hdu
              obtain rfl := Option.some.inj hdu
              exact h2 top hm) List.mem_cons_self
          { h with
            entries := fun d v hq => h.entries d v (hsub _ hq)
            waiting := fun v d' hd' => by
              rcases h.waiting v d' hd' with h1 | h1
              · exact Or.inl (List.mem_cons_of_mem _ h1)
              · by_cases he : (d', v) = top
                · rw [← he]; exact Or.inl List.mem_cons_self
                · exact Or.inr ((List.mem_erase_of_ne he).mpr h1)
            stale := fun v hv d hd hq => by
              rcases List.mem_cons.mp hv with rfl | hv
              · dsimp only at hd hq
                rw [hdv] at hd
                obtain rfl := Option.some.inj hd
                exact ((h.nodup.mem_erase_iff).mp hq).1 rfl
              · exact h.stale v hv d hd (hsub _ hq)
            order := fun u hu => by
              rcases List.mem_cons.mp hu with rfl | hu
              · exact ⟨_, hdv, fun q hq => hmin q (hsub _ hq)⟩
              · obtain ⟨du, h1, h2⟩ := h.order u hu
                exact ⟨du, h1, fun q hq => h2 q (hsub _ hq)⟩
            nodup := h.nodup.erase _
            dnodup := List.nodup_cons.mpr ⟨hvD, h.dnodup⟩
            relaxed := fun u hu du hdu r hr har => by
              rcases List.mem_cons.mp hu with rfl | hu
              · exact Or.inl ⟨rfl, hr⟩
              · exact (h.relaxed u hu du hdu r hr har).imp False.elim id
            pred := fun v d hvs hd => by
              obtain ⟨u, w, du, h1, h2, h3⟩ := h.pred v d hvs hd
              exact ⟨u, w, du, h1, List.mem_cons_of_mem _ h2, h3⟩
            tree := fun v hv hvs u hu => by
              rcases List.mem_cons.mp hv with rfl | hv
              · obtain ⟨u', w, du, h1, h2, _⟩ := h.pred _ _ hvs hdv
                dsimp only at hu
                rw [h1] at hu
                obtain rfl := Option.some.inj hu
                exact ⟨[], D, rfl, h2⟩
              · obtain ⟨a, b, h1, h2⟩ := h.tree v hv hvs u hu
                exact ⟨top.2 :: a, b, by rw [h1]; rfl, h2⟩
            unseen := fun v hv => by
              rcases h.unseen v hv with h1 | ⟨r, h1, h2, h3, h4⟩
              · exact Or.inl h1
              · refine Or.inr ⟨r, h1, h2, h3, ?_⟩
                rcases h4 with h4 | h4
                · by_cases hs : src = top.2
                  · exact Or.inr ⟨hs, hs ▸ h1⟩
                  · exact Or.inl fun hc => (List.mem_cons.mp hc).elim hs h4
                · exact h4.elim }
        have := openRoads_cons (g := g) hVn (h.inV _ _ hdv) hvD
        exact dijkstra_spec hV hVn fuel (top.2 :: D) _ i1 (by dsimp only at i2; omega)

end Sampo.Land
