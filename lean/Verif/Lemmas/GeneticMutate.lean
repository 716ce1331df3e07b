import Verif.Lemmas.GeneticOrder
import Verif.Spec.Order

/-!
# Lemmas about the mutation of orders
-/

namespace Sampo.Genetic

theorem le_foldl_max (l : List Nat) : ∀ a, a ≤ l.foldl max a ∧ ∀ x ∈ l, x ≤ l.foldl max a := by
  induction l with
  | nil => intro a; simp
  | cons y ys ih =>
    intro a
    rw [List.foldl_cons]
    obtain ⟨h1, h2⟩ := ih (max a y)
    refine ⟨by omega, ?_⟩
    intro x hx
    rw [List.mem_cons] at hx
    rcases hx with rfl | hx
    · omega
    · exact h2 x hx

theorem foldl_max_le (l : List Nat) : ∀ a b, a ≤ b → (∀ x ∈ l, x ≤ b) → l.foldl max a ≤ b := by
  induction l with
  | nil => intro a b h _; exact h
  | cons y ys ih =>
    intro a b h hx
    rw [List.foldl_cons]
    exact ih _ _ (by have := hx y (by simp); omega) fun x hx' => hx x (by simp [hx'])

theorem foldl_min_le (l : List Nat) : ∀ a, l.foldl min a ≤ a ∧ ∀ x ∈ l, l.foldl min a ≤ x := by
  induction l with
  | nil => intro a; simp
  | cons y ys ih =>
    intro a
    rw [List.foldl_cons]
    obtain ⟨h1, h2⟩ := ih (min a y)
    refine ⟨by omega, ?_⟩
    intro x hx
    rw [List.mem_cons] at hx
    rcases hx with rfl | hx
    · omega
    · exact h2 x hx

theorem lowest_le (ps order : List Nat) (i : Nat) (hi : 1 ≤ i) : lowest ps order i ≤ i := by
  unfold lowest
  have := foldl_max_le ((List.range i).filter fun k => (order[k]?).any (· ∈ ps)) 0 (i - 1) (by omega) (by
    intro x hx
    have := List.mem_range.1 (List.mem_filter.1 hx).1
    omega)
  omega

theorem lt_lowest (ps order : List Nat) (i k v : Nat) (hk : k < i) (hv : order[k]? = some v) (hp : v ∈ ps) :
    k < lowest ps order i := by
  unfold lowest
  have := (le_foldl_max ((List.range i).filter fun k => (order[k]?).any (· ∈ ps)) 0).2 k (by
    rw [List.mem_filter, List.mem_range]
    exact ⟨hk, by rw [hv]; simpa using hp⟩)
  omega

theorem le_highest (cs order : List Nat) (i : Nat) : i ≤ highest cs order i := by unfold highest; omega

theorem highest_le (cs order : List Nat) (i : Nat) (hi : i + 2 ≤ order.length) : highest cs order i + 2 ≤ order.length := by
  unfold highest
  have := (foldl_min_le ((List.range (order.length - (i + 1))).filter fun k => (order[i + 1 + k]?).any (· ∈ cs))
    (order.length - 2 - i)).1
  omega

theorem highest_le_child (cs order : List Nat) (i k v : Nat) (hv : order[i + 1 + k]? = some v) (hc : v ∈ cs) :
    highest cs order i ≤ k + i := by
  unfold highest
  have hlt : i + 1 + k < order.length := (List.getElem?_eq_some_iff.1 hv).1
  have := (foldl_min_le ((List.range (order.length - (i + 1))).filter fun k => (order[i + 1 + k]?).any (· ∈ cs))
    (order.length - 2 - i)).2 k (by
    rw [List.mem_filter, List.mem_range]
    exact ⟨by omega, by rw [hv]; simpa using hc⟩)
  omega

theorem mem_choices {lo i hi x : Nat} (h : x ∈ choices lo i hi) : (lo ≤ x ∧ x < i) ∨ (i < x ∧ x ≤ hi) := by
  unfold choices at h
  rw [List.mem_append, List.mem_range'_1, List.mem_range'_1] at h
  omega

theorem choices_ne_nil {lo i hi : Nat} (h1 : lo ≤ i) (h2 : i ≤ hi) (h : lo ≠ hi) : choices lo i hi ≠ [] := by
  unfold choices
  intro hc
  have := congrArg List.length hc
  rw [List.length_append, List.length_range', List.length_range'] at this
  simp only [List.length_nil] at this
  omega

/-- Where the element at position `k ≠ i` goes. -/
def moved (i new k : Nat) : Nat :=
  if new ≤ (if i < k then k - 1 else k) then (if i < k then k - 1 else k) + 1 else (if i < k then k - 1 else k)

theorem getElem?_moved (order : List Nat) (i new k work : Nat) (hk : k ≠ i) :
    ((order.eraseIdx i).insertIdx new work)[moved i new k]? = order[k]? := by
  have key : ∀ k', (order.eraseIdx i)[k']? = if k' < i then order[k']? else order[k' + 1]? := by
    intro k'
    rw [List.getElem?_eraseIdx]
  have ins : ∀ m, m ≠ new → ((order.eraseIdx i).insertIdx new work)[m]? =
      if m < new then (order.eraseIdx i)[m]? else (order.eraseIdx i)[m - 1]? := by
    intro m hm
    rw [List.getElem?_insertIdx]
    by_cases h1 : m < new
    · rw [if_pos h1, if_pos h1]
    · rw [if_neg h1, if_neg h1, if_neg hm]
  unfold moved
  by_cases h1 : i < k
  · simp only [if_pos h1]
    by_cases h2 : new ≤ k - 1
    · rw [if_pos h2, ins _ (by omega), if_neg (by omega), key, if_neg (by omega)]
      congr 1
      omega
    · rw [if_neg h2, ins _ (by omega), if_pos (by omega), key, if_neg (by omega)]
      congr 1
      omega
  · simp only [if_neg h1]
    by_cases h2 : new ≤ k
    · rw [if_pos h2, ins _ (by omega), if_neg (by omega), key, if_pos (by omega)]
      rfl
    · rw [if_neg h2, ins _ (by omega), if_pos (by omega), key, if_pos (by omega)]

/-- Orders in which no work precedes one of its parents. -/
def Valid (par : Nat → List Nat) (order : List Nat) : Prop := order.Pairwise fun x y => y ∉ par x

variable {par chi : Nat → List Nat}

/-- Moving one work between its last predecessor and its first successor. -/
theorem valid_insert (hinv : ∀ v c, c ∈ chi v ↔ v ∈ par c) (order : List Nat) (work i new : Nat)
    (hv : Valid par order) (hw : order[i]? = some work)
    (hnew : (lowest (par work) order i ≤ new ∧ new < i) ∨ (i < new ∧ new ≤ highest (chi work) order i)) :
    Valid par ((order.eraseIdx i).insertIdx new work) := by
  obtain ⟨hi, hw'⟩ := List.getElem?_eq_some_iff.1 hw
  have hsplit : order = order.take i ++ work :: order.drop (i + 1) := by
    conv_lhs => rw [← List.take_append_drop i order, List.drop_eq_getElem_cons hi, hw']
  generalize hA : order.take i = A at hsplit
  generalize hB : order.drop (i + 1) = B at hsplit
  have hAl : A.length = i := by rw [← hA, List.length_take]; omega
  have hAget : ∀ k, k < i → A[k]? = order[k]? := by
    intro k hk
    rw [← hA, List.getElem?_take, if_pos hk]
  have hBget : ∀ k, B[k]? = order[i + 1 + k]? := by
    intro k
    rw [← hB, List.getElem?_drop]
  have herase : order.eraseIdx i = A ++ B := by
    rw [hsplit, ← hAl]
    clear * -
    induction A with
    | nil => rfl
    | cons a A ih => simpa using ih
  have hv' := hv
  unfold Valid at hv'
  rw [hsplit, List.pairwise_append, List.pairwise_cons] at hv'
  obtain ⟨vA, ⟨vwB, vB⟩, vAwB⟩ := hv'
  have hAB : (A ++ B).Pairwise fun x y => y ∉ par x := by
    rw [List.pairwise_append]
    exact ⟨vA, vB, fun a ha b hb => vAwB a ha b (by simp [hb])⟩
  have hlen : new ≤ (A ++ B).length := by
    rcases hnew with h | h
    · rw [List.length_append]; omega
    · by_cases h2 : i + 2 ≤ order.length
      · have := highest_le (chi work) order i h2
        have : (A ++ B).length + 1 = order.length := by
          conv_rhs => rw [hsplit]
          simp; omega
        omega
      · -- no position is left after `i`
        have hh : highest (chi work) order i = i := by
          unfold highest
          have := (foldl_min_le ((List.range (order.length - (i + 1))).filter
            fun k => (order[i + 1 + k]?).any (· ∈ chi work)) (order.length - 2 - i)).1
          omega
        omega
  have hins : (A ++ B).insertIdx new work = (A ++ B).take new ++ work :: (A ++ B).drop new := by
    clear * - hlen
    generalize A ++ B = L at hlen
    induction L generalizing new with
    | nil =>
      have : new = 0 := by simpa using hlen
      subst this; rfl
    | cons x xs ih =>
      cases new with
      | zero => rfl
      | succ n => simpa using ih n (by simpa using hlen)
  unfold Valid
  rw [herase, hins]
  rw [← List.take_append_drop new (A ++ B), List.pairwise_append] at hAB
  rw [List.pairwise_append, List.pairwise_cons]
  refine ⟨hAB.1, ⟨?_, hAB.2.1⟩, ?_⟩
  · -- nothing after the new place is a predecessor
    intro y hy hyp
    obtain ⟨k, hk⟩ := List.mem_iff_getElem?.1 hy
    rw [List.getElem?_drop] at hk
    by_cases hkA : new + k < A.length
    · rw [List.getElem?_append_left hkA, hAget _ (by omega)] at hk
      have := lt_lowest (par work) order i (new + k) y (by omega) hk hyp
      rcases hnew with h | h <;> omega
    · rw [List.getElem?_append_right (by omega)] at hk
      exact vwB y (List.mem_of_getElem? hk) hyp
  · intro x hx y hy
    rw [List.mem_cons] at hy
    rcases hy with rfl | hy
    · intro hyp
      obtain ⟨k, hk⟩ := List.mem_iff_getElem?.1 hx
      by_cases hkn : k < new
      · rw [List.getElem?_take, if_pos hkn] at hk
        by_cases hkA : k < A.length
        · rw [List.getElem?_append_left hkA] at hk
          exact vAwB x (List.mem_of_getElem? hk) y (by simp) hyp
        · rw [List.getElem?_append_right (by omega), hBget] at hk
          have := highest_le_child (chi y) order i (k - A.length) x hk ((hinv _ _).2 hyp)
          rcases hnew with h | h <;> omega
      · rw [List.getElem?_take, if_neg hkn] at hk; simp at hk
    · exact hAB.2.2 x hx y hy

/-- What is kept while the works of a group are moved. -/
structure Kept (par : Nat → List Nat) (before after : List Nat) : Prop where
  perm : after.Perm before
  valid : Valid par after
  first : after[0]? = before[0]?
  last : after[before.length - 1]? = before[before.length - 1]?

theorem mutateWork_spec (hinv : ∀ v c, c ∈ chi v ↔ v ∈ par c) (pick : List Nat → Option Nat)
    (hpick : ∀ l, l ≠ [] → ∃ x ∈ l, pick l = some x) (order : List Nat) (hv : Valid par order) (work i : Nat) (rest works : List Nat)
    (hi : 1 ≤ i ∧ i + 2 ≤ order.length) (hrest : ∀ k ∈ rest, 1 ≤ k ∧ k + 2 ≤ order.length)
    (hw : order[i]? = some work) (hws : rest.map (fun k => order[k]?) = works.map some) (hnw : work ∉ works) :
    ∃ order' rest', mutateWork par chi pick order work i rest = some (order', rest') ∧ Kept par order order' ∧
      (∀ k ∈ rest', 1 ≤ k ∧ k + 2 ≤ order'.length) ∧ rest'.map (fun k => order'[k]?) = works.map some := by
  unfold mutateWork
  simp only
  have hlo := lowest_le (par work) order i hi.1
  have hhi := le_highest (chi work) order i
  have hhi2 := highest_le (chi work) order i hi.2
  by_cases heq : lowest (par work) order i = highest (chi work) order i
  · rw [if_pos heq]
    exact ⟨order, rest, rfl, ⟨List.Perm.refl _, hv, rfl, rfl⟩, hrest, hws⟩
  · rw [if_neg heq]
    obtain ⟨new, hmem, hp⟩ := hpick _ (choices_ne_nil hlo hhi heq)
    have hnew := mem_choices hmem
    have hlo1 : 1 ≤ lowest (par work) order i := by unfold lowest; omega
    have hn1 : 1 ≤ new := by omega
    have hn2 : new + 2 ≤ order.length := by omega
    rw [hp]
    have hlen : ((order.eraseIdx i).insertIdx new work).length = order.length := by
      have h1 : (order.eraseIdx i).length = order.length - 1 := by
        rw [List.length_eraseIdx, if_pos (by omega)]
      rw [List.length_insertIdx, if_pos (by omega), h1]; omega
    have hmove : (rest.map fun k => if i < k then k - 1 else k).map (fun k => if new ≤ k then k + 1 else k) =
        rest.map (moved i new) := by
      rw [List.map_map]; rfl
    refine ⟨_, _, rfl, ⟨?_, valid_insert hinv order work i new hv hw hnew, ?_, ?_⟩, ?_, ?_⟩
    · refine (List.perm_insertIdx work (order.eraseIdx i) (i := new) ?_).trans ?_
      · rw [List.length_eraseIdx, if_pos (by omega)]; omega
      · obtain ⟨hi', hw'⟩ := List.getElem?_eq_some_iff.1 hw
        rw [← hw']
        exact List.getElem_cons_eraseIdx_perm hi'
    · have := getElem?_moved order i new 0 work (by omega)
      rw [← this]
      congr 1
      unfold moved
      rw [if_neg (by omega : ¬ i < 0), if_neg (by omega)]
    · have := getElem?_moved order i new (order.length - 1) work (by omega)
      rw [← this]
      congr 1
      unfold moved
      rw [if_pos (by omega : i < order.length - 1), if_pos (by omega)]
      omega
    · rw [hmove, hlen]
      intro k hk
      rw [List.mem_map] at hk
      obtain ⟨j, hj, rfl⟩ := hk
      have hj2 := hrest j hj
      have hji : j ≠ i := by
        rintro rfl
        have : some work ∈ works.map some := by
          rw [← hws, List.mem_map]; exact ⟨j, hj, hw⟩
        simp only [List.mem_map, Option.some.injEq, exists_eq_right] at this
        exact hnw this
      unfold moved
      by_cases h1 : i < j
      · simp only [if_pos h1]; split <;> omega
      · simp only [if_neg h1]; split <;> omega
    · rw [hmove, ← hws, List.map_map]
      refine List.map_congr_left ?_
      intro j hj
      have hji : j ≠ i := by
        rintro rfl
        have : some work ∈ works.map some := by
          rw [← hws, List.mem_map]; exact ⟨j, hj, hw⟩
        simp only [List.mem_map, Option.some.injEq, exists_eq_right] at this
        exact hnw this
      exact getElem?_moved order i new j work hji

theorem mutateLoop_spec (hinv : ∀ v c, c ∈ chi v ↔ v ∈ par c) (pick : Nat → List Nat → Option Nat)
    (hpick : ∀ k l, l ≠ [] → ∃ x ∈ l, pick k l = some x) :
    ∀ (works positions order : List Nat), Valid par order → works.Nodup →
      (∀ k ∈ positions, 1 ≤ k ∧ k + 2 ≤ order.length) → positions.map (fun k => order[k]?) = works.map some →
      ∃ order', mutateLoop par chi pick works positions order = some order' ∧ Kept par order order' := by
  intro works
  induction works with
  | nil =>
    intro positions order hv _ _ _
    exact ⟨order, by unfold mutateLoop; rfl, List.Perm.refl _, hv, rfl, rfl⟩
  | cons work works ih =>
    intro positions order hv hnd hr hm
    cases positions with
    | nil => simp at hm
    | cons i rest =>
      rw [List.map_cons, List.map_cons, List.cons.injEq] at hm
      rw [List.nodup_cons] at hnd
      obtain ⟨o', r', h1, h2, h3, h4⟩ := mutateWork_spec hinv (pick works.length) (hpick _) order hv work i rest works
        (hr i (by simp)) (fun k hk => hr k (by simp [hk])) hm.1 hm.2 hnd.1
      obtain ⟨o2, h5, h6⟩ := ih r' o' h2.valid hnd.2 h3 h4
      refine ⟨o2, ?_, h6.perm.trans h2.perm, h6.valid, h6.first.trans h2.first, ?_⟩
      · unfold mutateLoop
        rw [h1]
        exact h5
      · have := h6.last
        rw [h2.perm.length_eq] at this
        exact this.trans h2.last

theorem mutateCore_spec (hinv : ∀ v c, c ∈ chi v ↔ v ∈ par c) (positions : List Nat) (pick : Nat → List Nat → Option Nat)
    (order : List Nat) (hc : Choice order.length positions pick) (hv : Valid par order) (hnd : order.Nodup) :
    ∃ order', mutateCore par chi positions pick order = some order' ∧ Kept par order order' := by
  unfold mutateCore
  have hsome : ∀ i ∈ positions, ∃ w, order[i]? = some w := by
    intro i hi
    have := hc.range i hi
    exact ⟨_, List.getElem?_eq_getElem (by omega)⟩
  obtain ⟨works, hworks, hmap⟩ : ∃ works, (positions.mapM fun i => order[i]?) = some works ∧
      positions.map (fun k => order[k]?) = works.map some := by
    clear hc
    induction positions with
    | nil => exact ⟨[], rfl, rfl⟩
    | cons i rest ih =>
      obtain ⟨w, hw⟩ := hsome i (by simp)
      obtain ⟨ws, h1, h2⟩ := ih fun j hj => hsome j (by simp [hj])
      refine ⟨w :: ws, ?_, ?_⟩
      · rw [List.mapM_cons, hw, h1]; rfl
      · rw [List.map_cons, List.map_cons, hw, h2]
  rw [hworks]
  have hwnd : works.Nodup := by
    have h1 : (positions.map (fun k => order[k]?)).Nodup := by
      refine (List.nodup_map_iff_inj_on hc.nodup).2 ?_
      intro a ha b hb hab
      have ra := hc.range a ha
      have rb := hc.range b hb
      exact (List.getElem?_inj (by omega) hnd).1 hab
    rw [hmap] at h1
    exact List.Nodup.of_map _ h1
  exact mutateLoop_spec hinv pick hc.pick_mem works positions order hv hwnd (fun k hk => hc.range k hk) hmap

theorem mutate_spec (hinv : ∀ v c, c ∈ chi v ↔ v ∈ par c) (prio : Nat → Int) (positions : Nat → Nat → List Nat)
    (pick : Nat → Nat → List Nat → Option Nat) (hc : ∀ i n, Choice n (positions i n) (pick i))
    (order : List Nat) (hne : order ≠ []) (hv : Valid par order) (hnd : order.Nodup) :
    ∃ c, mutate par chi prio positions pick order = some c ∧ c.Perm order ∧ Valid par c ∧
      c.map prio = order.map prio ∧ ∀ j, GroupEdge prio order j → c[j]? = order[j]? := by
  unfold mutate
  obtain ⟨v, hv0⟩ : ∃ v, order[0]? = some v := by
    cases order with
    | nil => exact absurd rfl hne
    | cons x xs => exact ⟨x, rfl⟩
  rw [hv0]
  simp only
  have key := foldlM_range_inv (mutateStep par chi prio positions pick)
    (fun k s => s.2.2.Perm order ∧ Valid par s.2.2 ∧ s.2.2.map prio = order.map prio ∧
      (∀ j, GroupEdge prio order j → s.2.2[j]? = order[j]?) ∧ (∀ j, s.2.1 ≤ j → s.2.2[j]? = order[j]?) ∧ (k ≠ 0 → s.2.1 < k) ∧
      (∀ j, s.2.1 ≤ j → j < k → (order.map prio)[j]? = some s.1) ∧ (k = 0 → s.1 = prio v ∧ s.2.1 = 0))
    (prio v, 0, order) order.length
    ⟨List.Perm.refl _, hv, rfl, fun _ _ => rfl, fun _ _ => rfl, fun h => absurd rfl h,
      fun j _ h => absurd h (Nat.not_lt_zero j), fun _ => ⟨rfl, rfl⟩⟩ ?_
  · obtain ⟨y, hy, hP⟩ := key
    exact ⟨y.2.2, by rw [hy]; rfl, hP.1, hP.2.1, hP.2.2.1, hP.2.2.2.1⟩
  · rintro k ⟨cur, start, o⟩ hk ⟨hp, hvo, hm, hedge, hsame, hsk, hcur, h0⟩
    simp only at hp hvo hm hedge hsame hsk hcur h0
    have hol := hp.length_eq
    have hko : k < o.length := by omega
    have hgo : o[k]? = some o[k] := List.getElem?_eq_getElem hko
    have hmk : (order.map prio)[k]? = some (prio o[k]) := by
      rw [← hm, List.getElem?_map, hgo]; rfl
    unfold mutateStep
    simp only [hgo]
    by_cases hpr : prio o[k] = cur
    · rw [if_pos hpr]
      refine ⟨_, rfl, hp, hvo, hm, hedge, hsame, ?_, ?_, by omega⟩
      · intro _
        by_cases hk0 : k = 0
        · have := (h0 hk0).2; simp only; omega
        · have := hsk hk0; simp only; omega
      intro j h1 h2
      by_cases hjk : j = k
      · subst hjk; rw [hmk, hpr]
      · exact hcur j h1 (by omega)
    · rw [if_neg hpr]
      have hk0 : k ≠ 0 := by
        intro hk0
        subst hk0
        have e := hsame 0 (by have := (h0 rfl).2; omega)
        rw [hv0, hgo] at e
        rw [(h0 rfl).1] at hpr
        exact hpr (by rw [Option.some.inj e])
      have hstk : start < k := hsk hk0
      generalize hG : (o.take k).drop start = G
      have hsplit : o = o.take start ++ G ++ o.drop k := by
        have e1 : o.take start = (o.take k).take start := by rw [List.take_take, min_eq_left (by omega)]
        have e2 : o.take k = o.take start ++ G := by rw [e1, ← hG, List.take_append_drop]
        rw [← e2, List.take_append_drop]
      have hAl : (o.take start).length = start := by rw [List.length_take]; omega
      have hGl : G.length = k - start := by rw [← hG, List.length_drop, List.length_take]; omega
      have hGsub : G.Sublist o := by
        rw [← hG]; exact (List.drop_sublist _ _).trans (List.take_sublist _ _)
      have hGget : ∀ j, j < k - start → G[j]? = o[start + j]? := by
        intro j hj
        rw [← hG, List.getElem?_drop, List.getElem?_take, if_pos (by omega)]
      have hGprio : ∀ x ∈ G, prio x = cur := by
        intro x hx
        obtain ⟨j, hj⟩ := List.mem_iff_getElem?.1 hx
        have hjl : j < G.length := (List.getElem?_eq_some_iff.1 hj).1
        rw [hGget j (by omega)] at hj
        have := hcur (start + j) (by omega) (by omega)
        rw [← hm, List.getElem?_map, hj] at this
        exact Option.some.inj this
      obtain ⟨G', hG1, hG2⟩ := mutateCore_spec hinv (positions k G.length) (pick k) G (hc k G.length)
        (hvo.sublist hGsub) ((hp.nodup_iff.2 hnd).sublist hGsub)
      rw [hG1]
      have hGl' : G'.length = k - start := by rw [hG2.perm.length_eq, hGl]
      have hperm : (o.take start ++ G' ++ o.drop k).Perm o := by
        conv_rhs => rw [hsplit]
        exact (hG2.perm.append_left _).append_right _
      have hmap : (o.take start ++ G' ++ o.drop k).map prio = o.map prio := by
        conv_rhs => rw [hsplit]
        rw [List.map_append, List.map_append, List.map_append, List.map_append]
        congr 2
        have e1 : G'.map prio = List.replicate (k - start) cur := by
          rw [List.eq_replicate_iff]
          refine ⟨by rw [List.length_map, hGl'], ?_⟩
          intro b hb
          obtain ⟨x, hx, rfl⟩ := List.mem_map.1 hb
          exact hGprio x (hG2.perm.mem_iff.1 hx)
        have e2 : G.map prio = List.replicate (k - start) cur := by
          rw [List.eq_replicate_iff]
          refine ⟨by rw [List.length_map, hGl], ?_⟩
          intro b hb
          obtain ⟨x, hx, rfl⟩ := List.mem_map.1 hb
          exact hGprio x hx
        rw [e1, e2]
      have hget_lt : ∀ j, j < start → (o.take start ++ G' ++ o.drop k)[j]? = o[j]? := by
        intro j hj
        rw [List.append_assoc, List.getElem?_append_left (by omega), List.getElem?_take, if_pos hj]
      have hget_ge : ∀ j, k ≤ j → (o.take start ++ G' ++ o.drop k)[j]? = o[j]? := by
        intro j hj
        rw [List.getElem?_append_right (by rw [List.length_append]; omega), List.getElem?_drop, List.length_append]
        congr 1
        omega
      have hget_mid : ∀ j, start ≤ j → j < k → (o.take start ++ G' ++ o.drop k)[j]? = G'[j - start]? := by
        intro j hj1 hj2
        rw [List.append_assoc, List.getElem?_append_right (by omega), List.getElem?_append_left (by omega), hAl]
      refine ⟨_, rfl, hperm.trans hp, ?_, hmap.trans hm, ?_, ?_, fun _ => Nat.lt_succ_self k, ?_, by omega⟩
      · have hv2 := hvo
        unfold Valid at hv2 ⊢
        rw [hsplit, List.pairwise_append, List.pairwise_append] at hv2
        simp only
        rw [List.pairwise_append, List.pairwise_append]
        obtain ⟨⟨a1, a2, a3⟩, a4, a5⟩ := hv2
        refine ⟨⟨a1, hG2.valid, fun x hx y hy => a3 x hx y (hG2.perm.mem_iff.1 hy)⟩, a4, ?_⟩
        intro x hx y hy
        rw [List.mem_append] at hx
        exact a5 x (List.mem_append.2 (hx.imp_right hG2.perm.mem_iff.1)) y hy
      · intro j hj
        simp only
        by_cases hj1 : j < start
        · rw [hget_lt j hj1]; exact hedge j hj
        · by_cases hj2 : k ≤ j
          · rw [hget_ge j hj2]; exact hsame j (by omega)
          · have hends : j = start ∨ j = k - 1 := by
              by_contra hcon
              push Not at hcon
              rcases hj with hj | hj | hj | hj
              · omega
              · omega
              · exact hj (by rw [hcur (j - 1) (by omega) (by omega), hcur j (by omega) (by omega)])
              · exact hj (by rw [hcur j (by omega) (by omega), hcur (j + 1) (by omega) (by omega)])
            rw [hget_mid j (by omega) (by omega), ← hsame j (by omega)]
            rcases hends with rfl | rfl
            · rw [Nat.sub_self, hG2.first, hGget 0 (by omega)]; rfl
            · have := hG2.last
              rw [hGl] at this
              have e : k - 1 - start = k - start - 1 := by omega
              rw [e, this, hGget _ (by omega)]
              congr 1
              omega
      · intro j hj
        simp only at hj ⊢
        rw [hget_ge j hj]
        exact hsame j (by omega)
      · intro j hj1 hj2
        simp only at hj1 ⊢
        have : j = k := by omega
        subst this
        exact hmk

end Sampo.Genetic
