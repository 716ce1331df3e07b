import Verif.Spec.SortedList
import Mathlib.Data.List.TakeWhile

/-! Lemmas for C93. -/

set_option linter.unusedSectionVars false

namespace Sampo.Sorted

variable {α κ : Type} [LinearOrder κ]

theorem flatten_set {l : List (List α)} {p : Nat} {xs : List α} (h : l[p]? = some xs) (ys : List α) :
    (l.set p ys).flatten = (l.take p).flatten ++ ys ++ (l.drop (p + 1)).flatten := by
  have hp : p < l.length := (List.getElem?_eq_some_iff.1 h).1
  rw [List.set_eq_take_append_cons_drop, if_pos hp]
  simp

theorem flatten_split {l : List (List α)} {p : Nat} {xs : List α} (h : l[p]? = some xs) :
    l.flatten = (l.take p).flatten ++ xs ++ (l.drop (p + 1)).flatten := by
  rw [← flatten_set h xs]
  obtain ⟨hp, rfl⟩ := List.getElem?_eq_some_iff.1 h
  rw [List.set_getElem_self]

theorem insertIdx_split {β : Type} (v : β) : ∀ {l : List β} {i : Nat}, i ≤ l.length → l.insertIdx i v = l.take i ++ v :: l.drop i
  | l, 0, _ => by simp
  | [], i + 1, h => by simp at h
  | a :: l, i + 1, h => by
    rw [List.insertIdx_succ_cons, insertIdx_split v (by simpa using h)]; rfl

/-- What one call does to the items: one item of the key is merged, or the value is put between smaller and greater ones. -/
inductive Step (key : α → κ) (k : κ) (value : α) (merger : α → α → α) : List α → List α → Prop
  | merged (L R : List α) (x : α) (h : key x = k) : Step key k value merger (L ++ x :: R) (L ++ merger x value :: R)
  | added (L R : List α) (hl : ∀ y ∈ L, key y < k) (hr : ∀ y ∈ R, k < key y) : Step key k value merger (L ++ R) (L ++ value :: R)

theorem Step.sorted {key : α → κ} {k : κ} {value : α} {merger : α → α → α} {a b : List α} (h : Step key k value merger a b)
    (hv : key value = k) (hm : ∀ x, key x = k → key (merger x value) = k) (ha : a.Pairwise fun x y => key x ≤ key y) :
    b.Pairwise fun x y => key x ≤ key y := by
  cases h with
  | merged L R x h =>
    have := hm x h
    rw [List.pairwise_append, List.pairwise_cons] at ha ⊢
    refine ⟨ha.1, ⟨fun y hy => ?_, ha.2.1.2⟩, fun y hy z hz => ?_⟩
    · rw [this, ← h]; exact ha.2.1.1 y hy
    · rcases List.mem_cons.1 hz with rfl | hz
      · rw [this, ← h]; exact ha.2.2 y hy x (by simp)
      · exact ha.2.2 y hy z (by simp [hz])
  | added L R hl hr =>
    rw [List.pairwise_append] at ha
    rw [List.pairwise_append, List.pairwise_cons]
    refine ⟨ha.1, ⟨fun y hy => ?_, ha.2.1⟩, fun y hy z hz => ?_⟩
    · rw [hv]; exact (hr y hy).le
    · rcases List.mem_cons.1 hz with rfl | hz
      · rw [hv]; exact (hl y hy).le
      · exact ha.2.2 y hy z hz

theorem takeWhile_le {l : List κ} (k : κ) : ∀ x ∈ l.take (bisectRight l k), x ≤ k := by
  intro x hx
  unfold bisectRight at hx
  rw [← List.prefix_iff_eq_take.1 (List.takeWhile_prefix _)] at hx
  simpa using List.mem_takeWhile_imp hx

theorem dropWhile_gt {l : List κ} (hl : l.Pairwise (· ≤ ·)) (k : κ) : ∀ x ∈ l.drop (bisectRight l k), k < x := by
  induction l with
  | nil => simp
  | cons a l ih =>
    rw [List.pairwise_cons] at hl
    intro x hx
    unfold bisectRight at hx ih
    by_cases ha : a ≤ k
    · rw [List.takeWhile_cons_of_pos (by simpa using ha)] at hx
      exact ih hl.2 x (by simpa using hx)
    · rw [List.takeWhile_cons_of_neg (by simpa using ha)] at hx
      rcases List.mem_cons.1 (by simpa using hx) with rfl | hx
      · exact not_le.1 ha
      · exact (not_le.1 ha).trans_le (hl.1 x hx)

theorem bisectLeft_lt {l : List κ} {k : κ} : ∀ i < bisectLeft l k, ∀ m, l[i]? = some m → m < k := by
  intro i hi m hm
  have hpre := List.takeWhile_prefix (l := l) (fun x => decide (x < k))
  obtain ⟨r, hr⟩ := hpre
  have : (l.takeWhile (fun x => decide (x < k)))[i]? = some m := by
    rw [← hr, List.getElem?_append_left hi] at hm
    exact hm
  simpa using List.mem_takeWhile_imp (List.mem_of_getElem? this)

theorem bisectLeft_ge {l : List κ} {k : κ} (h : bisectLeft l k ≠ l.length) : ∃ m, l[bisectLeft l k]? = some m ∧ k ≤ m := by
  induction l with
  | nil => simp [bisectLeft] at h
  | cons a l ih =>
    unfold bisectLeft at h ih ⊢
    by_cases ha : a < k
    · rw [List.takeWhile_cons_of_pos (by simpa using ha)] at h ⊢
      obtain ⟨m, hm, hk⟩ := ih (by simpa using h)
      exact ⟨m, by simpa using hm, hk⟩
    · rw [List.takeWhile_cons_of_neg (by simpa using ha)]
      exact ⟨a, by simp, not_lt.1 ha⟩

theorem bisectLeft_le (l : List κ) (k : κ) : bisectLeft l k ≤ l.length := (List.takeWhile_prefix _).length_le

section
variable {key : α → κ} {s : Store α κ}

theorem Agree.keysAt (h : Agree key s) {p : Nat} {xs : List α} (hx : s.lists[p]? = some xs) : s.keys[p]? = some (xs.map key) := by
  rw [h.keys, List.getElem?_map, hx]; rfl

theorem Agree.maxAt (h : Agree key s) {p : Nat} {xs : List α} (hx : s.lists[p]? = some xs) :
    ∃ x, xs.getLast? = some x ∧ s.maxes[p]? = some (key x) := by
  have h1 := congrArg (·[p]?) h.maxes
  simp only [List.getElem?_map, h.keysAt hx, Option.map_some, List.getLast?_map] at h1
  cases hm : s.maxes[p]? with
  | none => rw [hm] at h1; simp at h1
  | some m =>
    rw [hm] at h1
    cases hl : xs.getLast? with
    | none => rw [hl] at h1; simp at h1
    | some x => rw [hl] at h1; simp only [Option.map_some, Option.some.injEq] at h1; exact ⟨x, rfl, by rw [h1]⟩

theorem Agree.length (h : Agree key s) : s.maxes.length = s.lists.length := by
  have := congrArg List.length h.maxes
  rw [h.keys] at this
  simpa using this

theorem Agree.listAt (h : Agree key s) {p : Nat} (hp : p < s.maxes.length) : ∃ xs, s.lists[p]? = some xs :=
  ⟨s.lists[p]'(h.length ▸ hp), List.getElem?_eq_getElem _⟩

theorem Agree.mem_take (h : Agree key s) (hs : s.items.Pairwise fun x y => key x ≤ key y) {p : Nat} {k : κ}
    (hk : ∀ i < p, ∀ m, s.maxes[i]? = some m → m < k) : ∀ y ∈ (s.lists.take p).flatten, key y < k := by
  intro y hy
  obtain ⟨xs, hxs, hy⟩ := List.mem_flatten.1 hy
  obtain ⟨i, hi⟩ := List.mem_iff_getElem?.1 hxs
  rw [List.getElem?_take] at hi
  split at hi
  · rename_i hip
    obtain ⟨x, hx, hm⟩ := h.maxAt hi
    refine lt_of_le_of_lt ?_ (hk i hip _ hm)
    have hs' : xs.Pairwise fun x y => key x ≤ key y := by
      have := flatten_split hi
      unfold Store.items at hs
      rw [this, List.pairwise_append, List.pairwise_append] at hs
      exact hs.1.2.1
    obtain ⟨ys, rfl⟩ := List.getLast?_eq_some_iff.1 hx
    rcases List.mem_append.1 hy with hy | hy
    · exact (List.pairwise_append.1 hs').2.2 y hy x (by simp)
    · simp at hy; rw [hy]
  · simp at hi

theorem set_same {l : List (List α)} {p : Nat} {xs : List α} (h : l[p]? = some xs) : l.set p xs = l := by
  obtain ⟨hp, rfl⟩ := List.getElem?_eq_some_iff.1 h
  exact List.set_getElem_self ..

/-- Sublists with the same keys. -/
theorem Agree.keep (h : Agree key s) {p : Nat} {xs ys : List α} (hx : s.lists[p]? = some xs) (hy : ys.map key = xs.map key) :
    Agree key { s with lists := s.lists.set p ys } := by
  refine ⟨?_, h.maxes⟩
  dsimp only
  rw [List.map_set, hy, ← List.map_set, set_same hx, h.keys]

/-- A sublist with other items. -/
theorem Agree.change (h : Agree key s) {p : Nat} {ys : List α} {y : α} (hy : ys.getLast? = some y) :
    Agree key { s with lists := s.lists.set p ys, keys := s.keys.set p (ys.map key), maxes := s.maxes.set p (key y) } := by
  refine ⟨?_, ?_⟩
  · dsimp only; rw [List.map_set, h.keys]
  · dsimp only; rw [List.map_set, List.map_set, h.maxes, List.getLast?_map, hy]; rfl

theorem map_set_same {xs : List α} {i : Nat} {x z : α} (hx : xs[i]? = some x) (hz : key z = key x) :
    (xs.set i z).map key = xs.map key := by
  obtain ⟨hi, rfl⟩ := List.getElem?_eq_some_iff.1 hx
  rw [List.map_set, hz]
  apply List.ext_getElem? 
  intro j
  rw [List.getElem?_set]
  split
  · subst_vars; simp [hi]
  · rfl

theorem set_split {xs : List α} {i : Nat} {x : α} (hx : xs[i]? = some x) (z : α) :
    xs = xs.take i ++ x :: xs.drop (i + 1) ∧ xs.set i z = xs.take i ++ z :: xs.drop (i + 1) := by
  obtain ⟨hi, rfl⟩ := List.getElem?_eq_some_iff.1 hx
  constructor
  · simp
  · rw [List.set_eq_take_append_cons_drop, if_pos hi]

variable {expand : Store α κ → Nat → Store α κ} {k : κ} {value : α} {merger : α → α → α}

theorem grow_spec (he : Splits key expand) (h : Agree key s) {p : Nat} (hp : p < s.lists.length) :
    Agree key (grow expand s p) ∧ (grow expand s p).items = s.items ∧ (grow expand s p).len = s.len + 1 := by
  obtain ⟨h1, h2, h3⟩ := he s p h hp
  exact ⟨⟨h1.keys, h1.maxes⟩, h2, by unfold grow; dsimp only; rw [h3]⟩

/-- The call ends with parts that agree. -/
theorem merge_step (he : Splits key expand) (h : Whole key s) (old : α) (hk : key old = k) (hv : key value = k)
    (hm : ∀ x, key x = k → key (merger x value) = k) :
    ∃ t, merge key expand s old value merger = some t ∧ Whole key t ∧ Step key k value merger s.items t.items := by
  have hs := h.sorted
  suffices H : ∃ t, merge key expand s old value merger = some t ∧ Agree key t ∧ Step key k value merger s.items t.items ∧
      t.len + s.items.length = s.len + t.items.length by
    obtain ⟨t, h1, h2, h3, h4⟩ := H
    exact ⟨t, h1, ⟨h2, h3.sorted hv hm hs, by have := h.len; omega⟩, h3⟩
  unfold merge
  dsimp only
  rw [hk]
  split
  · rename_i hnil
    have hl : s.lists = [] := List.length_eq_zero_iff.1 (by rw [← h.toAgree.length, hnil]; rfl)
    have hkk : s.keys = [] := by rw [h.keys, hl]; rfl
    refine ⟨_, rfl, ⟨?_, ?_⟩, ?_, ?_⟩
    · simp [hl, hkk, hv]
    · simp [hnil, hkk]
    · have : Step key k value merger ([] ++ []) ([] ++ value :: []) := .added [] [] (by simp) (by simp)
      simpa [Store.items, hl] using this
    · simp [Store.items, hl]
  · rename_i hne
    have hpos : 0 < s.maxes.length := List.length_pos_iff.2 hne
    split
    · rename_i hp
      obtain ⟨xs, hx⟩ := h.toAgree.listAt (p := bisectLeft s.maxes k - 1) (by omega)
      obtain ⟨x, hlast, hmax⟩ := h.toAgree.maxAt hx
      have hxk : key x < k := bisectLeft_lt _ (by omega) _ hmax
      have hall : ∀ y ∈ s.items, key y < k := by
        have := h.toAgree.mem_take hs (p := s.maxes.length) (k := k) (fun i hi => bisectLeft_lt i (by omega))
        rwa [h.toAgree.length, List.take_length] at this
      have hlen : bisectLeft s.maxes k - 1 < s.lists.length := (List.getElem?_eq_some_iff.1 hx).1
      have hdrop : s.lists.drop (bisectLeft s.maxes k - 1 + 1) = [] := by
        rw [List.drop_eq_nil_iff, ← h.toAgree.length]; omega
      unfold atEnd
      simp only [h.toAgree.keysAt hx, hx, List.getLast?_map, hlast, Option.map_some, Option.bind_eq_bind, Option.bind_some]
      rw [if_neg (by exact hxk.ne)]
      have hA := h.toAgree.change (p := bisectLeft s.maxes k - 1) (ys := xs ++ [value]) (y := value) (by simp)
      have hset := flatten_set hx (xs ++ [value])
      have hspl := flatten_split hx
      rw [hdrop] at hset hspl
      rw [List.map_append, List.map_cons, List.map_nil, hv] at hA
      obtain ⟨g1, g2, g3⟩ := grow_spec he hA (p := bisectLeft s.maxes k - 1) (by simpa using hlen)
      refine ⟨_, rfl, g1, ?_, ?_⟩
      · rw [g2]
        have : Step key k value merger (s.items ++ []) (s.items ++ value :: []) := .added _ [] hall (by simp)
        simp only [List.append_nil] at this
        convert this using 1
        show (s.lists.set _ _).flatten = s.lists.flatten ++ [value]
        rw [hset, hspl]; simp
      · rw [g2, g3]
        show s.len + 1 + s.lists.flatten.length = s.len + (s.lists.set _ _).flatten.length
        rw [hset, hspl]; simp; omega
    · rename_i hp
      obtain ⟨m, hm1, hkm⟩ := bisectLeft_ge hp
      have hlt : bisectLeft s.maxes k < s.maxes.length := (List.getElem?_eq_some_iff.1 hm1).1
      generalize hpe : bisectLeft s.maxes k = p at *
      obtain ⟨xs, hx⟩ := h.toAgree.listAt hlt
      obtain ⟨last, hlast, hmax⟩ := h.toAgree.maxAt hx
      obtain rfl : m = key last := by rw [hm1] at hmax; simpa using hmax
      have hpl : p < s.lists.length := (List.getElem?_eq_some_iff.1 hx).1
      have hA : ∀ y ∈ (s.lists.take p).flatten, key y < k :=
        h.toAgree.mem_take hs (fun i hi => bisectLeft_lt i (by omega))
      have hspl := flatten_split hx
      have hs' := hs
      unfold Store.items at hs'
      rw [hspl, List.pairwise_append, List.pairwise_append] at hs'
      obtain ⟨⟨_, hsx, _⟩, _, hxB⟩ := hs'
      have hmem : last ∈ xs := List.mem_of_getLast? hlast
      have hB : ∀ y ∈ (s.lists.drop (p + 1)).flatten, key last ≤ key y := fun y hy =>
        hxB last (by simp [hmem]) y hy
      unfold inside
      simp only [h.toAgree.keysAt hx, hx, Option.bind_eq_bind, Option.bind_some]
      have hks : (xs.map key).Pairwise (· ≤ ·) := List.pairwise_map.2 hsx
      have hle := takeWhile_le (l := xs.map key) k
      have hgt := dropWhile_gt hks k
      have hil : bisectRight (xs.map key) k ≤ xs.length := by
        unfold bisectRight
        simpa using (List.takeWhile_prefix (l := xs.map key) (fun z => decide (z ≤ k))).length_le
      generalize bisectRight (xs.map key) k = i at *
      split
      · rename_i hc
        obtain ⟨x, hxi, hxk⟩ : ∃ x, xs[i - 1]? = some x ∧ key x = k := by
          have := hc.2
          rw [List.getElem?_map, Option.map_eq_some_iff] at this
          exact this
        simp only [hxi, Option.bind_some]
        obtain ⟨e1, e2⟩ := set_split hxi (merger x value)
        refine ⟨_, rfl, h.toAgree.keep hx (map_set_same hxi (by rw [hm x hxk, hxk])), ?_, ?_⟩
        · show Step key k value merger s.lists.flatten (s.lists.set _ _).flatten
          have e3 : (s.lists.take p).flatten ++ xs ++ (s.lists.drop (p + 1)).flatten =
              (s.lists.take p).flatten ++ (xs.take (i - 1) ++ x :: xs.drop (i - 1 + 1)) ++ (s.lists.drop (p + 1)).flatten := by
            rw [← e1]
          rw [flatten_set hx, hspl, e2, e3]
          have := Step.merged (key := key) (value := value) (merger := merger) ((s.lists.take p).flatten ++ xs.take (i - 1))
            (xs.drop (i - 1 + 1) ++ (s.lists.drop (p + 1)).flatten) x hxk
          simpa using this
        · show s.len + s.lists.flatten.length = s.len + (s.lists.set _ _).flatten.length
          rw [flatten_set hx, hspl]; simp
      · rename_i hc
        have hlow : ∀ y ∈ xs.take i, key y < k := by
          intro y hy
          refine lt_of_le_of_ne (hle _ (by rw [← List.map_take]; exact List.mem_map_of_mem hy)) fun hyk => hc ?_
          obtain ⟨j, hj⟩ := List.mem_iff_getElem?.1 hy
          rw [List.getElem?_take] at hj
          split at hj
          · rename_i hji
            refine ⟨by omega, ?_⟩
            have hi1 : i - 1 < xs.length := by omega
            rw [List.getElem?_map, List.getElem?_eq_getElem hi1]
            simp only [Option.map_some, Option.some.injEq]
            obtain ⟨hjx, hjy⟩ := List.getElem?_eq_some_iff.1 hj
            refine le_antisymm (hle _ ?_) ?_
            · rw [← List.map_take]
              refine List.mem_map_of_mem (List.mem_iff_getElem?.2 ⟨i - 1, ?_⟩)
              rw [List.getElem?_take, if_pos (by omega), List.getElem?_eq_getElem hi1]
            · rcases Nat.lt_or_ge j (i - 1) with hlt' | hge
              · have := List.pairwise_iff_getElem.1 hsx j (i - 1) hjx hi1 hlt'
                rw [hjy, hyk] at this
                exact this
              · obtain rfl : j = i - 1 := by omega
                rw [hjy, hyk]
          · simp at hj
        have hhigh : ∀ y ∈ xs.drop i, k < key y := fun y hy =>
          hgt _ (by rw [← List.map_drop]; exact List.mem_map_of_mem hy)
        have hlt' : i < xs.length := by
          rcases Nat.lt_or_ge i xs.length with h' | h'
          · exact h'
          · have := hlow last (by rw [List.take_of_length_le h']; exact hmem)
            exact absurd hkm (not_le.2 this)
        have hins : xs.insertIdx i value = xs.take i ++ value :: xs.drop i := insertIdx_split _ hil
        have hnl : (xs.take i ++ value :: xs.drop i).getLast? = some last := by
          have : xs.drop i ≠ [] := by simp; omega
          have h2 : (xs.drop i).getLast? = some last := by
            rw [List.getLast?_drop, if_neg (by omega)]; exact hlast
          rw [List.getLast?_append, List.getLast?_cons, h2]; simp
        have hC := h.toAgree.change (p := p) hnl
        have hmx : s.maxes.set p (key last) = s.maxes := by
          obtain ⟨hp', e⟩ := List.getElem?_eq_some_iff.1 hm1
          rw [← e]; exact List.set_getElem_self ..
        rw [hmx] at hC
        have hkins : (xs.map key).insertIdx i k = (xs.take i ++ value :: xs.drop i).map key := by
          rw [insertIdx_split _ (by simpa using hil)]
          simp [hv]
        rw [hins, hkins]
        obtain ⟨g1, g2, g3⟩ := grow_spec he hC (p := p) (by simpa using hpl)
        refine ⟨_, rfl, g1, ?_, ?_⟩
        · rw [g2]
          show Step key k value merger s.lists.flatten (s.lists.set _ _).flatten
          have e3 : (s.lists.take p).flatten ++ xs ++ (s.lists.drop (p + 1)).flatten =
              ((s.lists.take p).flatten ++ xs.take i) ++ (xs.drop i ++ (s.lists.drop (p + 1)).flatten) := by
            rw [List.append_assoc, List.append_assoc, ← List.append_assoc (xs.take i), List.take_append_drop]
          rw [flatten_set hx, hspl, e3]
          have hlastgt : k < key last := by
            refine hhigh last (List.mem_of_getLast? ?_)
            rw [List.getLast?_drop, if_neg (by omega)]; exact hlast
          have := Step.added (key := key) (value := value) (merger := merger) (k := k) ((s.lists.take p).flatten ++ xs.take i)
            (xs.drop i ++ (s.lists.drop (p + 1)).flatten)
            (fun y hy => (List.mem_append.1 hy).elim (hA y) (hlow y))
            (fun y hy => (List.mem_append.1 hy).elim (hhigh y) fun hy => hlastgt.trans_le (hB y hy))
          simpa using this
        · rw [g2, g3]
          show s.len + 1 + s.lists.flatten.length = s.len + (s.lists.set _ _).flatten.length
          rw [flatten_set hx, hspl]
          have : xs.length = (xs.take i).length + (xs.drop i).length := by
            rw [← List.length_append, List.take_append_drop]
          simp only [List.length_append, List.length_cons]
          omega

end

end Sampo.Sorted
