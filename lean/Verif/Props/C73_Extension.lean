import Verif.Model.Extension
import Mathlib.Data.Finset.Card
import Mathlib.Data.List.Forall2
import Mathlib.Algebra.BigOperators.Group.Finset.Basic
import Mathlib.Data.Nat.Digits.Defs

/-!
# C73: more kinds of workers in a work graph
-/

namespace Sampo.C73

open Extension

/-- The different kinds of workers the works ask for. -/
def kinds (works : List Work) : Finset Str := ((works.flatMap (·.reqs)).map (·.kind)).toFinset

/-- `uniq` lists the elements of a set, in some order. -/
def Lists (uniq : List Str) (s : Finset Str) : Prop := uniq.Nodup ∧ ∀ x, x ∈ uniq ↔ x ∈ s

/-- A random choice takes one of the options. -/
def Fair (choose : Nat → Nat → List Str → Str) : Prop := ∀ i j l, l ≠ [] → choose i j l ∈ l

/-- The requirement is the same but for the kind, which got something appended. -/
def Renamed (r r' : Req) : Prop :=
  (∃ suffix, suffix ≠ [] ∧ r'.kind = r.kind ++ suffix) ∧ r'.volume = r.volume ∧ r'.minCount = r.minCount ∧ r'.maxCount = r.maxCount ∧
    r'.name = r.name

variable {n : Int} {uniq : List Str} {works works' : List Work} {choose : Nat → Nat → List Str → Str}

private theorem length_uniq {s : Finset Str} (h : Lists uniq s) : uniq.length = s.card := by
  rw [← List.toFinset_card_of_nodup h.1]
  congr 1
  ext x
  rw [List.mem_toFinset]
  exact h.2 x

private theorem numbered_split (i : Nat) : ∃ d, numbered i = [' ', '#'] ++ d ∧ (∀ c ∈ d, c.isDigit) :=
  ⟨_, rfl, fun _ hc => Nat.isDigit_of_mem_toDigits (by omega) (by omega) hc⟩

private def IsSuffix (s : Str) : Prop := s = extra ∨ ∃ i, s = numbered i

private theorem append_digits {a b d e : Str} {x y : Char} (hd : ∀ c ∈ d, c.isDigit) (he : ∀ c ∈ e, c.isDigit) (hx : x.isDigit = false)
    (hy : y.isDigit = false) (h : a ++ x :: d = b ++ y :: e) : a = b ∧ x = y ∧ d = e := by
  have h' := congrArg List.reverse h
  simp only [List.reverse_append, List.reverse_cons, List.append_assoc, List.singleton_append] at h'
  have take : ∀ (d : Str) (x : Char) (a : Str), (∀ c ∈ d, c.isDigit) → x.isDigit = false →
      (d.reverse ++ x :: a).takeWhile Char.isDigit = d.reverse ∧ (d.reverse ++ x :: a).dropWhile Char.isDigit = x :: a := by
    intro d x a hd hx
    have hd' : ∀ c ∈ d.reverse, c.isDigit := fun c hc => hd c (List.mem_reverse.1 hc)
    constructor
    · rw [List.takeWhile_append_of_pos hd', List.takeWhile_cons_of_neg (by simp [hx]), List.append_nil]
    · rw [List.dropWhile_append_of_pos hd', List.dropWhile_cons_of_neg (by simp [hx])]
  obtain ⟨t1, t2⟩ := take d x a.reverse hd hx
  obtain ⟨t3, t4⟩ := take e y b.reverse he hy
  rw [h', t3] at t1
  rw [h', t4] at t2
  obtain ⟨h1, h2⟩ := List.cons.inj t2
  exact ⟨(List.reverse_inj.1 h2).symm, h1.symm, (List.reverse_inj.1 t1).symm⟩

private theorem suffix_inj {a b s t : Str} (hs : IsSuffix s) (ht : IsSuffix t) (h : a ++ s = b ++ t) : a = b ∧ s = t := by
  have split : ∀ s, IsSuffix s → ∃ p x d, s = p ++ x :: d ∧ (∀ c ∈ d, c.isDigit) ∧ x.isDigit = false ∧
      (p = [] ∧ x = '_' ∨ p = [' '] ∧ x = '#') := by
    rintro s (rfl | ⟨i, rfl⟩)
    · exact ⟨[], '_', ['0'], rfl, by decide, by decide, Or.inl ⟨rfl, rfl⟩⟩
    · obtain ⟨d, h1, h2⟩ := numbered_split i
      exact ⟨[' '], '#', d, h1, h2, by decide, Or.inr ⟨rfl, rfl⟩⟩
  obtain ⟨p, x, d, rfl, hd, hx, hp⟩ := split s hs
  obtain ⟨q, y, e, rfl, he, hy, hq⟩ := split t ht
  rw [← List.append_assoc, ← List.append_assoc] at h
  obtain ⟨h1, h2, h3⟩ := append_digits hd he hx hy h
  rcases hp with ⟨rfl, rfl⟩ | ⟨rfl, rfl⟩ <;> rcases hq with ⟨rfl, rfl⟩ | ⟨rfl, rfl⟩
  · exact ⟨by simpa using h1, by rw [h3]⟩
  · exact absurd h2 (by decide)
  · exact absurd h2 (by decide)
  · exact ⟨by simpa using h1, by rw [h3]⟩

private theorem suffix_of_mem {m : Nat} {name s : Str} (h : s ∈ suffixes uniq m name) : IsSuffix s := by
  unfold suffixes at h
  rcases List.mem_append.1 h with h | h
  · obtain ⟨i, -, rfl⟩ := List.mem_map.1 h
    exact Or.inr ⟨i, rfl⟩
  · by_cases hc : name ∈ uniq.take (m % uniq.length)
    · rw [if_pos hc] at h
      exact Or.inl (List.mem_singleton.1 h)
    · rw [if_neg hc] at h
      cases h

private theorem suffixes_ne_nil {m : Nat} (hm : uniq.length < m) (h0 : uniq ≠ []) (name : Str) : suffixes uniq m name ≠ [] := by
  have : 0 < m / uniq.length := Nat.div_pos (le_of_lt hm) (List.length_pos_of_ne_nil h0)
  intro h
  have := congrArg List.length h
  unfold suffixes at this
  simp only [List.length_append, List.length_map, List.length_range, List.length_nil] at this
  omega

private theorem changed_eq (h : extendResources n uniq works choose = .changed works') :
    (uniq.length : Int) < n ∧ uniq ≠ [] ∧ works' = works.mapIdx (updateKinds (suffixes uniq n.toNat) choose) := by
  unfold extendResources extendFields at h
  by_cases h1 : n ≤ uniq.length
  · rw [if_pos h1] at h; cases h
  · rw [if_neg h1] at h
    by_cases h2 : uniq.isEmpty
    · rw [if_pos h2] at h; cases h
    · rw [if_neg h2, Result.changed.injEq] at h
      exact ⟨by omega, fun h => h2 (by simp [h]), h.symm⟩

/-- With the wanted number of kinds or more already there, the graph given is returned. -/
theorem already_enough (hu : Lists uniq (kinds works)) : n ≤ (kinds works).card ↔ extendResources n uniq works choose = .same := by
  rw [← length_uniq hu]
  unfold extendResources extendFields
  by_cases h1 : n ≤ uniq.length
  · rw [if_pos h1]; exact ⟨fun _ => rfl, fun _ => h1⟩
  · rw [if_neg h1]
    refine ⟨fun h => absurd h h1, fun h => ?_⟩
    by_cases h2 : uniq.isEmpty
    · rw [if_pos h2] at h; cases h
    · rw [if_neg h2] at h; cases h

/-- Partial: with fewer kinds than wanted, but at least one, the works of the result are those of the graph, and every requirement is the
same but for a longer kind. -/
theorem requirements_kept_partial (hu : Lists uniq (kinds works)) (hsome : (kinds works).Nonempty) (hn : (kinds works).card < n)
    (hfair : Fair choose) : ∃ works', extendResources n uniq works choose = .changed works' ∧
      List.Forall₂ (fun w w' => w'.name = w.name ∧ List.Forall₂ Renamed w.reqs w'.reqs) works works' := by
  rw [← length_uniq hu] at hn
  have h0 : uniq ≠ [] := by
    obtain ⟨x, hx⟩ := hsome
    exact List.ne_nil_of_mem ((hu.2 x).2 hx)
  refine ⟨works.mapIdx (updateKinds (suffixes uniq n.toNat) choose), ?_, ?_⟩
  · unfold extendResources extendFields
    rw [if_neg (by omega), if_neg (by simpa using h0)]
  · rw [List.forall₂_iff_get]
    refine ⟨by simp, fun i h1 h2 => ?_⟩
    simp only [List.get_eq_getElem, List.getElem_mapIdx, updateKinds]
    refine ⟨trivial, ?_⟩
    rw [List.forall₂_iff_get]
    refine ⟨by simp, fun j h3 h4 => ?_⟩
    simp only [List.get_eq_getElem, List.getElem_mapIdx]
    refine ⟨⟨_, ?_, rfl⟩, rfl, rfl, rfl, rfl⟩
    have := suffix_of_mem (hfair i j _ (suffixes_ne_nil (m := n.toNat) (by omega) h0 (works[i].reqs[j]).kind))
    rcases this with h | ⟨k, h⟩ <;> rw [h] <;> simp [extra, numbered]

private theorem mem_kinds {works : List Work} {x : Str} : x ∈ kinds works ↔ ∃ i, ∃ hi : i < works.length, ∃ j,
    ∃ hj : j < works[i].reqs.length, (works[i].reqs[j]).kind = x := by
  unfold kinds
  rw [List.mem_toFinset, List.mem_map]
  constructor
  · rintro ⟨r, hr, rfl⟩
    obtain ⟨w, hw, hr⟩ := List.mem_flatMap.1 hr
    obtain ⟨i, hi, rfl⟩ := List.mem_iff_getElem.1 hw
    obtain ⟨j, hj, rfl⟩ := List.mem_iff_getElem.1 hr
    exact ⟨i, hi, j, hj, rfl⟩
  · rintro ⟨i, hi, j, hj, rfl⟩
    exact ⟨_, List.mem_flatMap.2 ⟨_, List.getElem_mem hi, List.getElem_mem hj⟩, rfl⟩

/-- Requirements of different kinds, in one work or in two, stay of different kinds. -/
theorem different_stay_different (hfair : Fair choose) (h : extendResources n uniq works choose = .changed works') {i j i' j' : Nat}
    {w w1 v v1 : Work} {r r1 q q1 : Req} (hw : works[i]? = some w) (hw1 : works'[i]? = some w1) (hr : w.reqs[j]? = some r)
    (hr1 : w1.reqs[j]? = some r1) (hv : works[i']? = some v) (hv1 : works'[i']? = some v1) (hq : v.reqs[j']? = some q)
    (hq1 : v1.reqs[j']? = some q1) (hne : r.kind ≠ q.kind) : r1.kind ≠ q1.kind := by
  obtain ⟨hn, h0, rfl⟩ := changed_eq h
  have look : ∀ {i j : Nat} {w w1 : Work} {r r1 : Req}, works[i]? = some w →
      (works.mapIdx (updateKinds (suffixes uniq n.toNat) choose))[i]? = some w1 → w.reqs[j]? = some r → w1.reqs[j]? = some r1 →
      ∃ s, IsSuffix s ∧ r1.kind = r.kind ++ s := by
    intro i j w w1 r r1 hw hw1 hr hr1
    rw [List.getElem?_mapIdx, hw, Option.map_some, Option.some.injEq] at hw1
    subst hw1
    unfold updateKinds at hr1
    dsimp only at hr1
    rw [List.getElem?_mapIdx, hr, Option.map_some, Option.some.injEq] at hr1
    subst hr1
    exact ⟨_, suffix_of_mem (hfair i j _ (suffixes_ne_nil (m := n.toNat) (by omega) h0 r.kind)), rfl⟩
  obtain ⟨s, h1, h2⟩ := look hw hw1 hr hr1
  obtain ⟨t, h3, h4⟩ := look hv hv1 hq hq1
  rw [h2, h4]
  exact fun he => hne (suffix_inj h1 h3 he).1

/-- Partial: the result has no fewer kinds than the graph and no more than wanted.  It may have fewer than wanted (`wanted_missed`). -/
theorem number_of_kinds_partial (hu : Lists uniq (kinds works)) (hfair : Fair choose)
    (h : extendResources n uniq works choose = .changed works') :
    (kinds works).card ≤ (kinds works').card ∧ ((kinds works').card : Int) ≤ n := by
  obtain ⟨hn, h0, rfl⟩ := changed_eq h
  have hm : uniq.length < n.toNat := by omega
  have pick : ∀ i j (r : Req), choose i j (suffixes uniq n.toNat r.kind) ∈ suffixes uniq n.toNat r.kind := fun i j r =>
    hfair i j _ (suffixes_ne_nil hm h0 r.kind)
  -- every new kind is an old one with one of its suffixes
  have down : ∀ x ∈ kinds (works.mapIdx (updateKinds (suffixes uniq n.toNat) choose)),
      ∃ k ∈ kinds works, ∃ s ∈ suffixes uniq n.toNat k, x = k ++ s := by
    intro x hx
    obtain ⟨i, hi, j, hj, rfl⟩ := mem_kinds.1 hx
    simp only [List.getElem_mapIdx, updateKinds, List.length_mapIdx] at hi hj ⊢
    exact ⟨_, mem_kinds.2 ⟨i, hi, j, hj, rfl⟩, _, pick i j _, rfl⟩
  constructor
  · have up : ∀ k ∈ kinds works, ∃ s, IsSuffix s ∧ k ++ s ∈ kinds (works.mapIdx (updateKinds (suffixes uniq n.toNat) choose)) := by
      intro k hk
      obtain ⟨i, hi, j, hj, rfl⟩ := mem_kinds.1 hk
      refine ⟨_, suffix_of_mem (pick i j works[i].reqs[j]), mem_kinds.2 ⟨i, by simpa using hi, j, by simpa [updateKinds] using hj, ?_⟩⟩
      simp only [List.getElem_mapIdx, updateKinds]
    choose! f hf using up
    refine Finset.card_le_card_of_injOn (fun k => k ++ f k) (fun k hk => (hf k hk).2) ?_
    intro a ha b hb hab
    exact (suffix_inj (hf a ha).1 (hf b hb).1 hab).1
  · have hsub : kinds (works.mapIdx (updateKinds (suffixes uniq n.toNat) choose)) ⊆
        (uniq.flatMap fun k => (suffixes uniq n.toNat k).map (k ++ ·)).toFinset := by
      intro x hx
      obtain ⟨k, hk, s, hs, rfl⟩ := down x hx
      rw [List.mem_toFinset, List.mem_flatMap]
      exact ⟨k, (hu.2 k).2 hk, List.mem_map.2 ⟨s, hs, rfl⟩⟩
    have hlen : (uniq.flatMap fun k => (suffixes uniq n.toNat k).map (k ++ ·)).length = n.toNat := by
      rw [List.length_flatMap]
      have h1 : (uniq.map fun k => ((suffixes uniq n.toNat k).map (k ++ ·)).length) =
          uniq.map fun k => n.toNat / uniq.length + if k ∈ uniq.take (n.toNat % uniq.length) then 1 else 0 := by
        apply List.map_congr_left
        intro k _
        unfold suffixes
        by_cases hc : k ∈ uniq.take (n.toNat % uniq.length) <;> simp [hc]
      rw [h1, List.sum_map_add, List.map_const', List.sum_replicate, nsmul_eq_mul, Nat.cast_id]
      have h2 : (uniq.map fun k => if k ∈ uniq.take (n.toNat % uniq.length) then 1 else 0).sum = n.toNat % uniq.length := by
        have h3 : ∀ (l : List Str) (m : Nat), l.Nodup → m ≤ l.length →
            (l.map fun k => if k ∈ l.take m then 1 else 0).sum = m := by
          intro l m hl hm
          conv_lhs => rw [← List.take_append_drop m l]
          rw [List.map_append, List.sum_append]
          have a : (l.take m).map (fun k => if k ∈ (l.take m ++ l.drop m).take m then 1 else 0) = (l.take m).map fun _ => 1 := by
            apply List.map_congr_left
            intro k hk
            rw [List.take_append_drop, if_pos hk]
          have b : (l.drop m).map (fun k => if k ∈ (l.take m ++ l.drop m).take m then 1 else 0) = (l.drop m).map fun _ => 0 := by
            apply List.map_congr_left
            intro k hk
            rw [List.take_append_drop, if_neg]
            intro hk'
            have := List.take_append_drop m l ▸ hl
            exact (List.nodup_append.1 this).2.2 k hk' k hk rfl
          rw [a, b]
          simp
          omega
        exact h3 uniq _ hu.1 (le_of_lt (Nat.mod_lt _ (List.length_pos_of_ne_nil h0)))
      rw [h2]
      exact Nat.div_add_mod n.toNat uniq.length
    have := (Finset.card_le_card hsub).trans (List.toFinset_card_le _)
    rw [hlen] at this
    omega

private def one : List Work := [⟨"a".toList, [⟨"driver".toList, 10, 1, 5, []⟩]⟩]

/-- Not proved because false: "afterwards there are as many kinds as wanted".  A single requirement has one kind, whatever is wanted. -/
theorem wanted_missed : Lists ["driver".toList] (kinds one) ∧ ∀ choose, ∃ works', extendResources 5 ["driver".toList] one choose =
    .changed works' ∧ (kinds works').card = 1 := by
  refine ⟨⟨by decide, ?_⟩, fun choose => ⟨_, rfl, rfl⟩⟩
  intro x
  simp [kinds, one]

/-- Not proved because false: "kinds are added to any graph".  Without any requirement the call raises. -/
theorem no_requirements_raises (hn : 1 ≤ n) : extendResources n [] works choose = .divisionByZero := by
  unfold extendResources extendFields
  rw [if_neg (by simp; omega)]
  rfl

/-- Not proved because false: "the number of different names can be raised".  All works are made with one name, which is the name of the
start and of the finish too, so no names are left and the call raises. -/
theorem names_raise {name : Str} (hname : ∀ w ∈ works, w.name = name) {uniqNames : List Str}
    (hu : Lists uniqNames ((works.map (·.name)).toFinset \ {name})) (hn : 1 ≤ n) (chooseName : Nat → List Str → Str) :
    extendNames n uniqNames works chooseName = .divisionByZero := by
  have : uniqNames = [] := by
    rw [List.eq_nil_iff_forall_not_mem]
    intro x hx
    have := (hu.2 x).1 hx
    rw [Finset.mem_sdiff, List.mem_toFinset, List.mem_map, Finset.mem_singleton] at this
    obtain ⟨⟨w, hw, rfl⟩, h⟩ := this
    exact h (hname w hw)
  subst this
  unfold extendNames extendFields
  rw [if_neg (by simp; omega)]
  rfl

/-- So the generator of graphs with a wanted number of names raises for every wanted number but 0. -/
theorem advanced_raises {name : Str} (hname : ∀ w ∈ works, w.name = name) {uniqNames : List Str}
    (hu : Lists uniqNames ((works.map (·.name)).toFinset \ {name})) (hn : 1 ≤ n) (resources : Int) (uniqKinds : List Work → List Str)
    (chooseName : Nat → List Str → Str) (choose : Nat → Nat → List Str → Str) :
    advanced n resources works uniqNames uniqKinds chooseName choose = none := by
  unfold advanced
  rw [names_raise hname hu hn chooseName]

/-- With no names wanted, it gives as many works, with no fewer kinds than generated and no more than wanted. -/
theorem advanced_without_names (hn : n ≤ 0) {resources : Int} {uniqNames : List Str} {uniqKinds : List Work → List Str}
    (hu : Lists (uniqKinds works) (kinds works)) (hsome : (kinds works).Nonempty) {chooseName : Nat → List Str → Str}
    {choose : Nat → Nat → List Str → Str} (hfair : Fair choose) :
    ∃ works', advanced n resources works uniqNames uniqKinds chooseName choose = some works' ∧ works'.length = works.length ∧
      (kinds works).card ≤ (kinds works').card ∧ ((kinds works').card : Int) ≤ max resources (kinds works).card := by
  have h1 : extendNames n uniqNames works chooseName = .same := by
    unfold extendNames extendFields
    rw [if_pos (by omega)]
  unfold advanced
  rw [h1]
  dsimp only
  by_cases h2 : resources ≤ (kinds works).card
  · rw [(already_enough hu).1 h2]
    exact ⟨works, rfl, rfl, le_refl _, by omega⟩
  · obtain ⟨works', h3, h4⟩ := requirements_kept_partial hu hsome (by omega : ((kinds works).card : Int) < resources) hfair
    have h5 := number_of_kinds_partial hu hfair h3
    rw [h3]
    exact ⟨works', rfl, h4.length_eq.symm, h5.1, by omega⟩

/-! A concrete case: two works with three kinds, five wanted. -/

private def two : List Work := [⟨"dummy".toList, [⟨"driver".toList, 10, 1, 5, []⟩, ⟨"fitter".toList, 20, 2, 5, []⟩]⟩,
  ⟨"dummy".toList, [⟨"driver".toList, 7, 1, 5, []⟩, ⟨"manager".toList, 3, 1, 1, []⟩]⟩]
private def twoKinds : List Str := ["manager".toList, "driver".toList, "fitter".toList]

example : Lists twoKinds (kinds two) ∧ (kinds two).card = 3 := by
  refine ⟨⟨by decide, fun x => ?_⟩, rfl⟩
  simp [kinds, two, twoKinds]
  tauto
example : Fair fun _ _ l => l.headD [] := by
  intro i j l hl
  cases l with
  | nil => exact absurd rfl hl
  | cons a l => exact List.mem_cons_self ..
example : (match extendResources 5 twoKinds two fun i _ l => if i = 0 then l.headD [] else l.getLastD [] with
    | .changed works => works.map fun w => w.reqs.map fun r => String.ofList r.kind
    | _ => []) = [["driver #1", "fitter #1"], ["driver_0", "manager_0"]] := by decide +kernel

end Sampo.C73
