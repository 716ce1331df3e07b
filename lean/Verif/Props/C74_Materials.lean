import Verif.Model.Materials
import Mathlib.Data.List.Forall2
import Mathlib.Data.List.Dedup
import Mathlib.Data.List.Perm.Subperm

/-!
# C74: materials of synthetic works
-/

namespace Sampo.C74

open Materials

/-- What Python's random module promises: a number between the borders if there is one, as many names of the list as asked for, counts from
52 to 345; and a list of a set has every element once. -/
structure Possible (d : Draw) (asList : List String → List String) : Prop where
  number : ∀ i bottom top, bottom ≤ top → bottom ≤ d.number i bottom top ∧ d.number i bottom top ≤ top
  names : ∀ i l k, (k ≤ 0 ∨ l ≠ []) → (d.names i l k).length = k.toNat ∧ ∀ x ∈ d.names i l k, x ∈ l
  count : ∀ i j, 52 ≤ d.count i j ∧ d.count i j ≤ 345
  asList : ∀ l, (asList l).Nodup ∧ ∀ x, x ∈ asList l ↔ x ∈ l

/-- Materials of a work that are allowed by a list of names and a greatest number. -/
structure Allowed (l : List String) (top : Int) (materials : List (String × Int)) : Prop where
  once : (materials.map (·.1)).Nodup
  known : ∀ m ∈ materials, m.1 ∈ l
  counts : ∀ m ∈ materials, 52 ≤ m.2 ∧ m.2 ≤ 345
  atMost : (materials.length : Int) ≤ max top 0

variable {d : Draw} {asList : List String → List String} {works : List Work}

private theorem map_fst_mapIdx (l : List String) (f : Nat → Int) : (l.mapIdx fun j name => (name, f j)).map (·.1) = l := by
  apply List.ext_getElem?
  intro i
  simp [List.getElem?_mapIdx, List.getElem?_map]
  cases l[i]? <;> rfl

private theorem new_allowed (hp : Possible d asList) {l : List String} {bottom top : Int} (hb : bottom ≤ top) (ht : top ≤ l.length) (i : Nat) :
    Allowed l top (newMaterials d asList l bottom top i) ∧ (1 ≤ bottom → newMaterials d asList l bottom top i ≠ []) := by
  have hnum := hp.number i bottom top hb
  have hn := hp.names i l (d.number i bottom top) (by
    by_cases h : l = []
    · subst h; left; simp at ht; omega
    · exact Or.inr h)
  have ha := hp.asList (d.names i l (d.number i bottom top))
  unfold newMaterials
  refine ⟨⟨?_, ?_, ?_, ?_⟩, fun h1 h2 => ?_⟩
  · rw [map_fst_mapIdx]
    exact ha.1
  · intro m hm
    have : m.1 ∈ asList (d.names i l (d.number i bottom top)) := by
      rw [← map_fst_mapIdx (asList (d.names i l (d.number i bottom top))) (d.count i)]
      exact List.mem_map.2 ⟨m, hm, rfl⟩
    exact hn.2 _ ((ha.2 _).1 this)
  · intro m hm
    obtain ⟨j, hj, rfl⟩ := List.mem_mapIdx.1 hm
    exact hp.count i j
  · rw [List.length_mapIdx]
    have h1 := (List.subperm_of_subset ha.1 fun x hx => (ha.2 x).1 hx).length_le
    omega
  · have h3 : asList (d.names i l (d.number i bottom top)) = [] := by
      have := congrArg List.length h2
      rw [List.length_mapIdx] at this
      exact List.length_eq_zero_iff.1 this
    have h4 : d.names i l (d.number i bottom top) = [] := by
      rw [List.eq_nil_iff_forall_not_mem]
      intro x hx
      have := (ha.2 x).2 hx
      rw [h3] at this
      cases this
    have h5 := congrArg List.length h4
    rw [hn.1, List.length_nil] at h5
    omega

/-- Service works are left alone, all others get the given kind of materials. -/
def Result (P : List (String × Int) → Prop) (w w' : Work) : Prop :=
  w'.service = w.service ∧ if w.service then w' = w else P w'.materials

private theorem result_of {P : List (String × Int) → Prop} {f : Nat → List (String × Int)} (h : ∀ i, P (f i)) :
    List.Forall₂ (Result P) works (works.mapIdx fun i w => if !w.service then { w with materials := f i } else w) := by
  rw [List.forall₂_iff_get]
  refine ⟨by simp, fun i h1 h2 => ?_⟩
  simp only [List.get_eq_getElem, List.getElem_mapIdx]
  unfold Result
  cases hs : works[i].service with
  | true => exact ⟨by simp [hs], by simp⟩
  | false => exact ⟨by simp, by simpa using h i⟩

/-- Partial: with given names and borders in order and not above the number of names, every work but service ones gets different materials
of the list, at most as many as the top border says, with counts from 52 to 345; and at least one if the bottom border is positive.
There may be fewer than the bottom border (`bottom_missed`). -/
theorem given_names_partial (hp : Possible d asList) {l : List String} {bottom top : Int} (hb : bottom ≤ top) (ht : top ≤ l.length) :
    ∃ works', setMaterials d asList (some l) (some bottom) (some top) works = some works' ∧
      List.Forall₂ (Result fun m => Allowed l top m ∧ (1 ≤ bottom → m ≠ [])) works works' := by
  refine ⟨_, ?_, result_of (f := newMaterials d asList l bottom top) fun i => new_allowed hp hb ht i⟩
  unfold setMaterials settings
  simp only [Option.getD_some]
  rw [if_neg (by omega), if_neg (by omega)]

/-- With given names and no borders, there are at most as many materials as names; at least one if there are two names or more. -/
theorem given_names_only (hp : Possible d asList) {l : List String} :
    ∃ works', setMaterials d asList (some l) none none works = some works' ∧
      List.Forall₂ (Result fun m => Allowed l l.length m ∧ (2 ≤ l.length → m ≠ [])) works works' := by
  have hb : ((l.length / 2 : Nat) : Int) ≤ l.length := by omega
  refine ⟨_, ?_, result_of (f := newMaterials d asList l ((l.length / 2 : Nat) : Int) l.length) fun i =>
    ⟨(new_allowed hp hb (Int.le_refl _) i).1, fun h => (new_allowed hp hb (Int.le_refl _) i).2 (by omega)⟩⟩
  unfold setMaterials settings
  simp only [Option.getD_none]
  rw [if_neg (by omega), if_neg (by omega)]

/-- Without names, materials are of six kinds, from one to six of them. -/
theorem default_names (hp : Possible d asList) (bottom top : Option Int) :
    ∃ works', setMaterials d asList none bottom top works = some works' ∧
      List.Forall₂ (Result fun m => Allowed ["stone", "brick", "sand", "rubble", "concrete", "metal"] 6 m ∧ m ≠ []) works works' := by
  have hb : (2 : Int) ≤ 6 := by omega
  have ht : (6 : Int) ≤ defaultNames.length := by decide
  refine ⟨_, ?_, result_of (f := newMaterials d asList defaultNames 2 6) fun i =>
    ⟨(new_allowed hp hb ht i).1, (new_allowed hp hb ht i).2 (by omega)⟩⟩
  unfold setMaterials settings
  dsimp only
  rw [if_neg (by decide), if_neg (by omega)]

/-- The call fails exactly if a border is above the number of names, or the borders are in the wrong order and there is a work to change. -/
theorem raises_iff {l : List String} {bottom top : Int} : setMaterials d asList (some l) (some bottom) (some top) works = none ↔
    (l.length : Int) < bottom ∨ (l.length : Int) < top ∨ top < bottom ∧ ∃ w ∈ works, w.service = false := by
  unfold setMaterials settings
  simp only [Option.getD_some]
  have hany : (works.any fun w => !w.service) = true ↔ ∃ w ∈ works, w.service = false := by simp [List.any_eq_true]
  by_cases h1 : bottom > l.length ∨ top > l.length
  · rw [if_pos h1]
    exact ⟨fun _ => by tauto, fun _ => rfl⟩
  · rw [if_neg h1]
    by_cases h2 : bottom > top ∧ works.any fun w => !w.service
    · rw [if_pos h2]
      exact ⟨fun _ => Or.inr (Or.inr ⟨h2.1, hany.1 h2.2⟩), fun _ => rfl⟩
    · rw [if_neg h2]
      refine ⟨nofun, fun h => ?_⟩
      rcases h with h | h | h
      · exact absurd (Or.inl h) h1
      · exact absurd (Or.inr h) h1
      · exact absurd ⟨h.1, hany.2 h.2⟩ h2

private def sameName : Draw := ⟨fun _ bottom _ => bottom, fun _ l k => List.replicate k.toNat (l.headD ""), fun _ _ => 100⟩

private theorem sameName_possible : Possible sameName List.dedup where
  number := fun _ _ _ h => ⟨Int.le_refl _, h⟩
  names := by
    intro i l k h
    refine ⟨by simp [sameName], fun x hx => ?_⟩
    unfold sameName at hx
    obtain ⟨h1, rfl⟩ := List.mem_replicate.1 hx
    cases l with
    | nil =>
      rcases h with h | h
      · exact absurd (Int.toNat_eq_zero.2 h) h1
      · exact absurd rfl h
    | cons a l => exact List.mem_cons_self ..
  count := fun _ _ => ⟨by simp [sameName], by simp [sameName]⟩
  asList := fun l => ⟨List.nodup_dedup l, fun _ => List.mem_dedup⟩

/-- Not proved because false: "every work gets at least as many materials as the bottom border says".  Names are drawn with repetition and
then made different. -/
theorem bottom_missed : ∃ d asList, Possible d asList ∧ ∃ works works', setMaterials d asList (some ["a", "b", "c"]) (some 3) (some 3) works =
    some works' ∧ ∃ w ∈ works', w.service = false ∧ w.materials.length = 1 :=
  ⟨sameName, List.dedup, sameName_possible, [⟨false, []⟩], [⟨false, [("a", 100)]⟩], by decide +kernel, ⟨false, [("a", 100)]⟩, by simp⟩

/-- Not proved because false: "given borders are in force".  Without names they are ignored, even if no work may get any material. -/
theorem borders_ignored : ∃ d asList, Possible d asList ∧ ∃ works works', setMaterials d asList none (some 0) (some 0) works =
    some works' ∧ ∃ w ∈ works', w.materials ≠ [] :=
  ⟨sameName, List.dedup, sameName_possible, [⟨false, []⟩], [⟨false, [("stone", 100)]⟩], by decide +kernel, ⟨false, [("stone", 100)]⟩,
    by simp⟩

-- works of both kinds
example : setMaterials ⟨fun _ _ top => top, fun i l k => if i = 1 then l.take k.toNat else l.drop 1, fun i j => 60 + 10 * i + j⟩ List.dedup
    (some ["a", "b", "c"]) (some 1) (some 2) [⟨true, [("x", 3)]⟩, ⟨false, [("x", 3)]⟩, ⟨false, []⟩] =
    some [⟨true, [("x", 3)]⟩, ⟨false, [("a", 70), ("b", 71)]⟩, ⟨false, [("b", 80), ("c", 81)]⟩] := by decide +kernel

end Sampo.C74
