import Verif.Spec.Table
import Verif.Lemmas.Toposort
import Mathlib.Data.List.Nodup
import Mathlib.Data.List.Perm.Basic

/-!
# A sorting of rows exists; ids written as numbers
-/

namespace Sampo.Table

private theorem sorted_exists : ∀ (n : Nat) (infos : List (Nat × List (Nat × Int × EdgeType))), infos.length = n → (infos.map (·.1)).Nodup →
    (∀ x, ¬ Relation.TransGen (fun p v => ∃ i ∈ infos, i.1 = v ∧ ∃ l ∈ i.2, l.1 = p) x x) →
    ∃ out : List (Nat × List (Nat × Int × EdgeType)), out.Perm infos ∧
      ∀ before i after, out = before ++ i :: after → ∀ l ∈ i.2, l.1 ∈ infos.map (·.1) → l.1 ∈ before.map (·.1)
  | 0, infos, hn, _, _ => by
    obtain rfl := List.length_eq_zero_iff.mp hn
    exact ⟨[], .nil, by simp⟩
  | n + 1, infos, hn, hnd, hac => by
    have hne : infos ≠ [] := by rintro rfl; simp at hn
    -- a row that precedes no row
    obtain ⟨i, hi, hlast⟩ : ∃ i ∈ infos, ∀ j ∈ infos, ∀ l ∈ j.2, l.1 ≠ i.1 := by
      by_contra hcon
      push Not at hcon
      obtain ⟨x, _, hx⟩ := cycle_of_successors (r := fun p v => ∃ i ∈ infos, i.1 = v ∧ ∃ l ∈ i.2, l.1 = p) (l := infos.map (·.1))
        (by simpa using hne) (by
          intro x hx
          obtain ⟨i, hi, rfl⟩ := List.mem_map.mp hx
          obtain ⟨j, hj, l, hl, he⟩ := hcon i hi
          exact ⟨j.1, List.mem_map_of_mem hj, j, hj, rfl, l, hl, he⟩)
      exact hac x hx
    obtain ⟨a, b, rfl⟩ := List.append_of_mem hi
    have hperm : (a ++ i :: b).Perm ((a ++ b) ++ [i]) := by
      refine List.perm_middle.trans ?_
      exact (List.perm_append_singleton i (a ++ b)).symm
    have hnd' : ((a ++ b).map (·.1)).Nodup := by
      have := (hperm.map (·.1)).nodup_iff.mp hnd
      rw [List.map_append] at this
      exact (List.nodup_append.mp this).1
    obtain ⟨out, h1, h2⟩ := sorted_exists n (a ++ b) (by simp at hn ⊢; omega) hnd' (fun x hx => hac x (Relation.TransGen.mono (by
      rintro p v ⟨j, hj, rfl, l, hl, rfl⟩
      exact ⟨j, hperm.mem_iff.mpr (List.mem_append_left _ hj), rfl, l, hl, rfl⟩) x x hx))
    refine ⟨out ++ [i], (h1.append_right [i]).trans hperm.symm, fun before j after he l hl hm => ?_⟩
    rcases List.eq_nil_or_concat after with rfl | ⟨after', k, rfl⟩
    · obtain ⟨rfl, hij⟩ := List.append_inj' he rfl
      obtain rfl : i = j := by simpa using hij
      rw [(h1.map (·.1)).mem_iff]
      have hm' := (hperm.map (·.1)).mem_iff.mp hm
      rw [List.map_append, List.mem_append] at hm'
      rcases hm' with hm' | hm'
      · exact hm'
      · have : l.1 = i.1 := by simpa using hm'
        exact absurd this (hlast i hi l hl)
    · rw [List.concat_eq_append] at he
      have he' : out ++ [i] = (before ++ j :: after') ++ [k] := by rw [he]; simp
      obtain ⟨rfl, -⟩ := List.append_inj' he' rfl
      refine h2 before j after' rfl l hl ?_
      have hm' := (hperm.map (·.1)).mem_iff.mp hm
      rw [List.map_append, List.mem_append] at hm'
      rcases hm' with hm' | hm'
      · exact hm'
      · have : l.1 = i.1 := by simpa using hm'
        refine absurd this (hlast j ?_ l hl)
        exact hperm.mem_iff.mpr (List.mem_append_left _ (h1.mem_iff.mp (by simp)))

/-- There is a function that sorts. -/
theorem sorts_exist : ∃ sort, Sorts sort := by
  classical
  refine ⟨fun infos => if h : (infos.map (·.1)).Nodup ∧
    ∀ x, ¬ Relation.TransGen (fun p v => ∃ i ∈ infos, i.1 = v ∧ ∃ l ∈ i.2, l.1 = p) x x then
      (sorted_exists infos.length infos rfl h.1 h.2).choose else infos, fun infos h1 h2 => ?_⟩
  dsimp only
  rw [dif_pos ⟨h1, h2⟩]
  exact (sorted_exists infos.length infos rfl h1 h2).choose_spec

theorem value_append (s t : Token) : value (s ++ t) = t.foldl (fun n c => 10 * n + (c.toNat - '0'.toNat)) (value s) := by
  unfold value
  rw [List.foldl_append]

theorem value_toDigits (n : Nat) : value (Nat.toDigits 10 n) = n := by
  induction n using Nat.strongRecOn with
  | _ n ih =>
    by_cases h : n < 10
    · rw [Nat.toDigits_of_lt_base h]
      exact (by decide : ∀ m < 10, value [Nat.digitChar m] = m) n h
    · rw [Nat.toDigits_of_base_le (by omega) (by omega), value_append, ih (n / 10) (by omega)]
      have hm : n % 10 < 10 := Nat.mod_lt _ (by omega)
      have hd : ∀ m < 10, (Nat.digitChar m).toNat - '0'.toNat = m := by decide
      simp only [List.foldl_cons, List.foldl_nil, hd _ hm]
      omega

theorem toDigits_digits (n : Nat) : ∀ c ∈ Nat.toDigits 10 n, c.isDigit = true := by
  induction n using Nat.strongRecOn with
  | _ n ih =>
    by_cases h : n < 10
    · rw [Nat.toDigits_of_lt_base h]
      exact (by decide : ∀ m < 10, ∀ c ∈ [Nat.digitChar m], c.isDigit = true) n h
    · rw [Nat.toDigits_of_base_le (by omega) (by omega)]
      have hm : n % 10 < 10 := Nat.mod_lt _ (by omega)
      have hd : ∀ m < 10, (Nat.digitChar m).isDigit = true := by decide
      intro c hc
      rcases List.mem_append.mp hc with hc | hc
      · exact ih _ (by omega) c hc
      · obtain rfl := List.mem_singleton.mp hc
        exact hd _ hm

theorem dot_notMem_toDigits (n : Nat) : '.' ∉ Nat.toDigits 10 n := fun h => absurd (toDigits_digits n _ h) (by decide)

/-- A number in decimal digits, possibly with a point and further digits, means the number. -/
theorem normalize_number (n : Nat) {s : Token} (hs : s = Nat.toDigits 10 n ∨ ∃ z : Token, s = Nat.toDigits 10 n ++ '.' :: z ∧ ∀ c ∈ z, c.isDigit = true) :
    normalize s = Nat.toDigits 10 n := by
  have hne : Nat.toDigits 10 n ≠ [] := Nat.toDigits_ne_nil
  have htake : ∀ c ∈ Nat.toDigits 10 n, (decide (c ≠ '.')) = true := by
    intro c hc
    have : c ≠ '.' := fun he => dot_notMem_toDigits n (he ▸ hc)
    simpa using this
  rcases hs with rfl | ⟨z, rfl, hz⟩
  · unfold normalize
    have ht := List.takeWhile_append_of_pos (l₂ := []) htake
    rw [List.append_nil, List.takeWhile_nil, List.append_nil] at ht
    rw [if_pos, ht, value_toDigits]
    unfold isNumber
    rw [List.erase_of_not_mem (dot_notMem_toDigits n), Bool.and_eq_true, List.all_eq_true]
    refine ⟨?_, toDigits_digits n⟩
    cases h : Nat.toDigits 10 n with
    | nil => exact absurd h hne
    | cons => rfl
  · unfold normalize
    rw [if_pos, List.takeWhile_append_of_pos htake]
    · have : List.takeWhile (fun x => decide (x ≠ '.')) ('.' :: z) = [] := by simp
      rw [this, List.append_nil, value_toDigits]
    · unfold isNumber
      rw [List.erase_append_right _ (dot_notMem_toDigits n), List.erase_cons_head, Bool.and_eq_true, List.all_eq_true]
      refine ⟨?_, fun c hc => ?_⟩
      · cases h : Nat.toDigits 10 n with
        | nil => exact absurd h hne
        | cons => rfl
      · rcases List.mem_append.mp hc with hc | hc
        · exact toDigits_digits n c hc
        · exact hz c hc

/-- A text with something else than digits and one point means itself. -/
theorem normalize_word {s : Token} (h : ∃ c ∈ s, c.isDigit = false ∧ c ≠ '.') : normalize s = s := by
  obtain ⟨c, hc, hd, hn⟩ := h
  unfold normalize
  rw [if_neg]
  intro hi
  unfold isNumber at hi
  rw [Bool.and_eq_true, List.all_eq_true] at hi
  have := hi.2 c ((List.mem_erase_of_ne hn).mpr hc)
  rw [hd] at this
  exact absurd this (by decide)

/-! ### For examples -/

/-- A numbering of texts. -/
def number : Token → Nat
  | [] => 0
  | c :: s => 0x110000 * number s + c.toNat + 1

private theorem toNat_lt (c : Char) : c.toNat < 0x110000 := by
  have := c.valid
  unfold Char.toNat
  rcases this with h | ⟨_, h⟩
  · have : c.val.toNat < 0xd800 := h
    omega
  · exact h

theorem number_injective : Function.Injective number := by
  intro s
  induction s with
  | nil =>
    intro t h
    cases t with
    | nil => rfl
    | cons d t => simp [number] at h
  | cons c s ih =>
    intro t h
    cases t with
    | nil => simp [number] at h
    | cons d t =>
      simp only [number] at h
      have h1 := toNat_lt c
      have h2 := toNat_lt d
      have h3 : c.toNat = d.toNat := by omega
      have h4 : number s = number t := by omega
      rw [ih h4, Char.toNat_inj.mp h3]

/-- Lags in the examples: one decimal digit. -/
def readDigit : Token → Option Int
  | [c] => if c.isDigit then some (c.toNat - '0'.toNat) else none
  | _ => none

end Sampo.Table
