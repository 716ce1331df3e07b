import Verif.Model.TableFields
import Mathlib.Data.List.Forall2
import Mathlib.Tactic.Linarith

/-!
# C122: volumes, statuses, descriptions, groups and priorities in tables of works
-/

namespace Sampo.C122
open TableFields

variable {float : String → Option Number} {eval : String → Option Cell} {c : Columns} {rows : List Row}

/-- The cell holds this volume: the number itself, or a text that is a number once commas are points. -/
inductive HoldsVolume (float : String → Option Number) : Cell → Number → Prop
  | number (q : ℚ) : HoldsVolume float (.number q) (.value q)
  | empty : HoldsVolume float .nan .nan
  | text (s t : String) (x : Number) (same : List.Forall₂ (fun a b => a ≠ ',' ∧ b = a ∨ a = ',' ∧ b = '.') s.toList t.toList)
      (number : float t = some x) : HoldsVolume float (.text s) x

/-- The work `w` shows what is given in the row: its volume, and of each other column what it holds, or the default if there is no such
column. -/
structure Shows (float : String → Option Number) (eval : String → Option Cell) (c : Columns) (r : Row) (w : String × Fields) : Prop where
  id : w.1 = r.id
  volume : HoldsVolume float r.volume w.2.volume
  statuses : c.statuses = true → ∃ s, r.statuses = .text s ∧ eval s = some (.statuses w.2.zoneReqs)
  noStatuses : c.statuses = false → w.2.zoneReqs = []
  description : (c.description = true → w.2.description = r.description) ∧ (c.description = false → w.2.description = .text "")
  group : (c.group = true → w.2.group = r.group) ∧ (c.group = false → w.2.group = .text "main project")
  priority : (c.priority = true → w.2.priority = r.priority) ∧ (c.priority = false → w.2.priority = .number 1)

private theorem comma (s t : List Char) : List.Forall₂ (fun a b => a ≠ ',' ∧ b = a ∨ a = ',' ∧ b = '.') s t ↔
    t = s.map fun a => if a = ',' then '.' else a := by
  induction s generalizing t with
  | nil => simp
  | cons a s ih =>
    rw [List.forall₂_cons_left_iff, List.map_cons]
    constructor
    · rintro ⟨b, u, h | h, h1, rfl⟩
      · rw [if_neg h.1, h.2, (ih u).1 h1]
      · rw [if_pos h.1, h.2, (ih u).1 h1]
    · rintro rfl
      refine ⟨_, _, ?_, (ih _).2 rfl, rfl⟩
      by_cases h : a = ','
      · exact .inr ⟨h, if_pos h⟩
      · exact .inl ⟨h, if_neg h⟩

private theorem volume (x : Cell) (n : Number) : readVolume float x = some n ↔ HoldsVolume float x n := by
  constructor
  · intro h
    cases x with
    | text s => exact .text s _ n ((comma _ _).2 (by rw [String.toList_ofList])) h
    | number q => cases h; exact .number q
    | nan => cases h; exact .empty
    | statuses d => cases h
  · rintro (q | _ | ⟨s, t, _, h1, h2⟩)
    · rfl
    · rfl
    · rw [comma] at h1
      show float _ = _
      rw [← h1, String.ofList_toList]
      exact h2

private theorem shown (r : Row) (w : String × Fields) :
    ((fields float eval c r).map fun f => (r.id, f)) = some w ↔ Shows float eval c r w := by
  constructor
  · intro h
    obtain ⟨f, hf, rfl⟩ := Option.map_eq_some_iff.1 h
    unfold fields at hf
    split at hf
    · rename_i v z hv hz
      cases hf
      refine ⟨rfl, (volume _ _).1 hv, fun h1 => ?_, fun h1 => ?_, ⟨fun h1 => if_pos h1, fun h1 => if_neg (by simp [h1])⟩,
        ⟨fun h1 => if_pos h1, fun h1 => if_neg (by simp [h1])⟩, ⟨fun h1 => if_pos h1, fun h1 => if_neg (by simp [h1])⟩⟩
      · unfold readStatuses at hz
        rw [if_pos h1] at hz
        split at hz
        · rename_i s hs
          split at hz
          · rename_i d hd
            cases hz
            exact ⟨s, hs, hd⟩
          · cases hz
        · cases hz
      · unfold readStatuses at hz
        rw [if_neg (by simp [h1])] at hz
        cases hz
        rfl
    · cases hf
  · intro h
    obtain ⟨i, v, z, d, g, p⟩ := w
    obtain ⟨h1, h2, h3, h4, h5, h6, h7⟩ := h
    dsimp only at h1 h2 h3 h4 h5 h6 h7
    have hz : readStatuses eval c r.statuses = some z := by
      unfold readStatuses
      cases hc : c.statuses with
      | true =>
        obtain ⟨s, hs, he⟩ := h3 hc
        rw [if_pos rfl, hs]
        dsimp only
        rw [he]
      | false => rw [if_neg (by simp), h4 hc]
    unfold fields
    rw [(volume _ _).2 h2, hz]
    have e1 : (if c.description then r.description else Cell.text "") = d := by
      cases hc : c.description
      · exact (h5.2 hc).symm
      · exact (h5.1 hc).symm
    have e2 : (if c.group then r.group else Cell.text "main project") = g := by
      cases hc : c.group
      · exact (h6.2 hc).symm
      · exact (h6.1 hc).symm
    have e3 : (if c.priority then r.priority else Cell.number 1) = p := by
      cases hc : c.priority
      · exact (h7.2 hc).symm
      · exact (h7.1 hc).symm
    dsimp only
    rw [e1, e2, e3, h1]
    rfl

/-- Whenever a table is read without an error, there is a work for every row, in order, and it shows what is given there; and a table is read
whenever there are such works: volumes that are numbers, with points or commas, and statuses that are the text of a dictionary.
Missing: the documentation has dictionaries in the column of statuses, and optional columns may be empty, see below. -/
theorem works_partial (ws : List (String × Fields)) : works float eval c rows = some ws ↔ List.Forall₂ (Shows float eval c) rows ws := by
  unfold works
  induction rows generalizing ws with
  | nil => simp [eq_comm]
  | cons r rows ih =>
    rw [List.mapM_cons, List.forall₂_cons_left_iff]
    constructor
    · intro h
      obtain ⟨w, hw, h1⟩ := Option.bind_eq_some_iff.1 h
      obtain ⟨us, hu, h2⟩ := Option.bind_eq_some_iff.1 h1
      cases h2
      exact ⟨w, us, (shown r w).1 hw, (ih us).1 hu, rfl⟩
    · rintro ⟨w, us, hw, hu, rfl⟩
      rw [(shown r w).2 hw, (ih us).2 hu]
      rfl

/-- Not proved because false: a table with statuses given as the documentation has them, dictionaries, is read.  A single row with a dictionary,
or with an empty cell, makes reading the whole table fail. -/
theorem documented_statuses_raise (hc : c.statuses = true) {r : Row} (hr : r ∈ rows) (hd : ∀ s, r.statuses ≠ .text s) :
    works float eval c rows = none := by
  cases h : works float eval c rows with
  | none => rfl
  | some ws =>
    have hf := (works_partial ws).1 h
    obtain ⟨hl, hg⟩ := List.forall₂_iff_get.1 hf
    obtain ⟨i, he⟩ := List.mem_iff_get.1 hr
    have hw := hg i.1 i.2 (hl ▸ i.2)
    rw [show rows.get ⟨i.1, i.2⟩ = r from he] at hw
    obtain ⟨s, hs, -⟩ := hw.statuses hc
    exact absurd hs (hd s)

/-- Reading back the rows that `to_frame` puts together (if it got to the end, see C67) keeps volumes and priorities, and nothing else of these fields: no work requires a zone
status any more, and descriptions and groups are the default ones. -/
theorem read_back (l : List (String × ℚ × ℚ)) : works float eval savedColumns (l.map fun w => saved w.1 w.2.1 w.2.2) =
    some (l.map fun w => (w.1, ⟨.value w.2.1, [], .text "", .text "main project", .number w.2.2⟩)) := by
  rw [works_partial]
  induction l with
  | nil => exact .nil
  | cons w l ih =>
    exact .cons ⟨rfl, .number _, fun h => absurd h (by decide), fun _ => rfl, ⟨fun h => absurd h (by decide), fun _ => rfl⟩,
      ⟨fun h => absurd h (by decide), fun _ => rfl⟩, fun _ => rfl, fun h => absurd h (by decide)⟩ ih

/-! ### A table with two rows -/

private def read : String → Option Number := fun s => if s = "2.5" then some (.value (5 / 2)) else none
private def evaluate : String → Option Cell := fun s =>
  if s = "{'z': 1}" then some (.statuses [("z", 1)]) else if s = "{}" then some (.statuses []) else none
private def table : List Row :=
  [⟨"a", .text "2,5", .text "{'z': 1}", .text "d", .nan, .number 3⟩, ⟨"b", .number 4, .text "{}", .text "e", .nan, .number 1⟩]

example : works read evaluate ⟨true, true, false, true⟩ table = some
    [("a", ⟨.value (5 / 2), [("z", 1)], .text "d", .text "main project", .number 3⟩),
      ("b", ⟨.value 4, [], .text "e", .text "main project", .number 1⟩)] := by
  decide +kernel

example : List.Forall₂ (Shows read evaluate ⟨true, true, false, true⟩) table
    [("a", ⟨.value (5 / 2), [("z", 1)], .text "d", .text "main project", .number 3⟩),
      ("b", ⟨.value 4, [], .text "e", .text "main project", .number 1⟩)] :=
  (works_partial _).1 (by decide +kernel)

example : works read evaluate ⟨true, true, false, true⟩ [⟨"a", .number 2, .statuses [("z", 1)], .text "d", .nan, .number 3⟩] = none :=
  documented_statuses_raise rfl (List.mem_singleton_self _) (by simp)

end Sampo.C122
