import Verif.Model.TableReqs
import Mathlib.Data.List.Perm.Basic
import Mathlib.Data.List.Forall2

/-!
# C121: requirements in tables of works
-/

namespace Sampo.C121
open TableReqs

variable {literal : String → Option Cell} {arrange : List String → List String} {vocabulary : String → List String}
  {estimated : String → List Req} {rows : List Row}

/-- The cells of a row give `mn` as least and `mx` as greatest counts and `vol` as volumes, and there is a volume wherever it is needed. -/
structure Gives (literal : String → Option Cell) (row : Row) (mn mx vol : String → Option ℚ) : Prop where
  least : row.minReq = .dict mn ∨ ∃ s, row.minReq = .text s ∧ literal s = some (.dict mn)
  greatest : row.maxReq = .dict mx ∨ ∃ s, row.maxReq = .text s ∧ literal s = some (.dict mx)
  volumes : row.reqVolume = .dict vol
  enough : ∀ k a b, mn k = some a → mx k = some b → 0 < a → a ≤ b → ∃ v, vol k = some v

private theorem mapM_forall {α β : Type} {f : α → Option β} {P : α → β → Prop} : ∀ {l : List α},
    (∀ x ∈ l, ∃ y, f x = some y ∧ P x y) → ∃ ys, l.mapM f = some ys ∧ List.Forall₂ P l ys
  | [], _ => ⟨[], rfl, .nil⟩
  | x :: l, h => by
    obtain ⟨y, h1, h2⟩ := h x List.mem_cons_self
    obtain ⟨ys, h3, h4⟩ := mapM_forall fun z hz => h z (List.mem_cons_of_mem _ hz)
    exact ⟨y :: ys, by rw [List.mapM_cons, h1, h3]; rfl, .cons h2 h4⟩

private theorem mapM_none {α β : Type} {f : α → Option β} : ∀ {l : List α} {x : α}, x ∈ l → f x = none → l.mapM f = none
  | y :: l, x, hx, h => by
    rw [List.mapM_cons]
    rcases List.mem_cons.1 hx with rfl | hx
    · rw [h]; rfl
    · rw [mapM_none hx h]
      cases f y <;> rfl

private theorem mapM_congr {α β : Type} {f f' : α → Option β} : ∀ {l : List α}, (∀ x ∈ l, f x = f' x) → l.mapM f = l.mapM f'
  | [], _ => rfl
  | x :: l, h => by
    rw [List.mapM_cons, List.mapM_cons, h x List.mem_cons_self, mapM_congr fun z hz => h z (List.mem_cons_of_mem _ hz)]

private theorem mapM_some {α β : Type} (f : α → β) : ∀ l : List α, l.mapM (fun x => some (f x)) = some (l.map f)
  | [] => rfl
  | x :: l => by rw [List.mapM_cons, mapM_some f l]; rfl

private def chosen (mn mx vol : String → Option ℚ) (k : String) : Option Req :=
  match mn k, mx k, vol k with
  | some a, some b, some v => if 0 < a ∧ a ≤ b then some ⟨k, mkTime (v.num.tdiv v.den), a, b⟩ else none
  | _, _, _ => none

private theorem reqFor_eq {row : Row} {mn mx vol : String → Option ℚ} (h1 : row.minReq = .dict mn) (h2 : row.maxReq = .dict mx)
    (h3 : row.reqVolume = .dict vol) (h4 : ∀ k a b, mn k = some a → mx k = some b → 0 < a → a ≤ b → ∃ v, vol k = some v) (k : String) :
    reqFor row k = some (chosen mn mx vol k) := by
  simp only [reqFor, h1, h2, h3, look, chosen]
  cases ha : mn k with
  | none => rfl
  | some a =>
    cases hb : mx k with
    | none => rfl
    | some b =>
      by_cases h : 0 < a ∧ a ≤ b
      · obtain ⟨v, hv⟩ := h4 k a b ha hb h.1 h.2
        simp only [hv, if_pos h]
      · cases hv : vol k <;> simp only [if_neg h]

private theorem mem_chosen {names : List String} {mn mx vol : String → Option ℚ} {r : Req} :
    r ∈ names.filterMap (chosen mn mx vol) ↔ r.kind ∈ names ∧ mn r.kind = some r.minCount ∧ mx r.kind = some r.maxCount ∧
      0 < r.minCount ∧ r.minCount ≤ r.maxCount ∧ ∃ v : ℚ, vol r.kind = some v ∧ r.volume = mkTime (v.num.tdiv v.den) := by
  rw [List.mem_filterMap]
  constructor
  · rintro ⟨k, hk, h⟩
    unfold chosen at h
    cases ha : mn k with
    | none => rw [ha] at h; cases h
    | some a =>
      cases hb : mx k with
      | none => rw [ha, hb] at h; cases h
      | some b =>
        cases hv : vol k with
        | none => rw [ha, hb, hv] at h; cases h
        | some v =>
          rw [ha, hb, hv] at h
          dsimp only at h
          split at h
          · rename_i hab
            cases h
            exact ⟨hk, ha, hb, hab.1, hab.2, v, hv, rfl⟩
          · cases h
  · rintro ⟨hk, ha, hb, h1, h2, v, hv, hr⟩
    refine ⟨r.kind, hk, ?_⟩
    unfold chosen
    rw [ha, hb, hv]
    dsimp only
    rw [if_pos ⟨h1, h2⟩, ← hr]

private theorem nodup_chosen {mn mx vol : String → Option ℚ} : ∀ {names : List String}, names.Nodup →
    ((names.filterMap (chosen mn mx vol)).map (·.kind)).Nodup
  | [], _ => .nil
  | k :: names, h => by
    obtain ⟨hk, h⟩ := List.nodup_cons.1 h
    rw [List.filterMap_cons]
    cases hc : chosen mn mx vol k with
    | none => exact nodup_chosen h
    | some r =>
      have hr : r.kind = k := by
        unfold chosen at hc
        split at hc
        · split at hc
          · cases hc; rfl
          · cases hc
        · cases hc
      refine List.nodup_cons.2 ⟨fun hm => ?_, nodup_chosen h⟩
      obtain ⟨r', hr', he⟩ := List.mem_map.1 hm
      have he : r'.kind = k := he.trans hr
      exact hk (he ▸ (mem_chosen.1 hr').1)

private theorem table_eq (h : ∀ row ∈ rows, ∃ mn mx vol, Gives literal row mn mx vol) :
    ∃ res, tableReqs literal ⟨true, true, true⟩ arrange vocabulary estimated rows = some res ∧
      List.Forall₂ (fun row w => ∃ mn mx vol, Gives literal row mn mx vol ∧
        w = ((arrange (rows.flatMap fun r => vocabulary r.id).dedup).filterMap (chosen mn mx vol),
          ((arrange (rows.flatMap fun r => vocabulary r.id).dedup).filterMap (chosen mn mx vol)).isEmpty)) rows res := by
  unfold tableReqs
  generalize arrange (rows.flatMap fun r => vocabulary r.id).dedup = names
  have key : ∀ row ∈ rows, ∃ w, ((preprocess literal ⟨true, true, true⟩ row).bind
      fun r => workReqs ⟨true, true, true⟩ names (estimated r.id) r) = some w ∧
      ∃ mn mx vol, Gives literal row mn mx vol ∧
        w = (names.filterMap (chosen mn mx vol), (names.filterMap (chosen mn mx vol)).isEmpty) := by
    intro row hrow
    obtain ⟨mn, mx, vol, hg⟩ := h row hrow
    refine ⟨_, ?_, mn, mx, vol, hg, rfl⟩
    have h1 : readCell literal row.minReq = some (.dict mn) := by
      rcases hg.least with h | ⟨s, h, hs⟩ <;> rw [h]
      · rfl
      · exact hs
    have h2 : readCell literal row.maxReq = some (.dict mx) := by
      rcases hg.greatest with h | ⟨s, h, hs⟩ <;> rw [h]
      · rfl
      · exact hs
    rw [preprocess, if_pos (by rfl), h1, h2]
    dsimp only [Option.bind_some]
    rw [workReqs, if_pos (by rfl), mapM_congr fun k _ => reqFor_eq (row := { row with minReq := .dict mn, maxReq := .dict mx }) rfl rfl hg.volumes
      hg.enough k, mapM_some]
    simp [List.filterMap_map]
  clear h
  induction rows with
  | nil => exact ⟨[], rfl, .nil⟩
  | cons row rows ih =>
    obtain ⟨w, h1, h2⟩ := key row List.mem_cons_self
    obtain ⟨res, h3, h4⟩ := ih fun r hr => key r (List.mem_cons_of_mem _ hr)
    refine ⟨w :: res, ?_, .cons h2 h4⟩
    rw [List.mapM_cons]
    cases hp : preprocess literal ⟨true, true, true⟩ row with
    | none => rw [hp] at h1; cases h1
    | some r =>
      cases hq : rows.mapM (preprocess literal ⟨true, true, true⟩) with
      | none => rw [hq] at h3; cases h3
      | some rs =>
        rw [hp] at h1
        rw [hq] at h3
        dsimp only [Option.bind_some] at h1 h3
        show (r :: rs).mapM _ = _
        rw [List.mapM_cons, h1, h3]
        rfl

/-- A table with all three columns, whose cells are dictionaries (least and greatest counts also as text): every work gets, for each kind of
workers that the estimator names for any row, one requirement if the least count is positive and not above the greatest one, with these
counts and the volume cut to an integer; it gets no other ones and is a service work exactly if it gets none. -/
theorem given_partial (harr : ∀ l, (arrange l).Perm l) (h : ∀ row ∈ rows, ∃ mn mx vol, Gives literal row mn mx vol) :
    ∃ res, tableReqs literal ⟨true, true, true⟩ arrange vocabulary estimated rows = some res ∧
      List.Forall₂ (fun row w => ∃ mn mx vol, Gives literal row mn mx vol ∧ (w.1.map (·.kind)).Nodup ∧ (w.2 = true ↔ w.1 = []) ∧
        ∀ r : Req, r ∈ w.1 ↔ (∃ row' ∈ rows, r.kind ∈ vocabulary row'.id) ∧ mn r.kind = some r.minCount ∧ mx r.kind = some r.maxCount ∧
          0 < r.minCount ∧ r.minCount ≤ r.maxCount ∧ ∃ v : ℚ, vol r.kind = some v ∧ r.volume = mkTime (v.num.tdiv v.den)) rows res := by
  obtain ⟨res, h1, h2⟩ := table_eq (arrange := arrange) (vocabulary := vocabulary) (estimated := estimated) h
  refine ⟨res, h1, h2.imp fun row w hw => ?_⟩
  obtain ⟨mn, mx, vol, hg, rfl⟩ := hw
  refine ⟨mn, mx, vol, hg, nodup_chosen ((harr _).nodup_iff.2 (List.nodup_dedup _)), List.isEmpty_iff, fun r => ?_⟩
  rw [mem_chosen, (harr _).mem_iff, List.mem_dedup, List.mem_flatMap]

/-- Not proved because false: requirements for kinds of workers that the estimator does not name for any row are dropped without an error; a
work that needs only such workers becomes a service work, which needs neither workers nor time. -/
theorem unknown_kinds_dropped (harr : ∀ l, (arrange l).Perm l) {res : List (List Req × Bool)}
    (h : ∀ row ∈ rows, ∃ mn mx vol, Gives literal row mn mx vol)
    (hres : tableReqs literal ⟨true, true, true⟩ arrange vocabulary estimated rows = some res) :
    (∀ w ∈ res, ∀ r ∈ w.1, ∃ row' ∈ rows, r.kind ∈ vocabulary row'.id) ∧
    ∀ (i : Nat) (mn mx vol : String → Option ℚ) row w, rows[i]? = some row → res[i]? = some w → Gives literal row mn mx vol →
      (∀ k, mn k ≠ none → ∀ row' ∈ rows, k ∉ vocabulary row'.id) → w = ([], true) := by
  obtain ⟨res', h1, h2⟩ := table_eq (arrange := arrange) (vocabulary := vocabulary) (estimated := estimated) h
  rw [hres] at h1
  cases h1
  constructor
  · intro w hw r hr
    obtain ⟨i, hi, rfl⟩ := List.mem_iff_getElem.1 hw
    obtain ⟨mn, mx, vol, hg, he⟩ := (List.forall₂_iff_get.1 h2).2 i (by rw [h2.length_eq]; exact hi) hi
    simp only [List.get_eq_getElem] at he
    rw [he] at hr
    have := (mem_chosen.1 hr).1
    rwa [(harr _).mem_iff, List.mem_dedup, List.mem_flatMap] at this
  · intro i mn mx vol row w hrow hw hg hno
    obtain ⟨hi, rfl⟩ := List.getElem?_eq_some_iff.1 hrow
    obtain ⟨hi', rfl⟩ := List.getElem?_eq_some_iff.1 hw
    obtain ⟨mn', mx', vol', hg', he⟩ := (List.forall₂_iff_get.1 h2).2 i hi hi'
    simp only [List.get_eq_getElem] at he hg'
    have hmn : mn' = mn := by
      rcases hg.least with h3 | ⟨s, h3, h4⟩ <;> rcases hg'.least with h5 | ⟨s', h5, h6⟩ <;> rw [h3] at h5 <;> cases h5
      · rfl
      · rw [h4] at h6; cases h6; rfl
    subst hmn
    have : (arrange (rows.flatMap fun r => vocabulary r.id).dedup).filterMap (chosen mn' mx' vol') = [] := by
      rw [List.eq_nil_iff_forall_not_mem]
      intro r hr
      obtain ⟨hk, ha, -⟩ := mem_chosen.1 hr
      rw [(harr _).mem_iff, List.mem_dedup, List.mem_flatMap] at hk
      obtain ⟨row', h3, h4⟩ := hk
      exact hno r.kind (by rw [ha]; simp) row' h3 h4
    rw [he, this]
    rfl

/-- Not proved because false: in a table with the documented columns for least and greatest counts only, they have no effect; the
requirements are those of the estimator. -/
theorem documented_columns_ignored (h : ∀ row ∈ rows, ∃ mn mx vol, Gives literal row mn mx vol) :
    tableReqs literal ⟨true, true, false⟩ arrange vocabulary estimated rows =
      some (rows.map fun r => (estimated r.id, (estimated r.id).isEmpty)) := by
  unfold tableReqs
  generalize arrange (rows.flatMap fun r => vocabulary r.id).dedup = names
  obtain ⟨rs, h1, h2⟩ := mapM_forall (f := preprocess literal ⟨true, true, false⟩) (P := fun a b => b.id = a.id) (l := rows) fun row hrow => by
    obtain ⟨mn, mx, vol, hg⟩ := h row hrow
    have h1 : readCell literal row.minReq = some (.dict mn) := by
      rcases hg.least with h | ⟨s, h, hs⟩ <;> rw [h]
      · rfl
      · exact hs
    have h2 : readCell literal row.maxReq = some (.dict mx) := by
      rcases hg.greatest with h | ⟨s, h, hs⟩ <;> rw [h]
      · rfl
      · exact hs
    rw [preprocess, if_pos (by rfl), h1, h2]
    exact ⟨_, rfl, rfl⟩
  rw [h1]
  dsimp only [Option.bind_some]
  have : ∀ r : Row, workReqs ⟨true, true, false⟩ names (estimated r.id) r = some (estimated r.id, (estimated r.id).isEmpty) := fun _ => rfl
  rw [mapM_congr fun r _ => this r, mapM_some]
  clear h h1 this
  induction h2 with
  | nil => rfl
  | cons h _ ih =>
    rw [List.map_cons, List.map_cons, h, Option.some.inj ih]

/-- Not proved because false: volumes that are text, as read from a file, are not turned into dictionaries like the counts; reading raises an
exception as soon as a requirement of a known kind has sound counts. -/
theorem volumes_from_file_raise (harr : ∀ l, (arrange l).Perm l) {row row' : Row} {k s : String} {mn mx : String → Option ℚ} {a b : ℚ}
    (hrow : row ∈ rows) (h1 : readCell literal row.minReq = some (.dict mn)) (h2 : readCell literal row.maxReq = some (.dict mx))
    (h3 : row.reqVolume = .text s) (hrow' : row' ∈ rows) (hk : k ∈ vocabulary row'.id) (ha : mn k = some a) (hb : mx k = some b) (h0 : 0 < a)
    (hab : a ≤ b) : tableReqs literal ⟨true, true, true⟩ arrange vocabulary estimated rows = none := by
  unfold tableReqs
  have hk : k ∈ arrange (rows.flatMap fun r => vocabulary r.id).dedup := by
    rw [(harr _).mem_iff, List.mem_dedup, List.mem_flatMap]
    exact ⟨row', hrow', hk⟩
  revert hk
  generalize arrange (rows.flatMap fun r => vocabulary r.id).dedup = names
  intro hk
  have hone : workReqs ⟨true, true, true⟩ names (estimated row.id) { row with minReq := .dict mn, maxReq := .dict mx } = none := by
    rw [workReqs, if_pos (by rfl), mapM_none hk]
    · rfl
    · simp only [reqFor, look, ha, hb, h3]
      rw [if_pos ⟨h0, hab⟩]
  have hp : preprocess literal ⟨true, true, true⟩ row = some { row with minReq := .dict mn, maxReq := .dict mx } := by
    rw [preprocess, if_pos (by rfl), h1, h2]
  cases hq : rows.mapM (preprocess literal ⟨true, true, true⟩) with
  | none => rfl
  | some rs =>
    refine mapM_none (x := { row with minReq := .dict mn, maxReq := .dict mx }) ?_ hone
    clear hrow' h1 h2 hone hk
    induction rows generalizing rs with
    | nil => simp at hrow
    | cons x rows ih =>
      rw [List.mapM_cons] at hq
      cases hx : preprocess literal ⟨true, true, true⟩ x with
      | none => rw [hx] at hq; cases hq
      | some y =>
        cases hy : rows.mapM (preprocess literal ⟨true, true, true⟩) with
        | none => rw [hx, hy] at hq; cases hq
        | some ys =>
          rw [hx, hy] at hq
          cases hq
          rcases List.mem_cons.1 hrow with rfl | hrow
          · rw [hp] at hx
            cases hx
            exact List.mem_cons_self
          · exact List.mem_cons_of_mem _ (ih hrow ys hy)

/-- Requirements saved in the columns of `to_frame` come back, in some order, if every work has at most one requirement of a kind, all of
them positive and sound and of kinds that the estimator names for some row, and the volumes are times. -/
theorem saved_partial (harr : ∀ l, (arrange l).Perm l) (works : List (String × List Req))
    (hk : ∀ w ∈ works, (w.2.map (·.kind)).Nodup)
    (hr : ∀ w ∈ works, ∀ r ∈ w.2, 0 < r.minCount ∧ r.minCount ≤ r.maxCount ∧ IsTime r.volume ∧ ∃ w' ∈ works, r.kind ∈ vocabulary w'.1) :
    ∃ res, tableReqs literal ⟨true, true, true⟩ arrange vocabulary estimated (works.map fun w => saved w.1 w.2) = some res ∧
      List.Forall₂ (fun w x => x.1.Perm w.2 ∧ (x.2 = true ↔ w.2 = [])) works res := by
  have hg : ∀ w : String × List Req, Gives literal (saved w.1 w.2) (fun k => (w.2.reverse.find? (·.kind = k)).map (·.minCount))
      (fun k => (w.2.reverse.find? (·.kind = k)).map (·.maxCount)) (fun k => (w.2.reverse.find? (·.kind = k)).map fun r => (r.volume : ℚ)) := by
    intro w
    refine ⟨.inl rfl, .inl rfl, rfl, fun k a b ha _ _ _ => ?_⟩
    cases hf : w.2.reverse.find? (·.kind = k) with
    | none => rw [hf] at ha; cases ha
    | some r => exact ⟨_, rfl⟩
  obtain ⟨res, h1, h2⟩ := table_eq (literal := literal) (arrange := arrange) (vocabulary := vocabulary) (estimated := estimated)
    (rows := works.map fun w => saved w.1 w.2) fun row hrow => by
      obtain ⟨w, -, rfl⟩ := List.mem_map.1 hrow
      exact ⟨_, _, _, hg w⟩
  refine ⟨res, h1, ?_⟩
  rw [List.forall₂_map_left_iff] at h2
  rw [List.forall₂_iff_get] at h2 ⊢
  refine ⟨h2.1, fun i hi hi' => ?_⟩
  obtain ⟨mn, mx, vol, hg', he⟩ := h2.2 i hi hi'
  have hw : works.get ⟨i, hi⟩ ∈ works := List.get_mem _ _
  revert hg' he hw
  generalize works.get ⟨i, hi⟩ = w
  generalize res.get ⟨i, hi'⟩ = x
  intro hg' he hw
  have hmn := hg'.least.resolve_right (by rintro ⟨s, h, -⟩; cases h)
  have hmx := hg'.greatest.resolve_right (by rintro ⟨s, h, -⟩; cases h)
  have hvol := hg'.volumes
  simp only [saved, Cell.dict.injEq] at hmn hmx hvol
  subst hmn hmx hvol he
  have find : ∀ r ∈ w.2, w.2.reverse.find? (·.kind = r.kind) = some r := by
    intro r hr'
    cases hf : w.2.reverse.find? (·.kind = r.kind) with
    | none => exact absurd (List.find?_eq_none.1 hf r (List.mem_reverse.2 hr')) (by simp)
    | some r' =>
      have h3 := List.mem_reverse.1 (List.mem_of_find?_eq_some hf)
      have h4 : r'.kind = r.kind := by simpa using List.find?_some hf
      exact congrArg some (List.inj_on_of_nodup_map (hk w hw) h3 hr' h4)
  have hperm : ((arrange ((works.map fun w => saved w.1 w.2).flatMap fun r => vocabulary r.id).dedup).filterMap
      (chosen (fun k => (w.2.reverse.find? (·.kind = k)).map (·.minCount)) (fun k => (w.2.reverse.find? (·.kind = k)).map (·.maxCount))
        fun k => (w.2.reverse.find? (·.kind = k)).map fun r => (r.volume : ℚ))).Perm w.2 := by
    refine (List.perm_ext_iff_of_nodup ?_ ?_).2 fun r => ?_
    · exact List.Nodup.of_map _ (nodup_chosen ((harr _).nodup_iff.2 (List.nodup_dedup _)))
    · exact List.Nodup.of_map _ (hk w hw)
    · rw [mem_chosen, (harr _).mem_iff, List.mem_dedup, List.mem_flatMap]
      have cut : ∀ n : Int, IsTime n → mkTime ((n : ℚ).num.tdiv (n : ℚ).den) = n := by
        intro n hn
        rw [Rat.num_intCast, Rat.den_intCast, Nat.cast_one, Int.tdiv_one]
        unfold IsTime at hn
        unfold mkTime
        rw [if_neg (by omega), if_neg (by omega)]
      constructor
      · rintro ⟨-, h3, h4, -, -, v, h5, h6⟩
        cases hf : w.2.reverse.find? (·.kind = r.kind) with
        | none => rw [hf] at h3; cases h3
        | some r' =>
          have hm := List.mem_reverse.1 (List.mem_of_find?_eq_some hf)
          have hkind : r'.kind = r.kind := by simpa using List.find?_some hf
          rw [hf] at h3 h4 h5
          have h3 := Option.some.inj h3
          have h4 := Option.some.inj h4
          have h5 := Option.some.inj h5
          dsimp only at h5
          rw [← h5, cut _ (hr w hw r' hm).2.2.1] at h6
          have : r = r' := by
            cases r; cases r'
            simp_all
          exact this ▸ hm
      · intro hm
        obtain ⟨h3, h4, h5, w', h6, h7⟩ := hr w hw r hm
        have hf := find r hm
        refine ⟨⟨saved w'.1 w'.2, List.mem_map.2 ⟨w', h6, rfl⟩, h7⟩, ?_, ?_, h3, h4, (r.volume : ℚ), ?_, (cut _ h5).symm⟩ <;> rw [hf] <;> rfl
  refine ⟨hperm, ?_⟩
  show List.isEmpty _ = true ↔ _
  rw [List.isEmpty_iff]
  constructor
  · intro h
    exact List.length_eq_zero_iff.1 (hperm.length_eq.symm.trans (by rw [h]; rfl))
  · intro h
    exact List.length_eq_zero_iff.1 (hperm.length_eq.trans (by rw [h]; rfl))

/-! ### A table -/

private def demo : List Row :=
  [⟨"a", .text "m", .text "n", .dict fun k => if k = "driver" then some 20 else none⟩,
   ⟨"b", .dict fun k => if k = "welder" then some 1 else none, .dict fun k => if k = "welder" then some 2 else none,
     .dict fun k => if k = "welder" then some 5 else none⟩]

private def read : String → Option Cell := fun s =>
  if s = "m" then some (.dict fun k => if k = "driver" then some 2 else if k = "fitter" then some 0 else none)
  else if s = "n" then some (.dict fun k => if k = "driver" then some 4 else if k = "fitter" then some 3 else none) else none

private theorem demo_gives : ∀ row ∈ demo, ∃ mn mx vol, Gives read row mn mx vol := by
  intro row hrow
  simp only [demo, List.mem_cons, List.not_mem_nil, or_false] at hrow
  rcases hrow with rfl | rfl
  · refine ⟨_, _, _, .inr ⟨"m", rfl, rfl⟩, .inr ⟨"n", rfl, rfl⟩, rfl, ?_⟩
    intro k a b ha _ h0 _
    by_cases hk : k = "driver"
    · exact ⟨20, by simp [hk]⟩
    · by_cases hk' : k = "fitter"
      · simp [hk'] at ha
        rw [← ha] at h0
        exact absurd h0 (lt_irrefl _)
      · simp [hk, hk'] at ha
  · refine ⟨_, _, _, .inl rfl, .inl rfl, rfl, ?_⟩
    intro k a b ha _ _ _
    by_cases hk : k = "welder"
    · exact ⟨5, by simp [hk]⟩
    · simp [hk] at ha

example := given_partial (arrange := id) (vocabulary := fun _ => defaultKinds) (estimated := fun _ => []) (fun _ => .refl _) demo_gives

/-- The welders of the second work are dropped. -/
example : tableReqs read ⟨true, true, true⟩ id (fun _ => defaultKinds) (fun _ => []) demo = some [([⟨"driver", 20, 2, 4⟩], false), ([], true)] := by
  decide +kernel

example := unknown_kinds_dropped (arrange := id) (vocabulary := fun _ => defaultKinds) (estimated := fun _ => []) (fun _ => .refl _) demo_gives
  (res := [([⟨"driver", 20, 2, 4⟩], false), ([], true)]) (by decide +kernel)

example := documented_columns_ignored (arrange := id) (vocabulary := fun _ => defaultKinds) (estimated := fun _ => [⟨"fitter", 1, 1, 2⟩]) demo_gives

example := volumes_from_file_raise (literal := read) (arrange := id) (vocabulary := fun _ => defaultKinds) (estimated := fun _ => [])
  (rows := [⟨"a", .text "m", .text "n", .text "{'driver': 20}"⟩]) (fun _ => .refl _) (k := "driver") List.mem_cons_self rfl rfl rfl
  List.mem_cons_self (by decide) (a := 2) (b := 4) rfl rfl (by decide +kernel) (by decide +kernel)

example := saved_partial (literal := read) (arrange := id) (vocabulary := fun _ => defaultKinds) (estimated := fun _ => []) (fun _ => .refl _)
  [("a", [⟨"driver", 20, 2, 4⟩, ⟨"fitter", 7, 1, 1⟩]), ("b", [])] (by decide) (by
    simp only [List.mem_cons, List.not_mem_nil, or_false]
    rintro w (rfl | rfl) r hr
    · simp only [List.mem_cons, List.not_mem_nil, or_false] at hr
      rcases hr with rfl | rfl <;>
        exact ⟨by decide +kernel, by decide +kernel, by unfold IsTime TIME_INF; decide, _, .inl rfl, by decide⟩
    · cases hr)

end Sampo.C121
