import Verif.Spec.Genetic

/-!
# Lemmas about crossover and mutation of resources
-/

namespace Sampo.GeneticRes

theorem mem_arange {a b x : Int} : x ∈ arange a b ↔ a ≤ x ∧ x < b := by
  unfold arange
  rw [List.mem_map]
  constructor
  · rintro ⟨k, hk, rfl⟩
    rw [List.mem_range] at hk
    omega
  · rintro ⟨h1, h2⟩
    exact ⟨(x - a).toNat, by rw [List.mem_range]; omega, by omega⟩

theorem mem_choices {low cur up x : Int} (h1 : low ≤ cur) (h2 : cur ≤ up) (h : x ∈ choices low cur up) :
    low ≤ x ∧ x ≤ up := by
  unfold choices at h
  rw [List.mem_append, mem_arange, mem_arange] at h
  omega

theorem choices_ne_nil {low cur up : Int} (h1 : low ≤ cur) (h2 : cur ≤ up) (h : up ≠ low) : choices low cur up ≠ [] := by
  by_cases hc : low < cur
  · have : low ∈ choices low cur up := by
      unfold choices; rw [List.mem_append, mem_arange]; left; omega
    exact List.ne_nil_of_mem this
  · have : cur + 1 ∈ choices low cur up := by
      unfold choices; rw [List.mem_append, mem_arange, mem_arange]; right; omega
    exact List.ne_nil_of_mem this

/-- `rand.choices` gives one of the values. -/
def Picks (pick : Nat → Nat → List Int → Int) : Prop := ∀ r k l, l ≠ [] → pick r k l ∈ l

theorem mutateValues_spec (rows cols : List Nat) (masks : Nat → Nat → Bool) (low up old : Nat → Nat → Int)
    (pick : Nat → Nat → List Int → Int) (hp : Picks pick)
    (h : ∀ r ∈ rows, ∀ k ∈ cols, masks r k = true → low r k ≤ old r k ∧ old r k ≤ up r k ∧ up r k ≠ low r k) :
    ∃ new, mutateValues rows cols masks low up old pick = some new ∧
      (∀ r k, r ∈ rows → k ∈ cols → masks r k = true → low r k ≤ new r k ∧ new r k ≤ up r k) ∧
      (∀ r k, ¬ (r ∈ rows ∧ k ∈ cols ∧ masks r k = true) → new r k = old r k) := by
  unfold mutateValues
  have hall : (rows.all fun r => cols.all fun k => ! masks r k || decide (choices (low r k) (old r k) (up r k) ≠ [])) = true := by
    rw [List.all_eq_true]
    intro r hr
    rw [List.all_eq_true]
    intro k hk
    cases hm : masks r k with
    | false => rfl
    | true =>
      obtain ⟨a, b, c⟩ := h r hr k hk hm
      rw [decide_eq_true (choices_ne_nil a b c)]
      rfl
  rw [if_pos hall]
  refine ⟨_, rfl, ?_, ?_⟩
  · intro r k hr hk hm
    obtain ⟨a, b, c⟩ := h r hr k hk hm
    rw [if_pos ⟨hr, hk, hm⟩]
    exact mem_choices a b (hp r k _ (choices_ne_nil a b c))
  · intro r k hn
    rw [if_neg hn]

/-- The maximum of the amounts of a contractor. -/
theorem le_groupMax (n : Nat) (ch : Chrom) (k w : Nat) (hw : w < n) : ch.amount w k ≤ groupMax n ch (ch.contractor w) k := by
  unfold groupMax
  have hmem : ch.amount w k ∈ ((List.range n).filter fun v => ch.contractor v = ch.contractor w).map fun v => ch.amount v k := by
    rw [List.mem_map]
    exact ⟨w, by rw [List.mem_filter, List.mem_range]; exact ⟨hw, by simp⟩, rfl⟩
  cases hm : (((List.range n).filter fun v => ch.contractor v = ch.contractor w).map fun v => ch.amount v k).max? with
  | none =>
    rw [List.max?_eq_none_iff] at hm
    rw [hm] at hmem
    simp at hmem
  | some x =>
    rw [Option.getD_some]
    exact (List.max?_eq_some_iff.1 hm).2 _ hmem

theorem groupMax_le (n : Nat) (ch : Chrom) (c k : Nat) (b : Int) (hc : ∃ w < n, ch.contractor w = c)
    (h : ∀ w < n, ch.contractor w = c → ch.amount w k ≤ b) : groupMax n ch c k ≤ b := by
  unfold groupMax
  cases hm : (((List.range n).filter fun v => ch.contractor v = c).map fun v => ch.amount v k).max? with
  | none =>
    rw [List.max?_eq_none_iff, List.map_eq_nil_iff] at hm
    obtain ⟨w, hw, hwc⟩ := hc
    have : w ∈ (List.range n).filter fun v => ch.contractor v = c := by
      rw [List.mem_filter, List.mem_range]; exact ⟨hw, by simp [hwc]⟩
    rw [hm] at this
    simp at this
  | some x =>
    rw [Option.getD_some]
    have hx := (List.max?_eq_some_iff.1 hm).1
    rw [List.mem_map] at hx
    obtain ⟨w, hw, rfl⟩ := hx
    rw [List.mem_filter, List.mem_range] at hw
    exact h w hw.1 (of_decide_eq_true hw.2)

variable {n m nc : Nat} {lo hi cap : Nat → Nat → Int} {enabled : Nat → Nat → Prop}

theorem takeRows_within (positions : List Nat) {p1 p2 : Chrom} (h1 : WithinBorders n m nc lo hi cap enabled p1)
    (h2 : WithinBorders n m nc lo hi cap enabled p2) (hb : ∀ c < nc, ∀ k < m, p2.border c k ≤ p1.border c k) :
    WithinBorders n m nc lo hi cap enabled (takeRows positions p1 p2) := by
  constructor
  · intro w hw k hk
    simp only [takeRows]
    by_cases hp : w ∈ positions
    · rw [if_pos hp]; exact h2.low w hw k hk
    · rw [if_neg hp]; exact h1.low w hw k hk
  · intro w hw k hk
    simp only [takeRows]
    by_cases hp : w ∈ positions
    · rw [if_pos hp]; exact h2.high w hw k hk
    · rw [if_neg hp]; exact h1.high w hw k hk
  · intro w hw k hk
    simp only [takeRows]
    by_cases hp : w ∈ positions
    · rw [if_pos hp, if_pos hp]
      exact le_trans (h2.fits w hw k hk) (hb _ (h2.known w hw) k hk)
    · rw [if_neg hp, if_neg hp]; exact h1.fits w hw k hk
  · intro w hw
    simp only [takeRows]
    by_cases hp : w ∈ positions
    · rw [if_pos hp]; exact h2.known w hw
    · rw [if_neg hp]; exact h1.known w hw
  · intro w hw
    simp only [takeRows]
    by_cases hp : w ∈ positions
    · rw [if_pos hp]; exact h2.allowed w hw
    · rw [if_neg hp]; exact h1.allowed w hw
  · exact h1.capacity

theorem raise_within (positions : List Nat) {p1 p2 : Chrom} (h1 : WithinBorders n m nc lo hi cap enabled p1)
    (h2 : WithinBorders n m nc lo hi cap enabled p2) (b1 b2 : Nat → Nat → Int)
    (hge1 : ∀ c < nc, ∀ k < m, p1.border c k ≤ max (b1 c k) (b2 c k))
    (hge2 : ∀ c < nc, ∀ k < m, p2.border c k ≤ max (b1 c k) (b2 c k))
    (hcap : ∀ c < nc, ∀ k < m, max (b1 c k) (b2 c k) ≤ cap c k) :
    WithinBorders n m nc lo hi cap enabled (raiseBorders positions (takeRows positions p1 p2) b1 b2) := by
  have hknown : ∀ w < n, (takeRows positions p1 p2).contractor w < nc := by
    intro w hw
    simp only [takeRows]
    by_cases hp : w ∈ positions
    · rw [if_pos hp]; exact h2.known w hw
    · rw [if_neg hp]; exact h1.known w hw
  constructor
  · intro w hw k hk
    simp only [raiseBorders, takeRows]
    by_cases hp : w ∈ positions
    · rw [if_pos hp]; exact h2.low w hw k hk
    · rw [if_neg hp]; exact h1.low w hw k hk
  · intro w hw k hk
    simp only [raiseBorders, takeRows]
    by_cases hp : w ∈ positions
    · rw [if_pos hp]; exact h2.high w hw k hk
    · rw [if_neg hp]; exact h1.high w hw k hk
  · intro w hw k hk
    have hkn := hknown w hw
    simp only [raiseBorders]
    by_cases hp : w ∈ positions
    · rw [if_pos (List.mem_map_of_mem hp)]
      simp only [takeRows] at hkn ⊢
      rw [if_pos hp] at hkn ⊢
      rw [if_pos hp]
      exact le_trans (h2.fits w hw k hk) (hge2 _ hkn k hk)
    · by_cases hc : (takeRows positions p1 p2).contractor w ∈ positions.map (takeRows positions p1 p2).contractor
      · rw [if_pos hc]
        simp only [takeRows] at hkn ⊢
        rw [if_neg hp] at hkn ⊢
        rw [if_neg hp]
        exact le_trans (h1.fits w hw k hk) (hge1 _ hkn k hk)
      · rw [if_neg hc]
        simp only [takeRows]
        rw [if_neg hp, if_neg hp]
        exact h1.fits w hw k hk
  · exact hknown
  · intro w hw
    simp only [raiseBorders, takeRows]
    by_cases hp : w ∈ positions
    · rw [if_pos hp]; exact h2.allowed w hw
    · rw [if_neg hp]; exact h1.allowed w hw
  · intro c hc k hk
    simp only [raiseBorders]
    by_cases hm : c ∈ positions.map (takeRows positions p1 p2).contractor
    · rw [if_pos hm]; exact hcap c hc k hk
    · rw [if_neg hm]; exact h1.capacity c hc k hk

theorem mate_within (positions : List Nat) (optimize : Bool) {p1 p2 : Chrom}
    (h1 : WithinBorders n m nc lo hi cap enabled p1) (h2 : WithinBorders n m nc lo hi cap enabled p2)
    (hb : optimize = true ∨ ∀ c < nc, ∀ k < m, p1.border c k = p2.border c k) :
    WithinBorders n m nc lo hi cap enabled (mate positions optimize p1 p2).1 ∧
      WithinBorders n m nc lo hi cap enabled (mate positions optimize p1 p2).2 := by
  unfold mate
  simp only
  cases optimize with
  | false =>
    have hb' := hb.resolve_left (by simp)
    rw [if_neg (by simp)]
    exact ⟨takeRows_within positions h1 h2 fun c hc k hk => le_of_eq (hb' c hc k hk).symm,
      takeRows_within positions h2 h1 fun c hc k hk => le_of_eq (hb' c hc k hk)⟩
  | true =>
    rw [if_pos rfl]
    refine ⟨raise_within positions h1 h2 _ _ (fun c _ k _ => le_max_left _ _) (fun c _ k _ => le_max_right _ _)
      (fun c hc k hk => max_le (h1.capacity c hc k hk) (h2.capacity c hc k hk)), ?_⟩
    have hd1 : ∀ c k, p1.border c k ≤ (raiseBorders positions (takeRows positions p1 p2) (takeRows positions p1 p2).border
        (takeRows positions p2 p1).border).border c k := by
      intro c k
      simp only [raiseBorders]
      by_cases hm : c ∈ positions.map (takeRows positions p1 p2).contractor
      · rw [if_pos hm]; exact le_max_left _ _
      · rw [if_neg hm]; exact le_refl _
    have hd2 : ∀ c < nc, ∀ k < m, (raiseBorders positions (takeRows positions p1 p2) (takeRows positions p1 p2).border
        (takeRows positions p2 p1).border).border c k ≤ cap c k := by
      intro c hc k hk
      simp only [raiseBorders]
      by_cases hm : c ∈ positions.map (takeRows positions p1 p2).contractor
      · rw [if_pos hm]; exact max_le (h1.capacity c hc k hk) (h2.capacity c hc k hk)
      · rw [if_neg hm]; exact h1.capacity c hc k hk
    exact raise_within positions h2 h1 _ _ (fun c _ k _ => le_max_right _ _)
      (fun c hc k hk => le_trans (hd1 c k) (le_max_left _ _))
      (fun c hc k hk => max_le (hd2 c hc k hk) (h2.capacity c hc k hk))

theorem mutateContractors_within (mask : Nat → Bool) (new : Nat → Nat) {ch : Chrom}
    (hnew : ∀ w < n, mask w = true → new w < nc ∧ enabled w (new w)) (h : WithinBorders n m nc lo hi cap enabled ch) :
    WithinBorders n m nc lo hi cap enabled (mutateContractors n m mask new ch) := by
  constructor
  · exact h.low
  · exact h.high
  · intro w hw k hk
    simp only [mutateContractors]
    by_cases hc : w < n ∧ mask w = true ∧ ∀ k ∈ List.range m, ch.amount w k ≤ ch.border (new w) k
    · rw [if_pos hc]; exact hc.2.2 k (List.mem_range.2 hk)
    · rw [if_neg hc]; exact h.fits w hw k hk
  · intro w hw
    simp only [mutateContractors]
    by_cases hc : w < n ∧ mask w = true ∧ ∀ k ∈ List.range m, ch.amount w k ≤ ch.border (new w) k
    · rw [if_pos hc]; exact (hnew w hw hc.2.1).1
    · rw [if_neg hc]; exact h.known w hw
  · intro w hw
    simp only [mutateContractors]
    by_cases hc : w < n ∧ mask w = true ∧ ∀ k ∈ List.range m, ch.amount w k ≤ ch.border (new w) k
    · rw [if_pos hc]; exact (hnew w hw hc.2.1).2
    · rw [if_neg hc]; exact h.allowed w hw
  · exact h.capacity

theorem mutate_within (mask : Nat → Bool) (new : Nat → Nat) (masks : Nat → Nat → Bool) (pick : Nat → Nat → List Int → Int)
    (hp : Picks pick) {ch : Chrom} (hnew : ∀ w < n, mask w = true → new w < nc ∧ enabled w (new w))
    (h : WithinBorders n m nc lo hi cap enabled ch) :
    ∃ ch', mutate n m nc lo hi mask new masks pick ch = some ch' ∧ WithinBorders n m nc lo hi cap enabled ch' ∧
      ch'.border = ch.border := by
  unfold mutate
  simp only
  have h1 : WithinBorders n m nc lo hi cap enabled (if 1 < nc then mutateContractors n m mask new ch else ch) := by
    by_cases hnc : 1 < nc
    · rw [if_pos hnc]; exact mutateContractors_within mask new hnew h
    · rw [if_neg hnc]; exact h
  have hbor : (if 1 < nc then mutateContractors n m mask new ch else ch).border = ch.border := by
    by_cases hnc : 1 < nc
    · rw [if_pos hnc]; rfl
    · rw [if_neg hnc]
  generalize (if 1 < nc then mutateContractors n m mask new ch else ch) = c1 at h1 hbor
  obtain ⟨a, ha, hin, hout⟩ := mutateValues_spec (List.range n) (List.range m)
    (fun w k => masks w k && decide (min (hi w k) (c1.border (c1.contractor w) k) ≠ lo w k)) lo
    (fun w k => min (hi w k) (c1.border (c1.contractor w) k)) c1.amount pick hp (by
      intro r hr k hk hm
      rw [List.mem_range] at hr hk
      rw [Bool.and_eq_true] at hm
      exact ⟨h1.low r hr k hk, le_min (h1.high r hr k hk) (h1.fits r hr k hk), of_decide_eq_true hm.2⟩)
  rw [ha]
  refine ⟨_, rfl, ?_, hbor⟩
  have bound : ∀ w < n, ∀ k < m, lo w k ≤ a w k ∧ a w k ≤ min (hi w k) (c1.border (c1.contractor w) k) := by
    intro w hw k hk
    by_cases hm : (masks w k && decide (min (hi w k) (c1.border (c1.contractor w) k) ≠ lo w k)) = true
    · exact hin w k (List.mem_range.2 hw) (List.mem_range.2 hk) hm
    · rw [hout w k (fun hc => hm hc.2.2)]
      exact ⟨h1.low w hw k hk, le_min (h1.high w hw k hk) (h1.fits w hw k hk)⟩
  constructor
  · exact fun w hw k hk => (bound w hw k hk).1
  · exact fun w hw k hk => le_trans (bound w hw k hk).2 (min_le_left _ _)
  · exact fun w hw k hk => le_trans (bound w hw k hk).2 (min_le_right _ _)
  · exact h1.known
  · exact h1.allowed
  · exact h1.capacity

theorem mutateBorders_within (masks : Nat → Nat → Bool) (pick : Nat → Nat → List Int → Int) (hp : Picks pick) {ch : Chrom}
    (h : WithinBorders n m nc lo hi cap enabled ch) :
    ∃ ch', mutateBorders n m cap masks pick ch = some ch' ∧ WithinBorders n m nc lo hi cap enabled ch' ∧
      ch'.amount = ch.amount ∧ ch'.contractor = ch.contractor := by
  unfold mutateBorders
  have hgm : ∀ c, c ∈ (List.range n).map ch.contractor → ∀ k < m, groupMax n ch c k ≤ ch.border c k := by
    intro c hc k hk
    rw [List.mem_map] at hc
    obtain ⟨w, hw, hwc⟩ := hc
    rw [List.mem_range] at hw
    refine groupMax_le n ch c k _ ⟨w, hw, hwc⟩ ?_
    intro v hv hvc
    have := h.fits v hv k hk
    rw [hvc] at this
    exact this
  have hlt : ∀ c, c ∈ (List.range n).map ch.contractor → c < nc := by
    intro c hc
    rw [List.mem_map] at hc
    obtain ⟨w, hw, rfl⟩ := hc
    exact h.known w (List.mem_range.1 hw)
  obtain ⟨b, hb, hin, hout⟩ := mutateValues_spec ((List.range n).map ch.contractor) (List.range m)
    (fun c k => masks c k && decide (cap c k ≠ groupMax n ch c k)) (groupMax n ch) cap ch.border pick hp (by
      intro c hc k hk hm
      rw [Bool.and_eq_true] at hm
      exact ⟨hgm c hc k (List.mem_range.1 hk), h.capacity c (hlt c hc) k (List.mem_range.1 hk), of_decide_eq_true hm.2⟩)
  rw [hb]
  refine ⟨_, rfl, ?_, rfl, rfl⟩
  constructor
  · exact h.low
  · exact h.high
  · intro w hw k hk
    simp only
    have hc : ch.contractor w ∈ (List.range n).map ch.contractor := List.mem_map_of_mem (List.mem_range.2 hw)
    by_cases hm : (masks (ch.contractor w) k && decide (cap (ch.contractor w) k ≠ groupMax n ch (ch.contractor w) k)) = true
    · exact le_trans (le_groupMax n ch k w hw) (hin _ k hc (List.mem_range.2 hk) hm).1
    · rw [hout _ k fun hx => hm hx.2.2]; exact h.fits w hw k hk
  · exact h.known
  · exact h.allowed
  · intro c hc k hk
    simp only
    by_cases hm : c ∈ (List.range n).map ch.contractor ∧ k ∈ List.range m ∧
        (masks c k && decide (cap c k ≠ groupMax n ch c k)) = true
    · exact (hin c k hm.1 hm.2.1 hm.2.2).2
    · rw [hout c k hm]; exact h.capacity c hc k hk

/-! ### Checks -/

theorem orderLoop_iff (parents : Nat → List Nat) (prio : Nat → Int) :
    ∀ (rest used : List Nat), orderLoop parents prio used rest = true ↔
      ∀ before v after, rest = before ++ v :: after → ∀ p ∈ parents v, (p = v ∨ p ∈ before ∨ p ∈ used) ∧ prio p ≤ prio v := by
  intro rest
  induction rest with
  | nil =>
    intro used
    simp [orderLoop]
  | cons x rest ih =>
    intro used
    unfold orderLoop
    rw [Bool.and_eq_true, Bool.and_eq_true, ih]
    simp only [List.all_eq_true, decide_eq_true_eq, Bool.not_eq_true', List.any_eq_false, not_lt, List.mem_cons]
    constructor
    · rintro ⟨⟨h1, h2⟩, h3⟩ before v after heq p hp
      cases before with
      | nil =>
        rw [List.nil_append, List.cons.injEq] at heq
        obtain ⟨rfl, rfl⟩ := heq
        exact ⟨(h1 p hp).imp_right Or.inr, h2 p hp⟩
      | cons b before =>
        rw [List.cons_append, List.cons.injEq] at heq
        obtain ⟨rfl, rfl⟩ := heq
        obtain ⟨h4, h5⟩ := h3 before v after rfl p hp
        refine ⟨?_, h5⟩
        rcases h4 with h4 | h4 | h4 | h4
        · exact Or.inl h4
        · exact Or.inr (Or.inl (by simp [h4]))
        · exact Or.inr (Or.inl (by simp [h4]))
        · exact Or.inr (Or.inr h4)
    · intro h
      refine ⟨⟨fun p hp => ?_, fun p hp => (h [] x rest rfl p hp).2⟩, ?_⟩
      · have := (h [] x rest rfl p hp).1
        simpa using this
      · intro before v after heq p hp
        obtain ⟨h4, h5⟩ := h (x :: before) v after (by rw [heq]; rfl) p hp
        refine ⟨?_, h5⟩
        rcases h4 with h4 | h4 | h4
        · exact Or.inl h4
        · rw [List.mem_cons] at h4
          rcases h4 with h4 | h4
          · exact Or.inr (Or.inr (Or.inl h4))
          · exact Or.inr (Or.inl h4)
        · exact Or.inr (Or.inr (Or.inr h4))

theorem contractorsCorrect_iff (n m : Nat) (hn : n ≠ 0) (cap : Nat → Nat → Int) (enabled : Nat → Nat → Bool)
    (order : List Nat) (ch : Chrom) : contractorsCorrect n m cap enabled order ch = true ↔
      (∀ w ∈ order, enabled w (ch.contractor w) = true) ∧
      ∀ w < n, ∀ k < m, ch.amount w k ≤ ch.border (ch.contractor w) k ∧
        ch.border (ch.contractor w) k ≤ cap (ch.contractor w) k := by
  unfold contractorsCorrect
  rw [if_neg hn, Bool.and_eq_true, Bool.and_eq_true]
  simp only [List.all_eq_true, decide_eq_true_eq, List.mem_map, List.mem_range, forall_exists_index, and_imp,
    forall_apply_eq_imp_iff₂]
  constructor
  · rintro ⟨⟨h1, h2⟩, h3⟩
    exact ⟨h1, fun w hw k hk => ⟨le_trans (le_groupMax n ch k w hw) (h2 w hw k hk), h3 w hw k hk⟩⟩
  · rintro ⟨h1, h2⟩
    refine ⟨⟨h1, fun w hw k hk => ?_⟩, fun w hw k hk => (h2 w hw k hk).2⟩
    refine groupMax_le n ch _ k _ ⟨w, hw, rfl⟩ ?_
    intro v hv hvc
    have := (h2 v hv k hk).1
    rw [hvc] at this
    exact this

end Sampo.GeneticRes
