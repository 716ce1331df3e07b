import Verif.Model.GeneticLoop
import Verif.Spec.Pareto

/-!
# Lemmas about the hall of fame, selection and the genetic loop
-/

namespace Sampo.GeneticLoop

theorem atLeast_refl (u : List Int) : AtLeast u u := by
  induction u with
  | nil => exact .nil
  | cons x u ih => exact .cons (le_refl x) ih

theorem atLeast_trans {u v w : List Int} (h1 : AtLeast u v) (h2 : AtLeast v w) : AtLeast u w := by
  unfold AtLeast at *
  induction h1 generalizing w with
  | nil => exact h2
  | cons h _ ih =>
    cases h2 with
    | cons h' t => exact .cons (le_trans h' h) (ih t)

theorem atLeast_antisymm {u v : List Int} (h1 : AtLeast u v) (h2 : AtLeast v u) : u = v := by
  unfold AtLeast at *
  induction h1 with
  | nil => rfl
  | cons h _ ih =>
    cases h2 with
    | cons h' t => rw [le_antisymm h' h, ih t]

theorem all_iff {u v : List Int} (hl : u.length = v.length) :
    ((u.zip v).all fun p => decide (p.2 ≤ p.1)) = true ↔ List.Forall₂ (fun x y => y ≤ x) u v := by
  induction u generalizing v with
  | nil => cases v <;> simp_all
  | cons a u ih =>
    cases v with
    | nil => simp at hl
    | cons b v =>
      have hl' : u.length = v.length := by simpa using hl
      rw [List.zip_cons_cons, List.all_cons, Bool.and_eq_true, ih hl', List.forall₂_cons, decide_eq_true_eq]

theorem dominates_iff {u v : List Int} (hl : u.length = v.length) :
    dominates u v = true ↔ AtLeast u v ∧ u ≠ v := by
  unfold dominates AtLeast
  induction u generalizing v with
  | nil =>
    cases v with
    | nil => simp
    | cons y v => simp at hl
  | cons x u ih =>
    cases v with
    | nil => simp at hl
    | cons y v =>
      have ih := ih (v := v) (by simpa using hl)
      simp only [List.zip_cons_cons, List.all_cons, List.any_cons, Bool.and_eq_true, Bool.or_eq_true, decide_eq_true_eq,
        List.forall₂_cons, ne_eq, List.cons.injEq, not_and] at ih ⊢
      have hall := all_iff (u := u) (v := v) (by simpa using hl)
      constructor
      · rintro ⟨⟨h1, h2⟩, h3⟩
        refine ⟨⟨h1, hall.1 h2⟩, ?_⟩
        rintro rfl
        rcases h3 with h3 | h3
        · omega
        · exact (ih.1 ⟨h2, h3⟩).2
      · rintro ⟨⟨h1, h2⟩, h3⟩
        refine ⟨⟨h1, hall.2 h2⟩, ?_⟩
        by_cases hxy : y < x
        · exact .inl hxy
        · exact .inr (ih.2 ⟨h2, h3 (by omega)⟩).2

variable {α : Type*} {fit : α → List Int} {d : Nat}

theorem compareAll_covered (hd : ∀ a, (fit a).length = d) (x : α) (hs kept : List α) (hanti : Incomparable fit hs)
    (h : ∃ b ∈ hs, AtLeast (fit b) (fit x)) : compareAll fit x hs false kept = (kept ++ hs, false) := by
  induction hs generalizing kept with
  | nil => simp at h
  | cons b hs ih =>
    unfold Incomparable at hanti
    rw [List.pairwise_cons] at hanti
    unfold compareAll
    by_cases h1 : dominates (fit b) (fit x) = true
    · simp [h1]
    · rw [if_neg (by simpa using h1)]
      by_cases hbx : fit x = fit b
      · have : ¬ dominates (fit x) (fit b) = true := by rw [dominates_iff ((hd _).trans (hd _).symm)]; tauto
        rw [if_neg this, if_pos hbx]
      · have hnb : ¬ AtLeast (fit b) (fit x) := fun hc =>
          h1 ((dominates_iff ((hd _).trans (hd _).symm)).2 ⟨hc, fun e => hbx e.symm⟩)
        obtain ⟨c, hc, hcx⟩ := h
        have hc' : c ∈ hs := by
          rcases List.mem_cons.1 hc with rfl | hc
          · exact absurd hcx hnb
          · exact hc
        have : ¬ dominates (fit x) (fit b) = true := by
          rw [dominates_iff ((hd _).trans (hd _).symm)]
          rintro ⟨hxb, _⟩
          exact (hanti.1 c hc').2 (atLeast_trans hcx hxb)
        rw [if_neg this, if_neg hbx, ih (kept ++ [b]) hanti.2 ⟨c, hc', hcx⟩]
        simp

theorem compareAll_new (hd : ∀ a, (fit a).length = d) (x : α) (hs kept : List α) (o : Bool)
    (h : ∀ b ∈ hs, ¬ AtLeast (fit b) (fit x)) :
    compareAll fit x hs o kept = (kept ++ hs.filter (fun b => !dominates (fit x) (fit b)), true) := by
  induction hs generalizing kept o with
  | nil => simp [compareAll]
  | cons b hs ih =>
    have hb := h b (by simp)
    have hrest : ∀ c ∈ hs, ¬ AtLeast (fit c) (fit x) := fun c hc => h c (by simp [hc])
    unfold compareAll
    have h1 : ¬ dominates (fit b) (fit x) = true := by rw [dominates_iff ((hd _).trans (hd _).symm)]; tauto
    have h1' : dominates (fit b) (fit x) = false := by simpa using h1
    rw [h1']
    simp only [Bool.and_false, Bool.false_eq_true, if_false]
    by_cases h2 : dominates (fit x) (fit b) = true
    · rw [if_pos h2, ih kept true hrest]
      simp [h2]
    · rw [if_neg h2]
      have h3 : fit x ≠ fit b := fun e => hb (e ▸ atLeast_refl _)
      rw [if_neg h3, ih _ o hrest]
      simp [h2]

/-- What one update does to a front. -/
theorem updateOne_spec (hd : ∀ a, (fit a).length = d) {hof : List α} (hanti : Incomparable fit hof) (x : α) :
    Incomparable fit (updateOne fit hof x) ∧ (∀ b ∈ updateOne fit hof x, b ∈ hof ∨ b = x) ∧
      NoneBetter fit (updateOne fit hof x) (hof ++ [x]) := by
  by_cases h : ∃ b ∈ hof, AtLeast (fit b) (fit x)
  · have he : updateOne fit hof x = hof := by
      unfold updateOne
      rw [compareAll_covered hd x hof [] hanti h]
      simp
    rw [he]
    refine ⟨hanti, fun b hb => .inl hb, ?_⟩
    intro a ha
    rcases List.mem_append.1 ha with ha | ha
    · exact ⟨a, ha, atLeast_refl _⟩
    · rw [List.mem_singleton] at ha
      subst ha
      exact h
  · have h' : ∀ b ∈ hof, ¬ AtLeast (fit b) (fit x) := fun b hb hc => h ⟨b, hb, hc⟩
    have he : updateOne fit hof x = insert fit x (hof.filter fun b => !dominates (fit x) (fit b)) := by
      unfold updateOne
      rw [compareAll_new hd x hof [] false h']
      simp
    have hp : (updateOne fit hof x).Perm (x :: hof.filter fun b => !dominates (fit x) (fit b)) := by
      rw [he]; exact List.perm_orderedInsert _ _ _
    refine ⟨?_, ?_, ?_⟩
    · unfold Incomparable
      rw [hp.pairwise_iff (fun {a b} h => h.symm), List.pairwise_cons]
      refine ⟨?_, hanti.filter _⟩
      intro b hb
      rw [List.mem_filter] at hb
      refine ⟨fun hc => ?_, h' b hb.1⟩
      have : dominates (fit x) (fit b) = true := (dominates_iff ((hd _).trans (hd _).symm)).2
        ⟨hc, fun e => h' b hb.1 (e ▸ atLeast_refl _)⟩
      simp [this] at hb
    · intro b hb
      rcases List.mem_cons.1 (hp.mem_iff.1 hb) with rfl | hb
      · exact .inr rfl
      · exact .inl (List.mem_filter.1 hb).1
    · intro a ha
      rcases List.mem_append.1 ha with ha | ha
      · by_cases hda : dominates (fit x) (fit a) = true
        · exact ⟨x, hp.mem_iff.2 (by simp), ((dominates_iff ((hd _).trans (hd _).symm)).1 hda).1⟩
        · exact ⟨a, hp.mem_iff.2 (List.mem_cons_of_mem _ (List.mem_filter.2 ⟨ha, by simpa using hda⟩)), atLeast_refl _⟩
      · rw [List.mem_singleton] at ha
        subst ha
        exact ⟨a, hp.mem_iff.2 (by simp), atLeast_refl _⟩

theorem NoneBetter.trans {f g pool : List α} (h1 : NoneBetter fit f g) (h2 : NoneBetter fit g pool) : NoneBetter fit f pool := by
  intro a ha
  obtain ⟨b, hb, hba⟩ := h2 a ha
  obtain ⟨c, hc, hcb⟩ := h1 b hb
  exact ⟨c, hc, atLeast_trans hcb hba⟩

theorem update_spec (hd : ∀ a, (fit a).length = d) (pop : List α) {hof : List α} (hanti : Incomparable fit hof) :
    Incomparable fit (update fit hof pop) ∧ (∀ b ∈ update fit hof pop, b ∈ hof ∨ b ∈ pop) ∧
      NoneBetter fit (update fit hof pop) (hof ++ pop) := by
  induction pop generalizing hof with
  | nil =>
    refine ⟨hanti, fun b hb => .inl hb, fun a ha => ⟨a, by rw [List.append_nil] at ha; exact ha, atLeast_refl _⟩⟩
  | cons x pop ih =>
    obtain ⟨a1, a2, a3⟩ := updateOne_spec hd hanti x
    obtain ⟨b1, b2, b3⟩ := ih a1
    have : update fit hof (x :: pop) = update fit (updateOne fit hof x) pop := rfl
    rw [this]
    refine ⟨b1, ?_, ?_⟩
    · intro b hb
      rcases b2 b hb with h | h
      · rcases a2 b h with h | rfl
        · exact .inl h
        · exact .inr (by simp)
      · exact .inr (by simp [h])
    · intro a ha
      have h1 : NoneBetter fit (update fit (updateOne fit hof x) pop) (hof ++ [x]) :=
        NoneBetter.trans (fun c hc => b3 c (by simp [hc])) a3
      rcases List.mem_append.1 ha with h | h
      · exact h1 a (by simp [h])
      · rcases List.mem_cons.1 h with rfl | h
        · exact h1 a (by simp)
        · exact b3 a (by simp [h])

theorem lexLe_total (u v : List Int) : lexLe u v = true ∨ lexLe v u = true := by
  induction u generalizing v with
  | nil => simp [lexLe]
  | cons x u ih =>
    cases v with
    | nil => simp [lexLe]
    | cons y v =>
      simp only [lexLe]
      by_cases h : x < y
      · simp [h]
      · by_cases h' : y < x
        · simp [h, h']
        · simp only [h, h', if_false]; exact ih v

theorem lexLe_trans {u v w : List Int} (h1 : lexLe u v = true) (h2 : lexLe v w = true) : lexLe u w = true := by
  induction u generalizing v w with
  | nil => simp [lexLe]
  | cons x u ih =>
    cases v with
    | nil => simp [lexLe] at h1
    | cons y v =>
      cases w with
      | nil => simp [lexLe] at h2
      | cons z w =>
        simp only [lexLe] at h1 h2 ⊢
        by_cases a1 : x < y
        · by_cases a2 : y < z
          · simp [show x < z by omega]
          · by_cases a3 : z < y
            · simp [a2, a3] at h2
            · simp [show x < z by omega]
        · by_cases a2 : y < x
          · simp [a1, a2] at h1
          · have : x = y := by omega
            subst this
            simp only [lt_irrefl, if_false] at h1
            by_cases a3 : x < z
            · simp [a3]
            · by_cases a4 : z < x
              · simp [a3, a4] at h2
              · simp only [a3, a4, if_false] at h2 ⊢
                exact ih h1 h2

/-- Selection keeps one of the best individuals. -/
theorem select_best (fit : α → List Int) {k : Nat} (hk : 0 < k) {pop : List α} (hp : pop ≠ []) :
    ∃ b ∈ select fit k pop, ∀ a ∈ pop, lexLe (fit a) (fit b) = true := by
  have ht : Std.Total (fun a b : α => lexLe (fit b) (fit a) = true) := ⟨fun a b => lexLe_total _ _⟩
  have htr : IsTrans α (fun a b : α => lexLe (fit b) (fit a) = true) := ⟨fun a b c h1 h2 => lexLe_trans h2 h1⟩
  have hs := List.pairwise_insertionSort (fun a b : α => lexLe (fit b) (fit a) = true) pop
  have hperm := List.perm_insertionSort (fun a b : α => lexLe (fit b) (fit a) = true) pop
  unfold select
  cases he : pop.insertionSort (fun a b : α => lexLe (fit b) (fit a) = true) with
  | nil => rw [he] at hperm; exact absurd hperm.symm.eq_nil hp
  | cons b rest =>
    rw [he] at hs hperm
    obtain ⟨k, rfl⟩ : ∃ j, k = j + 1 := ⟨k - 1, by omega⟩
    refine ⟨b, by simp, ?_⟩
    intro a ha
    rcases List.mem_cons.1 (hperm.mem_iff.2 ha) with rfl | h
    · rcases lexLe_total (fit a) (fit a) with h | h <;> exact h
    · exact (List.pairwise_cons.1 hs).1 a h

theorem select_subset (fit : α → List Int) (k : Nat) (pop : List α) : ∀ a ∈ select fit k pop, a ∈ pop := fun _ ha =>
  (List.perm_insertionSort _ pop).mem_iff.1 (List.mem_of_mem_take ha)

/-- A run of a loop keeps what its generations keep. -/
theorem loop_inv {sel : List α → List α} {env : Env α} {keep : α → Bool} {stop : State α → Bool} {maxPlateau : Nat}
    (P : State α → Prop) (hstep : ∀ s, P s → P (generationStep fit sel env keep s))
    (hgen : ∀ s g, P s → P { s with generation := g }) (left : Nat) (s : State α) (h : P s) :
    P (loop fit sel env keep stop maxPlateau left s) := by
  induction left generalizing s with
  | zero => exact h
  | succ left ih =>
    unfold loop
    by_cases hc : s.plateau < maxPlateau ∧ env.inTime s.generation = true
    · rw [if_pos hc]
      simp only
      by_cases hst : stop (generationStep fit sel env keep s) = true
      · rw [if_pos hst]; exact hgen _ _ (hstep _ h)
      · rw [if_neg hst]; exact ih _ (hstep _ h)
    · rw [if_neg hc]; exact h

/-- What holds in all states for every selection: members of the hall of fame were evaluated and are incomparable, nobody in
`base` is better. -/
structure Elite (fit : α → List Int) (base : List α) (s : State α) : Prop where
  pop : ∀ a ∈ s.pop, a ∈ s.seen
  found : ∀ h ∈ s.hof, h ∈ s.seen
  incomparable : Incomparable fit s.hof
  none_better : NoneBetter fit s.hof base

theorem elite_step (hd : ∀ a, (fit a).length = d) {sel : List α → List α} (hsel : ∀ l, ∀ a ∈ sel l, a ∈ l) {env : Env α}
    (hsh : ∀ g l, (env.shuffle g l).Perm l) {keep : α → Bool} {base : List α} {s : State α} (h : Elite fit base s) :
    Elite fit base (generationStep fit sel env keep s) := by
  obtain ⟨u1, u2, u3⟩ := update_spec hd
    (sel (env.shuffle s.generation s.pop ++ (env.offspring s.generation (env.shuffle s.generation s.pop)).filter keep))
    h.incomparable
  have hpop : ∀ a ∈ sel (env.shuffle s.generation s.pop ++
      (env.offspring s.generation (env.shuffle s.generation s.pop)).filter keep),
      a ∈ s.seen ++ (env.offspring s.generation (env.shuffle s.generation s.pop)).filter keep := by
    intro a ha
    rcases List.mem_append.1 (hsel _ a ha) with h' | h'
    · exact List.mem_append_left _ (h.pop a ((hsh _ _).mem_iff.1 h'))
    · exact List.mem_append_right _ h'
  refine ⟨hpop, ?_, u1, ?_⟩
  · intro b hb
    rcases u2 b hb with h' | h'
    · exact List.mem_append_left _ (h.found b h')
    · exact hpop b h'
  · exact NoneBetter.trans (fun c hc => u3 c (by simp [hc])) h.none_better

theorem elite_start (hd : ∀ a, (fit a).length = d) (pop : List α) (g : Nat) : Elite fit pop (start fit pop g) := by
  obtain ⟨u1, u2, u3⟩ := update_spec hd pop (hof := []) (by simp [Incomparable])
  exact ⟨fun a ha => ha, fun h hh => (u2 h hh).resolve_left (by simp), u1, fun a ha => u3 a (by simpa using ha)⟩

theorem update_ne_nil (hd : ∀ a, (fit a).length = d) {pop : List α} (h : pop ≠ []) : update fit [] pop ≠ [] := by
  obtain ⟨x, hx⟩ := List.exists_mem_of_ne_nil pop h
  obtain ⟨b, hb, _⟩ := (elite_start hd pop 0).none_better x hx
  exact List.ne_nil_of_mem hb

/-! ### One objective -/

variable {f : α → Int}

theorem lexLe_single (a b : α) : lexLe [f a] [f b] = true ↔ f a ≤ f b := by
  simp only [lexLe]
  split
  · simp; omega
  · split
    · simp; omega
    · simp; omega

theorem atLeast_single (a b : α) : AtLeast [f a] [f b] ↔ f b ≤ f a := by simp [AtLeast]

/-- With one objective there is at most one best. -/
theorem single_front {hof : List α} (h : Incomparable (fun a => [f a]) hof) : hof.length ≤ 1 := by
  match hof, h with
  | [], _ => simp
  | [_], _ => simp
  | a :: b :: rest, h =>
    unfold Incomparable at h
    rw [List.pairwise_cons] at h
    have := h.1 b (by simp)
    rw [atLeast_single, atLeast_single] at this
    omega

/-- Selection with one objective keeps the best of all evaluated individuals in the population and in the hall of fame. -/
structure Top (f : α → Int) (s : State α) : Prop where
  elite : Elite (fun a => [f a]) s.seen s
  top : ∃ b ∈ s.pop, ∀ a ∈ s.seen, f a ≤ f b

theorem top_step {k : Nat} (hk : 0 < k) {env : Env α} (hsh : ∀ g l, (env.shuffle g l).Perm l) {keep : α → Bool} {s : State α}
    (h : Top f s) : Top f (generationStep (fun a => [f a]) (select (fun a => [f a]) k) env keep s) := by
  have hd : ∀ a : α, ((fun a => [f a]) a).length = 1 := fun _ => rfl
  have he := elite_step hd (select_subset (fun a => [f a]) k) hsh (keep := keep) h.elite
  obtain ⟨u1, u2, u3⟩ := update_spec hd (select (fun a => [f a]) k
    (env.shuffle s.generation s.pop ++ (env.offspring s.generation (env.shuffle s.generation s.pop)).filter keep))
    h.elite.incomparable
  obtain ⟨b0, hb0, hb0'⟩ := h.top
  have hne : env.shuffle s.generation s.pop ++ (env.offspring s.generation (env.shuffle s.generation s.pop)).filter keep ≠ [] :=
    List.ne_nil_of_mem (List.mem_append_left _ ((hsh _ _).mem_iff.2 hb0))
  obtain ⟨b, hb, hbest⟩ := select_best (fun a => [f a]) hk hne
  have hbest' : ∀ a ∈ s.seen ++ (env.offspring s.generation (env.shuffle s.generation s.pop)).filter keep, f a ≤ f b := by
    intro a ha
    rcases List.mem_append.1 ha with ha | ha
    · exact le_trans (hb0' a ha) ((lexLe_single b0 b).1 (hbest b0 (List.mem_append_left _ ((hsh _ _).mem_iff.2 hb0))))
    · exact (lexLe_single a b).1 (hbest a (List.mem_append_right _ ha))
  refine ⟨⟨he.pop, he.found, he.incomparable, ?_⟩, b, hb, hbest'⟩
  intro a ha
  obtain ⟨c, hc, hcb⟩ := u3 b (List.mem_append_right _ hb)
  exact ⟨c, hc, atLeast_trans hcb ((atLeast_single b a).2 (hbest' a ha))⟩

theorem top_start {pop : List α} (h : pop ≠ []) (g : Nat) : Top f (start (fun a => [f a]) pop g) := by
  refine ⟨elite_start (d := 1) (fun _ => rfl) pop g, ?_⟩
  obtain ⟨b, hb, hb'⟩ := select_best (fun a => [f a]) Nat.one_pos h
  exact ⟨b, select_subset _ _ _ b hb, fun a ha => (lexLe_single a b).1 (hb' a ha)⟩

end Sampo.GeneticLoop
