import Verif.Spec.Hybrid
import Mathlib.Data.List.MinMax
import Mathlib.Tactic.Linarith

/-! Lemmas about the hybrid scheduler. -/

namespace Sampo.Hybrid

variable {C : Type} {f : C → Int}

theorem lex_single (a b : Int) : ([a] : List Int) ≤ [b] ↔ a ≤ b := by
  rw [← not_lt, ← not_lt]
  simp [List.cons_lt_cons_iff]

theorem bestFitness_some {pop : List C} {v : List Int} (h : bestFitness (fun c => [f c]) pop = some v) :
    ∃ b, Best f pop b ∧ v = [f b] := by
  unfold bestFitness at h
  rw [List.min?_eq_some_iff] at h
  obtain ⟨h1, h2⟩ := h
  obtain ⟨b, hb, rfl⟩ := List.mem_map.mp h1
  exact ⟨b, ⟨hb, fun a ha => (lex_single _ _).mp (h2 _ (List.mem_map.mpr ⟨a, ha, rfl⟩))⟩, rfl⟩

theorem bestFitness_of_ne {pop : List C} (h : pop ≠ []) : ∃ b, Best f pop b ∧ bestFitness (fun c => [f c]) pop = some [f b] := by
  cases hb : bestFitness (fun c => [f c]) pop with
  | none =>
    unfold bestFitness at hb
    rw [List.min?_eq_none_iff, List.map_eq_nil_iff] at hb
    exact absurd hb h
  | some v =>
    obtain ⟨b, h1, rfl⟩ := bestFitness_some hb
    exact ⟨b, h1, rfl⟩

theorem bestIndividual_spec {pop : List C} (h : pop ≠ []) : ∃ b, Best f pop b ∧ bestIndividual (fun c => [f c]) pop = some b := by
  have hfl : (pop.map fun c => [f c]).flatten = pop.map f := by
    induction pop with
    | nil => rfl
    | cons a pop ih =>
      rw [List.map_cons, List.flatten_cons, List.map_cons]
      by_cases hp : pop = []
      · subst hp; rfl
      · rw [ih hp]; rfl
  unfold bestIndividual argminFlat
  rw [hfl]
  cases hm : (pop.map f).min? with
  | none => rw [List.min?_eq_none_iff, List.map_eq_nil_iff] at hm; exact absurd hm h
  | some m =>
    have hm' := hm
    rw [List.min?_eq_some_iff] at hm'
    obtain ⟨h1, h2⟩ := hm'
    have hi := List.idxOf_lt_length_iff.mpr h1
    have hi' : (pop.map f).idxOf m < pop.length := by simpa using hi
    refine ⟨pop[(pop.map f).idxOf m], ⟨List.getElem_mem _, ?_⟩, ?_⟩
    · intro a ha
      have h3 : f pop[(pop.map f).idxOf m] = m := by
        rw [← List.getElem_map f (h := hi), List.getElem_idxOf]
      rw [h3]
      exact h2 _ (List.mem_map.mpr ⟨a, ha, rfl⟩)
    · simp only [Option.map_some, Option.bind_some]
      rw [List.getElem?_eq_getElem hi']

theorem Best.eq {pop : List C} {a b : C} (ha : Best f pop a) (hb : Best f pop b) : f a = f b :=
  le_antisymm (ha.2 b hb.1) (hb.2 a ha.1)

theorem step_nil (round : Nat) (pop : List C) : step [] round pop = some pop := rfl

theorem step_cons (s : Pop C) (cycle : List (Pop C)) (round : Nat) (pop : List C) :
    step (s :: cycle) round pop = (s round pop).bind (step cycle round) := rfl

/-- What a successful round means. -/
theorem step_some {round : Nat} : ∀ {cycle : List (Pop C)} {pop pop' : List C}, step cycle round pop = some pop' →
    ∃ mid : Nat → List C, mid 0 = pop ∧ mid cycle.length = pop' ∧
      ∀ i (h : i < cycle.length), cycle[i] round (mid i) = some (mid (i + 1)) := by
  intro cycle
  induction cycle with
  | nil =>
    intro pop pop' h
    rw [step_nil, Option.some.injEq] at h
    exact ⟨fun _ => pop, rfl, h, fun i h => absurd h (Nat.not_lt_zero i)⟩
  | cons s cycle ih =>
    intro pop pop' h
    rw [step_cons, Option.bind_eq_some_iff] at h
    obtain ⟨p, hp, h⟩ := h
    obtain ⟨mid, h0, hl, hi⟩ := ih h
    refine ⟨fun i => if i = 0 then pop else mid (i - 1), by simp, by simpa using hl, ?_⟩
    intro i hlt
    cases i with
    | zero => simpa [h0] using hp
    | succ i => simpa using hi i (by simpa using hlt)

theorem step_keeps {round : Nat} : ∀ {cycle : List (Pop C)} {pop : List C}, (∀ s ∈ cycle, Keeps f s) → pop ≠ [] →
    ∃ pop', step cycle round pop = some pop' ∧ pop' ≠ [] ∧ ∀ a ∈ pop, ∃ b ∈ pop', f b ≤ f a := by
  intro cycle
  induction cycle with
  | nil => intro pop _ hne; exact ⟨pop, rfl, hne, fun a ha => ⟨a, ha, le_refl _⟩⟩
  | cons s cycle ih =>
    intro pop hk hne
    obtain ⟨p, hp, hpk⟩ := hk s (by simp) round pop hne
    obtain ⟨x, hx⟩ := List.exists_mem_of_ne_nil _ hne
    obtain ⟨y, hy, -⟩ := hpk x hx
    obtain ⟨p', hp', hne', hk'⟩ := ih (fun t ht => hk t (List.mem_cons_of_mem _ ht)) (List.ne_nil_of_mem hy)
    refine ⟨p', by rw [step_cons, hp]; exact hp', hne', ?_⟩
    intro a ha
    obtain ⟨b, hb, hle⟩ := hpk a ha
    obtain ⟨c, hc, hle'⟩ := hk' b hb
    exact ⟨c, hc, le_trans hle' hle⟩

/-- One round more. -/
theorem Rounds.snoc {cycle : List (Pop C)} {first : List C} {n : Nat} {pops : Nat → List C} (h : Rounds cycle first n pops)
    {pop' : List C} (hs : step cycle n (pops n) = some pop') :
    ∃ pops', Rounds cycle first (n + 1) pops' ∧ (∀ m ≤ n, pops' m = pops m) ∧ pops' (n + 1) = pop' := by
  refine ⟨fun m => if m ≤ n then pops m else pop', ⟨by simpa using h.1, ?_⟩, ?_, ?_⟩
  · intro m hm
    dsimp only
    rw [if_pos (by omega)]
    by_cases hmn : m = n
    · subst hmn
      rw [if_neg (by omega)]
      exact step_some hs
    · rw [if_pos (by omega)]
      exact h.2 m (by omega)
  · intro m hm; dsimp only; rw [if_pos hm]
  · dsimp only; rw [if_neg (by omega)]

/-- The rounds seen so far, and the plateau at their end. -/
structure Plateau (f : C → Int) (cycle : List (Pop C)) (first : List C) (n : Nat) (cur : Option (List Int)) (plateau : Nat)
    (pops : Nat → List C) : Prop where
  rounds : Rounds cycle first n pops
  none_iff : cur = none → n = 0 ∧ plateau = 0
  same : ∀ v, cur = some v → plateau < n ∧ ∀ j ≤ plateau, ∃ b, Best f (pops (n - 1 - j)) b ∧ v = [f b]

theorem plateau_step {cycle : List (Pop C)} {first : List C} {n plateau : Nat} {cur : Option (List Int)} {pops : Nat → List C}
    (h : Plateau f cycle first n cur plateau pops) {v : List Int} (hv : bestFitness (fun c => [f c]) (pops n) = some v)
    {pop' : List C} (hs : step cycle n (pops n) = some pop') :
    ∃ pops', Plateau f cycle first (n + 1) (some v) (if cur = some v then plateau + 1 else 0) pops' ∧ pops' (n + 1) = pop' ∧
      ∀ m ≤ n, pops' m = pops m := by
  obtain ⟨pops', hr, heq, hlast⟩ := h.rounds.snoc hs
  obtain ⟨b, hb, hvb⟩ := bestFitness_some hv
  refine ⟨pops', ⟨hr, fun h => by simp at h, ?_⟩, hlast, heq⟩
  intro w hw
  simp only [Option.some.injEq] at hw
  subst hw
  by_cases hc : cur = some v
  · rw [if_pos hc]
    obtain ⟨hlt, hj⟩ := h.same v hc
    refine ⟨by omega, ?_⟩
    intro j hjle
    cases j with
    | zero => exact ⟨b, by rw [heq _ (by omega)]; exact hb, hvb⟩
    | succ j =>
      obtain ⟨c, hc1, hc2⟩ := hj j (by omega)
      have : n + 1 - 1 - (j + 1) = n - 1 - j := by omega
      exact ⟨c, by rw [this, heq _ (by omega)]; exact hc1, hc2⟩
  · rw [if_neg hc]
    refine ⟨by omega, ?_⟩
    intro j hjle
    have : j = 0 := by omega
    subst this
    exact ⟨b, by rw [heq _ (by omega)]; exact hb, hvb⟩

/-- What a result of the loop means. -/
theorem loop_result {cycle : List (Pop C)} {first : List C} {maxPlateau : Nat} : ∀ (fuel n : Nat) (cur : Option (List Int))
    (plateau : Nat) (pops : Nat → List C) {c : C}, Plateau f cycle first n cur plateau pops →
    loop (fun c => [f c]) cycle maxPlateau fuel n cur plateau (pops n) = some (some c) →
    ∃ n' pops', n ≤ n' ∧ Rounds cycle first n' pops' ∧ Best f (pops' n') c ∧ maxPlateau ≤ n' ∧
      ∀ j ≤ maxPlateau, ∃ b, Best f (pops' (n' - j)) b ∧ f b = f c := by
  intro fuel
  induction fuel with
  | zero => intro n cur plateau pops c _ h; simp [loop] at h
  | succ fuel ih =>
    intro n cur plateau pops c hp h
    unfold loop at h
    cases hv : bestFitness (fun c => [f c]) (pops n) with
    | none => rw [hv] at h; simp at h
    | some v =>
      rw [hv] at h
      dsimp only at h
      by_cases hend : cur = some v ∧ (if cur = some v then plateau + 1 else 0) = maxPlateau
      · rw [if_pos hend] at h
        obtain ⟨hcur, hpl⟩ := hend
        rw [if_pos hcur] at hpl
        simp only [Option.some.injEq] at h
        have hne : pops n ≠ [] := by
          intro h0
          rw [h0] at hv
          simp [bestFitness] at hv
        obtain ⟨b, hb, hbi⟩ := bestIndividual_spec (f := f) hne
        rw [hbi, Option.some.injEq] at h
        subst h
        obtain ⟨b', hb', hvb'⟩ := bestFitness_some hv
        have hbb : f b' = f b := Best.eq hb' hb
        obtain ⟨hlt, hj⟩ := hp.same v hcur
        refine ⟨n, pops, le_refl _, hp.rounds, hb, by omega, ?_⟩
        intro j hjle
        cases j with
        | zero => exact ⟨b, hb, rfl⟩
        | succ j =>
          obtain ⟨c', hc1, hc2⟩ := hj j (by omega)
          have hn : n - (j + 1) = n - 1 - j := by omega
          refine ⟨c', by rw [hn]; exact hc1, ?_⟩
          have : [f c'] = [f b'] := hc2.symm.trans hvb'
          simp only [List.cons.injEq, and_true] at this
          omega
      · rw [if_neg hend] at h
        cases hs : step cycle n (pops n) with
        | none => rw [hs] at h; simp at h
        | some pop' =>
          rw [hs] at h
          obtain ⟨pops', hp', hlast, -⟩ := plateau_step hp hv hs
          dsimp only at h
          rw [← hlast] at h
          obtain ⟨n', p, hle, rest⟩ := ih (n + 1) _ _ pops' hp' h
          exact ⟨n', p, by omega, rest⟩

/-- The loop ends if no scheduler makes the best worse. -/
theorem loop_ends {cycle : List (Pop C)} (hk : ∀ s ∈ cycle, Keeps f s) {maxPlateau : Nat} (hm : 0 < maxPlateau) {low : Int}
    (hlow : ∀ c, low ≤ f c) : ∀ (fuel n plateau : Nat) (cur : Int) (pop : List C), pop ≠ [] → (∃ a ∈ pop, f a ≤ cur) → low ≤ cur →
    plateau < maxPlateau → (cur - low).toNat * maxPlateau + (maxPlateau - plateau) ≤ fuel →
    ∃ c, loop (fun c => [f c]) cycle maxPlateau fuel n (some [cur]) plateau pop = some (some c) := by
  intro fuel
  induction fuel with
  | zero => intro n plateau cur pop _ _ _ hp hf; omega
  | succ fuel ih =>
    intro n plateau cur pop hne hex hc hp hf
    obtain ⟨b, hb, hbf⟩ := bestFitness_of_ne (f := f) hne
    obtain ⟨a, ha, hac⟩ := hex
    have hble : f b ≤ cur := le_trans (hb.2 a ha) hac
    obtain ⟨pop', hs, hne', hk'⟩ := step_keeps (round := n) hk hne
    unfold loop
    rw [hbf]
    dsimp only
    by_cases heq : f b = cur
    · rw [show (if (some [cur] : Option (List Int)) = some [f b] then plateau + 1 else 0) = plateau + 1 from if_pos (by rw [heq])]
      by_cases hlast : plateau + 1 = maxPlateau
      · rw [if_pos ⟨by rw [heq], hlast⟩]
        obtain ⟨c, -, hc⟩ := bestIndividual_spec (f := f) hne
        exact ⟨c, by rw [hc]⟩
      · rw [if_neg (fun h => hlast h.2), hs]
        dsimp only
        rw [heq]
        obtain ⟨d, hd, hdb⟩ := hk' b hb.1
        exact ih (n + 1) (plateau + 1) cur pop' hne' ⟨d, hd, by omega⟩ hc (by omega) (by omega)
    · have hn : ¬ (some [cur] : Option (List Int)) = some [f b] := by
        intro h
        simp only [Option.some.injEq, List.cons.injEq, and_true] at h
        exact heq h.symm
      rw [if_neg (fun h => hn h.1), hs]
      dsimp only
      rw [if_neg hn]
      obtain ⟨d, hd, hdb⟩ := hk' b hb.1
      refine ih (n + 1) 0 (f b) pop' hne' ⟨d, hd, hdb⟩ (hlow b) hm ?_
      have h1 : (f b - low).toNat + 1 ≤ (cur - low).toNat := by
        have := hlow b
        omega
      have h2 := Nat.mul_le_mul_right maxPlateau h1
      rw [Nat.add_mul] at h2
      omega

end Sampo.Hybrid
