import Verif.Spec.GeneticSite
import Verif.Lemmas.GeneticStart
import Verif.Lemmas.GeneticLoop

/-! Generations of the genetic scheduler keep chromosomes valid. -/

namespace Sampo.GeneticRun

open Genetic
open GeneticRes (Chrom groupMax mutateBorders mutateValues Picks mem_arange)

theorem Good.optimize {P : Problem} {o : Bool} {i : Ind} (h : Good P o i) : Good P true i := ⟨h.valid, h.nonneg, .inl rfl⟩

theorem raise_border (l : List Nat) (ch : Chrom) (b1 b2 : Nat → Nat → Int) (c k : Nat) :
    (GeneticRes.raiseBorders l ch b1 b2).border c k = ch.border c k ∨ (GeneticRes.raiseBorders l ch b1 b2).border c k = b1 c k ∨
      (GeneticRes.raiseBorders l ch b1 b2).border c k = b2 c k := by
  simp only [GeneticRes.raiseBorders]
  split <;> omega

theorem mateInd_border {P : Problem} {optimize : Bool} {d : MateDraw} {a b c1 c2 : Ind}
    (h : mateInd P optimize d a b = some (c1, c2)) (c k : Nat) :
    (c1.res.border c k = a.res.border c k ∨ c1.res.border c k = b.res.border c k) ∧
    (c2.res.border c k = a.res.border c k ∨ c2.res.border c k = b.res.border c k) := by
  unfold mateInd at h
  simp only [Option.map_eq_some_iff, Prod.mk.injEq] at h
  obtain ⟨o, -, rfl, rfl⟩ := h
  unfold GeneticRes.mate
  cases optimize with
  | false => simp [GeneticRes.takeRows]
  | true =>
    simp only [if_true]
    have h1 := raise_border d.positions (GeneticRes.takeRows d.positions a.res b.res) a.res.border b.res.border c k
    have h2 := raise_border d.positions (GeneticRes.takeRows d.positions b.res a.res)
      (GeneticRes.raiseBorders d.positions (GeneticRes.takeRows d.positions a.res b.res) a.res.border b.res.border).border b.res.border c k
    have e1 : (GeneticRes.takeRows d.positions a.res b.res).border = a.res.border := rfl
    have e2 : (GeneticRes.takeRows d.positions b.res a.res).border = b.res.border := rfl
    rw [e1, e2]
    rw [e1] at h1
    rw [e2] at h2
    omega

theorem mutateBorders_nonneg {n m : Nat} {cap : Nat → Nat → Int} {masks : Nat → Nat → Bool} {pick : Nat → Nat → List Int → Int}
    (hp : Picks pick) {ch ch' : Chrom} (h : mutateBorders n m cap masks pick ch = some ch') (hg : ∀ w < n, ∀ k < m, 0 ≤ ch.amount w k)
    {c k : Nat} (hk : k < m) (hb : 0 ≤ ch.border c k) : 0 ≤ ch'.border c k := by
  unfold mutateBorders mutateValues at h
  simp only [Option.map_eq_some_iff] at h
  obtain ⟨border, h, rfl⟩ := h
  split at h
  · rename_i hall
    simp only [Option.some.injEq] at h
    subst h
    dsimp only
    split
    · rename_i hc
      rw [List.all_eq_true] at hall
      have h1 := hall c hc.1
      rw [List.all_eq_true] at h1
      have h2 := h1 k hc.2.1
      rw [hc.2.2] at h2
      simp only [Bool.not_true, Bool.false_or, decide_eq_true_eq] at h2
      have hm := hp c k _ h2
      generalize pick c k (GeneticRes.choices (groupMax n ch c k) (ch.border c k) (cap c k)) = x at hm ⊢
      unfold GeneticRes.choices at hm
      rw [List.mem_append, mem_arange, mem_arange] at hm
      obtain ⟨w, hw, hwc⟩ := List.mem_map.1 hc.1
      rw [List.mem_range] at hw
      have h3 := hg w hw k hk
      have h4 := GeneticRes.le_groupMax n ch k w hw
      rw [hwc] at h4
      omega
    · exact hb
  · cases h

theorem mutateInd_border {P : Problem} {optimize : Bool} {d : MutDraw} (hd : C55.Possible P d) {i c : Ind}
    (h : mutateInd P optimize d i = some c) (hlo : ∀ w < P.n, ∀ k < P.m, 0 ≤ P.lo w k) (hg : Good P optimize i) :
    (∀ x < P.nc, ∀ k < P.m, 0 ≤ c.res.border x k) ∧ (optimize = false → c.res.border = i.res.border) := by
  unfold mutateInd at h
  simp only [Option.bind_eq_some_iff, Option.map_eq_some_iff] at h
  obtain ⟨r, hr, o, -, r', hr', rfl⟩ := h
  dsimp only
  have hrr : r'.border = r.border := by
    unfold GeneticRes.mutate at hr'
    simp only [Option.map_eq_some_iff] at hr'
    obtain ⟨a, _, rfl⟩ := hr'
    simp only
    by_cases hnc : 1 < P.nc
    · rw [if_pos hnc]; rfl
    · rw [if_neg hnc]
  rw [hrr]
  cases optimize with
  | false =>
    simp only [Bool.false_eq_true, if_false, Option.some.injEq] at hr
    subst hr
    exact ⟨hg.nonneg, fun _ => rfl⟩
  | true =>
    simp only [if_true] at hr
    refine ⟨fun x hx k hk => mutateBorders_nonneg hd.borderPick hr (fun w hw k hk => ?_) hk (hg.nonneg x hx k hk), by simp⟩
    exact Int.le_trans (hlo w hw k hk) (hg.valid.resources.low w hw k hk)

theorem mateAll_good {P : Problem} (hP : C55.WellFormed P) {optimize : Bool} {dm : Nat → MateDraw} (hd : ∀ j, Draws (dm j).order) :
    ∀ (n : Nat) (pop : List Ind), pop.length ≤ n → (∀ i ∈ pop, Good P optimize i) → ∀ j, ∃ off,
      mateAll P optimize dm j pop = some off ∧ ∀ i ∈ off, Good P optimize i := by
  intro n
  induction n with
  | zero =>
    intro pop hl _ j
    rw [List.length_eq_zero_iff.1 (Nat.le_zero.1 hl)]
    exact ⟨[], rfl, by simp⟩
  | succ n ih =>
    intro pop hl hpop j
    match pop with
    | [] => exact ⟨[], rfl, by simp⟩
    | [_] => exact ⟨[], rfl, by simp⟩
    | a :: b :: rest =>
      have ha := hpop a (by simp)
      have hb := hpop b (by simp)
      obtain ⟨c1, c2, hc, v1, v2⟩ := C55.mating_valid P hP optimize (dm j) (hd j) a b ha.valid hb.valid (by
        rcases ha.border with h | h
        · exact .inl h
        · rcases hb.border with h' | h'
          · exact .inl h'
          · exact .inr fun c hc k hk => by rw [h c hc k hk, h' c hc k hk])
      have hbd := fun c k => mateInd_border hc c k
      obtain ⟨off, ho, hg⟩ := ih rest (by simp at hl; omega) (fun i hi => hpop i (by simp [hi])) (j + 1)
      refine ⟨c1 :: c2 :: off, ?_, ?_⟩
      · simp only [mateAll, hc, Option.bind_some, ho, Option.map_some]
      · have g1 : Good P optimize c1 := by
          refine ⟨v1, fun c hc' k hk => ?_, ?_⟩
          · rcases (hbd c k).1 with e | e <;> rw [e]
            · exact ha.nonneg c hc' k hk
            · exact hb.nonneg c hc' k hk
          · rcases ha.border with h | h
            · exact .inl h
            · rcases hb.border with h' | h'
              · exact .inl h'
              · refine .inr fun c hc' k hk => ?_
                rcases (hbd c k).1 with e | e <;> rw [e]
                · exact h c hc' k hk
                · exact h' c hc' k hk
        have g2 : Good P optimize c2 := by
          refine ⟨v2, fun c hc' k hk => ?_, ?_⟩
          · rcases (hbd c k).2 with e | e <;> rw [e]
            · exact ha.nonneg c hc' k hk
            · exact hb.nonneg c hc' k hk
          · rcases ha.border with h | h
            · exact .inl h
            · rcases hb.border with h' | h'
              · exact .inl h'
              · refine .inr fun c hc' k hk => ?_
                rcases (hbd c k).2 with e | e <;> rw [e]
                · exact h c hc' k hk
                · exact h' c hc' k hk
        intro i hi
        rcases List.mem_cons.1 hi with rfl | hi
        · exact g1
        · rcases List.mem_cons.1 hi with rfl | hi
          · exact g2
          · exact hg i hi

theorem mutateAll_good {P : Problem} (hP : C55.WellFormed P) (hlo : ∀ w < P.n, ∀ k < P.m, 0 ≤ P.lo w k) {optimize : Bool}
    {du : Nat → MutDraw} (hd : ∀ j, C55.Possible P (du j)) :
    ∀ (pop : List Ind), (∀ i ∈ pop, Good P optimize i) → ∀ j, ∃ off, mutateAll P optimize du j pop = some off ∧
      ∀ i ∈ off, Good P optimize i := by
  intro pop
  induction pop with
  | nil => exact fun _ _ => ⟨[], rfl, by simp⟩
  | cons a rest ih =>
    intro hpop j
    have ha := hpop a (by simp)
    obtain ⟨c, hc, hv⟩ := C55.mutation_valid P hP optimize (du j) (hd j) a ha.valid
    obtain ⟨hn, hb⟩ := mutateInd_border (hd j) hc hlo ha
    obtain ⟨off, ho, hg⟩ := ih (fun i hi => hpop i (by simp [hi])) (j + 1)
    refine ⟨c :: off, ?_, ?_⟩
    · simp only [mutateAll, hc, Option.bind_some, ho, Option.map_some]
    · intro i hi
      rcases List.mem_cons.1 hi with rfl | hi
      · refine ⟨hv, hn, ?_⟩
        cases optimize with
        | true => exact .inl rfl
        | false =>
          rw [hb rfl]
          exact ha.border
      · exact hg i hi

/-- `make_offspring` on a population of valid chromosomes raises nothing and gives valid chromosomes. -/
theorem makeOffspring_valid {P : Problem} (hP : C55.WellFormed P) (hlo : ∀ w < P.n, ∀ k < P.m, 0 ≤ P.lo w k) {optimize : Bool}
    {dm : Nat → MateDraw} {du : Nat → MutDraw} (hd : PossibleDraws P dm du) {pop : List Ind} (hpop : ∀ i ∈ pop, Good P optimize i) :
    ∃ off, makeOffspring P optimize dm du pop = some off ∧ ∀ i ∈ off, Good P optimize i := by
  obtain ⟨a, ha, hg⟩ := mateAll_good hP hd.1 _ pop (Nat.le_refl _) hpop 0
  obtain ⟨b, hb, hg'⟩ := mutateAll_good hP hlo hd.2 a hg 0
  exact ⟨b, by simp only [makeOffspring, ha, Option.bind_some, hb], hg'⟩

/-! ### The loop -/

open GeneticLoop

section
variable {α : Type*} {fit : α → List Int}

theorem compareAll_mem (x : α) : ∀ (hs : List α) (o : Bool) (kept : List α), ∀ a ∈ (compareAll fit x hs o kept).1, a ∈ kept ∨ a ∈ hs := by
  intro hs
  induction hs with
  | nil => intro o kept a ha; exact .inl ha
  | cons h hs ih =>
    intro o kept a ha
    unfold compareAll at ha
    split at ha
    · exact List.mem_append.1 ha
    · split at ha
      · rcases ih _ _ a ha with h' | h'
        · exact .inl h'
        · exact .inr (List.mem_cons_of_mem _ h')
      · split at ha
        · exact List.mem_append.1 ha
        · rcases ih _ _ a ha with h' | h'
          · rcases List.mem_append.1 h' with h' | h'
            · exact .inl h'
            · exact .inr (by simp at h'; simp [h'])
          · exact .inr (List.mem_cons_of_mem _ h')

theorem update_mem (pop : List α) : ∀ hof : List α, ∀ a ∈ update fit hof pop, a ∈ hof ∨ a ∈ pop := by
  unfold update
  induction pop with
  | nil => intro hof a ha; exact .inl ha
  | cons x pop ih =>
    intro hof a ha
    rw [List.foldl_cons] at ha
    rcases ih _ a ha with h | h
    · have : a ∈ hof ∨ a = x := by
        unfold updateOne at h
        simp only at h
        split at h
        · unfold GeneticLoop.insert at h
          rw [List.mem_orderedInsert] at h
          rcases h with h | h
          · exact .inr h
          · exact .inl ((compareAll_mem x hof false [] a h).resolve_left (by simp))
        · exact .inl ((compareAll_mem x hof false [] a h).resolve_left (by simp))
      rcases this with h | h
      · exact .inl h
      · exact .inr (by simp [h])
    · exact .inr (List.mem_cons_of_mem _ h)

/-- Everybody in the population and in the hall of fame has property `Q`. -/
def All (Q : α → Prop) (s : State α) : Prop := (∀ a ∈ s.pop, Q a) ∧ ∀ a ∈ s.hof, Q a

theorem loop_all {Q : α → Prop} {sel : List α → List α} (hsel : ∀ l, ∀ a ∈ sel l, a ∈ l) {env : GeneticLoop.Env α}
    (hsh : ∀ g l, (env.shuffle g l).Perm l) (hoff : ∀ g l, (∀ a ∈ l, Q a) → ∀ a ∈ env.offspring g l, Q a) {keep : α → Bool}
    {stop : State α → Bool} {maxPlateau left : Nat} {s : State α} (h : All Q s) :
    All Q (loop fit sel env keep stop maxPlateau left s) := by
  refine loop_inv (All Q) (fun s hs => ?_) (fun s g hs => hs) left s h
  have hp : ∀ a ∈ env.shuffle s.generation s.pop, Q a := fun a ha => hs.1 a ((hsh _ _).mem_iff.1 ha)
  have hpop : ∀ a ∈ (generationStep fit sel env keep s).pop, Q a := by
    intro a ha
    rcases List.mem_append.1 (hsel _ a ha) with h' | h'
    · exact hp a h'
    · exact hoff _ _ hp a (List.mem_filter.1 h').1
  refine ⟨hpop, fun a ha => ?_⟩
  rcases update_mem _ _ a ha with h' | h'
  · exact hs.2 a h'
  · exact hpop a h'

theorem start_all {Q : α → Prop} {pop : List α} (h : ∀ a ∈ pop, Q a) (g : Nat) : All Q (start fit pop g) :=
  ⟨h, fun a ha => h a ((update_mem pop [] a ha).resolve_left (by simp))⟩

end

theorem stage_all {P : Problem} (hP : C55.WellFormed P) (hlo : ∀ w < P.n, ∀ k < P.m, 0 ≤ P.lo w k) {optimize : Bool} {R : Randomness}
    (hR : R.Possible P) {fit : Ind → List Int} {sel : List Ind → List Ind} (hsel : ∀ l, ∀ a ∈ sel l, a ∈ l) {keep : Ind → Bool}
    {stop : State Ind → Bool} {maxPlateau left : Nat} {s : State Ind} (h : All (Good P optimize) s) :
    All (Good P optimize) (loop fit sel (stage P optimize R) keep stop maxPlateau left s) := by
  refine loop_all hsel hR.shuffle (fun g l hl a ha => ?_) h
  obtain ⟨off, ho, hg⟩ := makeOffspring_valid hP hlo (hR.draws g) hl
  simp only [stage, ho, Option.getD_some] at ha
  exact hg a ha

theorem runFree_all {P : Problem} (hP : C55.WellFormed P) (hlo : ∀ w < P.n, ∀ k < P.m, 0 ≤ P.lo w k) {optimize : Bool} {R : Randomness}
    (hR : R.Possible P) {fit : Ind → List Int} {sel : List Ind → List Ind} (hsel : ∀ l, ∀ a ∈ sel l, a ∈ l) {maxPlateau : Option Nat}
    {generations : Nat} {pop : List Ind} (hpop : ∀ a ∈ pop, Good P optimize a) {s : State Ind}
    (h : runFree fit sel (stage P optimize R) maxPlateau generations pop = some s) : All (Good P optimize) s := by
  unfold runFree at h
  split at h
  · cases h
  · simp only [Option.some.injEq] at h
    rw [← h]
    exact stage_all hP hlo hR hsel (start_all hpop 1)

theorem runDeadline_all {P : Problem} (hP : C55.WellFormed P) (hlo : ∀ w < P.n, ∀ k < P.m, 0 ≤ P.lo w k) {optimize : Bool}
    {R R' : Randomness} (hR : R.Possible P) (hR' : R'.Possible P) {time : Ind → Int} {res : Ind → List Int}
    {sel sel' : List Ind → List Ind} (hsel : ∀ l, ∀ a ∈ sel l, a ∈ l) (hsel' : ∀ l, ∀ a ∈ sel' l, a ∈ l) {deadline : Int}
    {fill : List Ind → Nat → List Ind} (hfill : ∀ l n, ∀ a ∈ fill l n, a ∈ l) {maxPlateau : Option Nat} {generations size : Nat}
    {pop : List Ind} (hpop : ∀ a ∈ pop, Good P optimize a) {s : State Ind}
    (h : runDeadline time res sel sel' (stage P optimize R) (stage P true R') deadline fill maxPlateau generations size pop =
      some s) : All (Good P true) s := by
  unfold runDeadline at h
  simp only at h
  split at h
  · cases h
  · have h1 := stage_all hP hlo hR (fit := fun a => [- time a]) hsel (keep := fun _ => true)
      (stop := fun s => (s.hof.head?.any fun b => decide (time b ≤ deadline)) && s.pop.all fun a => decide (time a ≤ deadline))
      (maxPlateau := maxPlateau.getD (generations / 2)) (left := generations / 2) (start_all (fit := fun a => [- time a]) hpop 1)
    generalize loop (fun a => [- time a]) sel (stage P optimize R) (fun _ => true)
      (fun s => (s.hof.head?.any fun b => decide (time b ≤ deadline)) && s.pop.all fun a => decide (time a ≤ deadline))
      (maxPlateau.getD (generations / 2)) (generations / 2) (start (fun a => [- time a]) pop 1) = s1 at h h1
    have hq : ∀ q : Ind → Bool, ∀ a ∈ s1.pop.filter q, Good P true a := fun q a ha => (h1.1 a (List.mem_filter.1 ha).1).optimize
    split at h
    · cases h
    · rename_i b hb
      split at h
      · simp only [Option.some.injEq] at h
        rw [← h]
        refine ⟨hq _, fun a ha => hq _ a ((update_mem _ _ a ha).resolve_left (by simp))⟩
      · split at h
        · cases h
        · simp only [Option.some.injEq] at h
          rw [← h]
          refine stage_all hP hlo hR' hsel' ⟨?_, ?_⟩
          · intro a ha
            dsimp only at ha
            split at ha
            · rcases List.mem_append.1 ha with ha | ha
              · exact hq _ a ha
              · exact hq _ a (hfill _ _ a ha)
            · exact hq _ a ha
          · exact (start_all (fit := res) (hq fun a => decide (time a ≤ deadline)) s1.generation).2

end Sampo.GeneticRun
