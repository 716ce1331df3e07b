import Verif.Model.StochasticEstimator
import Verif.Lemmas.Estimator

/-!
# C77: random productivity
-/

namespace Sampo.C77

open Estimator StochasticEstimator

/-- The interval has the borders `a` and `b`, both positive and in order. -/
def Borders (i : Productivity) (a b : ℚ) : Prop :=
  0 < a ∧ a ≤ b ∧ (i = .uniform a b ∨ ∃ mean sigma, i = .gaussian mean sigma (some a) (some b))

/-- The random number generator keeps its promise. -/
def Fair (draw : Nat → Draw) : Prop := ∀ n, 0 ≤ (draw n).u ∧ (draw n).u ≤ 1

private theorem rand_between {i : Productivity} {a b : ℚ} {d : Draw} (h : Borders i a b) (h0 : 0 ≤ d.u) (h1 : d.u ≤ 1) :
    a ≤ i.rand d ∧ i.rand d ≤ b := by
  obtain ⟨ha, hab, rfl | ⟨m, s, rfl⟩⟩ := h
  · unfold Productivity.rand Synthetic.uniform
    constructor <;> nlinarith
  · unfold Productivity.rand atMost atLeast
    exact ⟨le_min (le_max_right _ _) hab, min_le_right _ _⟩

private theorem time_mono {v : Int} {p q o : ℚ} (hv : 0 ≤ v) (hp : 0 < p) (hpq : p ≤ q) (ho : 0 < o) :
    mkTime ⌈(v : ℚ) / (q * o)⌉ ≤ mkTime ⌈(v : ℚ) / (p * o)⌉ := by
  apply mkTime_mono
  apply Int.ceil_le_ceil
  have hv' : (0 : ℚ) ≤ v := by exact_mod_cast hv
  have : p * o ≤ q * o := by nlinarith
  exact div_le_div_of_nonneg_left hv' (by positivity) this

private theorem productivityOf_eq {T : Table} {d : Draw} {w : Worker} {m : Int} {i : Productivity} (hi : intervalOf T w = some i)
    (h0 : 0 ≤ w.count) (hm : m ≠ 0) : productivityOf .stochastic T d w m = some (i.rand d * output w.count.toNat m) := by
  unfold productivityOf
  rw [hi]
  obtain ⟨n, hn⟩ := Int.eq_ofNat_of_zero_le h0
  dsimp only [Option.bind_some]
  rw [hn, coefficient_sum _ hm]
  simp only [Option.map_some, output, Int.toNat_natCast]
  congr 1
  push_cast
  ring

private theorem loop_between {T : Table} {L H : Means} {draw : Nat → Draw} {team : List Worker} (hd : Fair draw)
    (hb : ∀ w ∈ team, ∃ i a b, intervalOf T w = some i ∧ Borders i a b ∧ meanOf L w = some a ∧ meanOf H w = some b) :
    ∀ {reqs : List Req} {n : Nat} {t1 t t2 : Int}, Sound reqs → Fits team reqs → t1 ≤ t → t ≤ t2 →
      ∃ s1 s s2, reqLoop H team reqs t1 = some s1 ∧ loop .stochastic T draw team reqs n t = some s ∧
        reqLoop L team reqs t2 = some s2 ∧ s1 ≤ s ∧ s ≤ s2 := by
  intro reqs
  induction reqs with
  | nil => intro n t1 t t2 _ _ h1 h2; exact ⟨_, _, _, rfl, rfl, rfl, by omega, by omega⟩
  | cons r rs ih =>
    intro n t1 t t2 hs hf h1 h2
    have hs' : Sound rs := fun x hx => hs x (List.mem_cons_of_mem _ hx)
    have hf' : Fits team rs := fun x hx => hf x (List.mem_cons_of_mem _ hx)
    have hr := hs r (List.mem_cons_self ..)
    unfold reqLoop loop
    by_cases hz : r.minCount = 0
    · simp only [if_pos hz]; exact ih hs' hf' h1 h2
    · simp only [if_neg hz]
      cases hw : workerOf team r.kind with
      | none =>
        dsimp only
        rw [if_pos (by omega)]
        exact ⟨_, _, _, rfl, rfl, rfl, Int.le_refl _, Int.le_refl _⟩
      | some w =>
        dsimp only
        by_cases hc : w.count < r.minCount
        · simp only [if_pos hc]
          exact ⟨_, _, _, rfl, rfl, rfl, Int.le_refl _, Int.le_refl _⟩
        · simp only [if_neg hc]
          have hmax := hf r (List.mem_cons_self ..) w (isWorker_iff.mpr hw)
          obtain ⟨i, a, b, hi, hbo, hL, hH⟩ := hb w (workerOf_mem hw).1
          obtain ⟨ra, rb⟩ := rand_between hbo (hd n).1 (hd n).2
          have ha := hbo.1
          have hout := output_ge (m := r.maxCount) (n := w.count.toNat) (by omega) (by omega)
          have hn : (1 : ℚ) ≤ (w.count.toNat : ℚ) := by
            have : 1 ≤ w.count.toNat := by omega
            exact_mod_cast this
          have ho : 0 < output w.count.toNat r.maxCount := by linarith
          rw [productivity_eq hL (by omega) (by omega), productivity_eq hH (by omega) (by omega),
            productivityOf_eq hi (by omega) (by omega)]
          simp only [Option.bind_some]
          have e1 : a * output w.count.toNat r.maxCount ≠ 0 := by
            have := mul_pos ha ho; exact ne_of_gt this
          have e2 : b * output w.count.toNat r.maxCount ≠ 0 := by
            have := mul_pos (by linarith : 0 < b) ho; exact ne_of_gt this
          have e3 : i.rand (draw n) * output w.count.toNat r.maxCount ≠ 0 := by
            have := mul_pos (by linarith : 0 < i.rand (draw n)) ho; exact ne_of_gt this
          rw [if_neg e1, if_neg e2, if_neg e3]
          have m1 := time_mono hr.2 (by linarith : 0 < i.rand (draw n)) rb ho
          have m2 := time_mono hr.2 ha ra ho
          exact ih hs' hf' (by omega) (by omega)

/-- With random productivity, each from an interval with positive borders, the estimate is not below the one with all productivities at
their upper borders and not above the one with all at their lower borders. -/
theorem between {T : Table} {L H : Means} {draw : Nat → Draw} {team : List Worker} {reqs : List Req} (hd : Fair draw)
    (hb : ∀ w ∈ team, ∃ i a b, intervalOf T w = some i ∧ Borders i a b ∧ meanOf L w = some a ∧ meanOf H w = some b)
    (hs : Sound reqs) (hf : Fits team reqs) :
    ∃ fast t slow, estimate H reqs team = some fast ∧ estimateWith .stochastic T draw reqs team = some t ∧
      estimate L reqs team = some slow ∧ fast ≤ t ∧ t ≤ slow := by
  unfold estimate estimateWith
  by_cases ht : team = []
  · simp only [if_pos ht]
    exact ⟨_, _, _, rfl, rfl, rfl, Int.le_refl _, Int.le_refl _⟩
  · simp only [if_neg ht]
    exact loop_between hd hb hs hf (Int.le_refl _) (Int.le_refl _)

private theorem loop_static {T : Table} {P : Means} {draw : Nat → Draw} {team : List Worker}
    (h : ∀ w ∈ team, meanOf P w = (intervalOf T w).bind Productivity.mean) :
    ∀ {reqs : List Req} {n : Nat} {t : Int}, loop .static T draw team reqs n t = reqLoop P team reqs t := by
  intro reqs
  induction reqs with
  | nil => intro n t; rfl
  | cons r rs ih =>
    intro n t
    unfold loop reqLoop
    by_cases hz : r.minCount = 0
    · rw [if_pos hz, if_pos hz]; exact ih
    · rw [if_neg hz, if_neg hz]
      cases hw : workerOf team r.kind with
      | none => rfl
      | some w =>
        dsimp only
        by_cases hc : w.count < r.minCount
        · rw [if_pos hc, if_pos hc]
        · rw [if_neg hc, if_neg hc]
          have : productivityOf .static T (draw n) w r.maxCount = productivity P w r.maxCount := by
            unfold productivityOf productivity
            rw [h w (workerOf_mem hw).1]
            cases intervalOf T w <;> rfl
          rw [this]
          cases productivity P w r.maxCount with
          | none => rfl
          | some p => simp only [Option.bind_some, ih]

/-- Without random productivity the estimate does not depend on chance: it is the one with the means. -/
theorem static_mode {T : Table} {P : Means} {draw : Nat → Draw} {team : List Worker} {reqs : List Req}
    (h : ∀ w ∈ team, meanOf P w = (intervalOf T w).bind Productivity.mean) :
    estimateWith .static T draw reqs team = estimate P reqs team := by
  unfold estimateWith estimate
  rw [loop_static h]

/-- Not proved because false: "an estimator with random productivity can be used as it is".  The productivities of a new estimator have
their borders swapped, so that they are always 0: every work that needs somebody takes infinitely long, whatever team does it. -/
theorem new_estimator_infinite {known : List Nat} {draw : Nat → Draw} {team : List Worker} {reqs : List Req}
    (hk : ∀ w ∈ team, w.name ∈ known) (hne : team ≠ []) (hs : Sound reqs) (hf : Fits team reqs) (hr : ∃ r ∈ reqs, 0 < r.minCount) :
    estimateWith .stochastic (initial known) draw reqs team = some TIME_INF := by
  unfold estimateWith
  rw [if_neg hne]
  have : ∀ {reqs : List Req} {n : Nat} {t : Int}, Sound reqs → Fits team reqs → (∃ r ∈ reqs, 0 < r.minCount) →
      loop .stochastic (initial known) draw team reqs n t = some TIME_INF := by
    intro reqs
    induction reqs with
    | nil => intro n t _ _ h; simp at h
    | cons r rs ih =>
      intro n t hs hf hr
      have hs' : Sound rs := fun x hx => hs x (List.mem_cons_of_mem _ hx)
      have hf' : Fits team rs := fun x hx => hf x (List.mem_cons_of_mem _ hx)
      have hr0 := hs r (List.mem_cons_self ..)
      unfold loop
      by_cases hz : r.minCount = 0
      · rw [if_pos hz]
        refine ih hs' hf' ?_
        obtain ⟨q, hq, hq0⟩ := hr
        rcases List.mem_cons.mp hq with rfl | hq
        · omega
        · exact ⟨q, hq, hq0⟩
      · rw [if_neg hz]
        cases hw : workerOf team r.kind with
        | none => dsimp only; rw [if_pos (by omega), timeInf_eq]
        | some w =>
          dsimp only
          by_cases hc : w.count < r.minCount
          · rw [if_pos hc, timeInf_eq]
          · rw [if_neg hc]
            have hmax := hf r (List.mem_cons_self ..) w (isWorker_iff.mpr hw)
            have hi : intervalOf (initial known) w = some (.gaussian 1 (1 / 5) (some 1) (some 0)) := by
              unfold intervalOf initial
              rw [if_pos (hk w (workerOf_mem hw).1)]
              rfl
            rw [productivityOf_eq hi (by omega) (by omega), Option.bind_some]
            have hz : (Productivity.gaussian 1 (1 / 5) (some 1) (some 0)).rand (draw n) = 0 := by
              unfold Productivity.rand atMost atLeast
              exact min_eq_right (le_trans (by norm_num) (le_max_right _ _))
            rw [hz, zero_mul, if_pos rfl, timeInf_eq]
  exact this hs hf hr

/-- Not proved because false: "without borders, productivity varies around its mean".  It may be drawn negative, and then the work is
done at once. -/
theorem negative_is_instant : ∃ T, setProductivity (initial [0]) (.gaussian 1 (1 / 5) none none) 0 none = some T ∧
    estimateWith .stochastic T (fun _ => ⟨0, -6⟩) [⟨0, 100, 1, 2⟩] [⟨0, 0, 2⟩] = some 0 :=
  ⟨_, rfl, by decide +kernel⟩

/-- Not proved because false: "any interval can be a productivity".  Without random productivity, a uniform one raises. -/
theorem uniform_raises : ∃ T, setProductivity (initial [0]) (.uniform (1 / 2) 2) 0 none = some T ∧
    ∀ draw, estimateWith .static T draw [⟨0, 100, 1, 2⟩] [⟨0, 0, 2⟩] = none :=
  ⟨_, rfl, fun _ => rfl⟩

/-- The same team may take different times for the same work. -/
theorem not_repeatable : ∃ T, setProductivity (initial [0]) (.uniform (1 / 2) 2) 0 none = some T ∧
    estimateWith .stochastic T (fun _ => ⟨0, 0⟩) [⟨0, 100, 1, 2⟩] [⟨0, 0, 2⟩] = some 58 ∧
    estimateWith .stochastic T (fun _ => ⟨1 / 2, 0⟩) [⟨0, 100, 1, 2⟩] [⟨0, 0, 2⟩] = some 23 :=
  ⟨_, rfl, by decide +kernel, by decide +kernel⟩

/-- A productivity set for a contractor holds for that contractor's workers of that profession and for nobody else. -/
theorem set_for_contractor {T T' : Table} {i : Productivity} {name c : Nat} (h : setProductivity T i name (some c) = some T') (w : Worker) :
    intervalOf T' w = if w.name = name ∧ w.contractor = c then some i else intervalOf T w := by
  obtain ⟨p, hp, rfl⟩ := Option.map_eq_some_iff.mp h
  unfold intervalOf
  by_cases hn : w.name = name
  · rw [hn, Function.update_self, hp]
    by_cases hc : w.contractor = c
    · rw [if_pos ⟨rfl, hc⟩, hc]
      simp
    · rw [if_neg (fun x => hc x.2)]
      simp [Function.update_of_ne hc]
  · rw [Function.update_of_ne hn, if_neg (fun x => hn x.1)]

/-- A productivity set for a profession holds for all its workers but those whose contractor has its own. -/
theorem set_for_all {T T' : Table} {i : Productivity} {name : Nat} (h : setProductivity T i name none = some T') (w : Worker) :
    intervalOf T' w = if w.name = name ∧ ((T name).bind fun p => p.2 w.contractor) = none then some i else intervalOf T w := by
  obtain ⟨p, hp, rfl⟩ := Option.map_eq_some_iff.mp h
  unfold intervalOf
  by_cases hn : w.name = name
  · rw [hn, Function.update_self, hp]
    cases hc : p.2 w.contractor with
    | none => rw [if_pos ⟨rfl, by simp [hc]⟩]; simp [hc]
    | some q => rw [if_neg (by simp [hc])]; simp [hc]
  · rw [Function.update_of_ne hn, if_neg (fun x => hn x.1)]

/-! ### Hypotheses are met -/

/-- Professions 0 and 1; contractor 1 has its own productivity for profession 0. -/
def demo : Table := fun name =>
  if name = 0 then some (.uniform 1 2, Function.update (fun _ => none) 1 (some (.gaussian 3 1 (some 2) (some 4))))
  else if name = 1 then some (.gaussian 1 (1 / 5) (some (1 / 2)) (some 2), fun _ => none) else none

def crew : List Worker := [⟨1, 0, 2⟩, ⟨1, 1, 3⟩]

def demands : List Req := [⟨0, 100, 1, 4⟩, ⟨1, 40, 2, 4⟩]

def lower : Means := fun name => if name = 0 then some (2, fun _ => none) else some (1 / 2, fun _ => none)

def upper : Means := fun name => if name = 0 then some (4, fun _ => none) else some (2, fun _ => none)

example : ∀ w ∈ crew, ∃ i a b, intervalOf demo w = some i ∧ Borders i a b ∧ meanOf lower w = some a ∧ meanOf upper w = some b := by
  intro w hw
  simp only [crew, List.mem_cons, List.not_mem_nil, or_false] at hw
  rcases hw with rfl | rfl
  · exact ⟨_, 2, 4, rfl, ⟨by norm_num, by norm_num, Or.inr ⟨3, 1, rfl⟩⟩, rfl, rfl⟩
  · exact ⟨_, 1 / 2, 2, rfl, ⟨by norm_num, by norm_num, Or.inr ⟨1, 1 / 5, rfl⟩⟩, rfl, rfl⟩

example : Sound demands ∧ Fits crew demands := by
  refine ⟨?_, ?_⟩
  · intro r hr
    simp only [demands, List.mem_cons, List.not_mem_nil, or_false] at hr
    rcases hr with rfl | rfl <;> decide
  · intro r hr w hw
    have hm := (workerOf_mem (isWorker_iff.mp hw)).1
    simp only [demands, crew, List.mem_cons, List.not_mem_nil, or_false] at hr hm
    rcases hr with rfl | rfl <;> rcases hm with rfl | rfl <;> decide

example : Fair fun n => ⟨1 / (n + 1), 0⟩ := by
  intro n
  have : (0 : ℚ) < (n : ℚ) + 1 := by positivity
  constructor
  · positivity
  · rw [div_le_one this]
    have : (0 : ℚ) ≤ n := by positivity
    linarith

example : estimate upper demands crew = some 7 ∧ estimateWith .stochastic demo (fun _ => ⟨1 / 2, 0⟩) demands crew = some 9 ∧
    estimate lower demands crew = some 13 := by decide +kernel

example : ∀ w ∈ crew, meanOf (fun name => if name = 0 then some (3, fun _ => none) else some (1, fun _ => none)) w
    = (intervalOf demo w).bind Productivity.mean := by decide

example : (∀ w ∈ crew, w.name ∈ [0, 1]) ∧ crew ≠ [] ∧ ∃ r ∈ demands, 0 < r.minCount := by decide

end Sampo.C77
